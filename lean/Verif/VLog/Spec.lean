import Verif.Legal.Spec
import Mathlib.Analysis.SpecialFunctions.Log.Basic

/-! # Specification: positive numbers as bit patterns, and a subtraction that is right whenever the result needs no rounding

Independent of the code. -/

namespace Verif.VLog

open Verif.Float (Fmt)
open Verif.Legal (cls value)

/-- the pattern of a positive finite number -/
def PosFinite (F : Fmt) (c : ℕ) : Prop := c < 2 ^ (F.e + F.f) ∧ (cls F c = .normal ∨ cls F c = .subnormal)

/-- `sub` maps the pattern of a number to the pattern of that number minus one, at least when the difference is a positive number of the format
(any rounding of IEEE-754 is exact then) -/
def ExactSub (F : Fmt) (sub : ℕ → ℕ) : Prop :=
  ∀ Z D, PosFinite F Z → PosFinite F D → value F D = value F Z - 1 → sub Z = D

/-- a format in which the binary logarithm of one unit in the last place is a normal exponent -/
def Wide (F : Fmt) : Prop := 3 ≤ F.e ∧ F.f + 2 ≤ 2 ^ (F.e - 1)

end Verif.VLog
