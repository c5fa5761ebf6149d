import Verif.Special.Spec
import Verif.Blocks.Spec
import Mathlib.Analysis.SpecialFunctions.Log.Basic

/-! # What a logarithm has to return

Independent of the code. -/

namespace Verif.Log

open Verif.Float (Val)

/-- the exceptions a special case may raise -/
inductive Flag where
  | invalid
  | divByZero
  deriving DecidableEq

open Special in
/-- IEEE-754 clause 9.2: the cases of `log` that do not depend on rounding, with the exception they signal -/
structure LogSpecial (a r : Val) (fl : List Flag) : Prop where
  quiet : a = .qNaN → r = .qNaN ∧ fl = []
  signaling : a = .sNaN → r = .qNaN ∧ fl = [.invalid]
  negative : neg a = true → ¬ IsZero a → r = .qNaN ∧ fl = [.invalid]
  zero : IsZero a → r = .minusInf ∧ fl = [.divByZero]
  inf : a = .plusInf → r = .plusInf ∧ fl = []

/-- `P` approximates the function `log(1+r)/r - 1` on the reduced arguments with an absolute error of at most `η`, approximation and evaluation
together, and returns numbers of the format -/
structure PolyOk (p : ℕ) (η : ℝ) (P : ℚ → ℚ) : Prop where
  rep : ∀ r, Blocks.Rep p ⊥ (P r)
  err : ∀ r : ℚ, r ≠ 0 → |r| ≤ 1 / 64 → |(P r : ℝ) - (Real.log (1 + r) / r - 1)| ≤ η

end Verif.Log
