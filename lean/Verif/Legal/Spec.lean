import Verif.Float.Spec
import Mathlib.Order.WithBot

/-!
# Specification for the bit-level lowerings (C30, C31, C32): IEEE-754 classes and values of bit patterns
-/

namespace Verif.Legal

open Verif.Float (Fmt)

/-- Width of the encodings of a format. -/
abbrev width (F : Fmt) : ℕ := 1 + F.e + F.f

/-- Sign, exponent and trailing significand fields of a pattern (IEEE-754 clause 3.4). -/
def signField (F : Fmt) (c : ℕ) : ℕ := c / 2 ^ (F.e + F.f) % 2
def expField (F : Fmt) (c : ℕ) : ℕ := c / 2 ^ F.f % 2 ^ F.e
def trailField (F : Fmt) (c : ℕ) : ℕ := c % 2 ^ F.f

/-- IEEE-754 classes, without the sign. -/
inductive Cls where
  | qNaN | sNaN | inf | zero | subnormal | normal
  deriving DecidableEq, Repr

/-- The class of a pattern (IEEE-754 clauses 3.4 and 6.2.1: the first bit of the trailing significand
tells quiet from signaling NaNs). -/
def cls (F : Fmt) (c : ℕ) : Cls :=
  if expField F c = 2 ^ F.e - 1 then
    if trailField F c = 0 then .inf
    else if 2 ^ (F.f - 1) ≤ trailField F c then .qNaN else .sNaN
  else if expField F c = 0 then
    if trailField F c = 0 then .zero else .subnormal
  else .normal

/-- The value of a finite pattern (IEEE-754 clause 3.4):
`(-1)^S * 2^(max(E,1) - emax) * ([E ≠ 0] + T / 2^f)`. -/
def value (F : Fmt) (c : ℕ) : ℚ :=
  (-1) ^ signField F c * (2 : ℚ) ^ ((max (expField F c) 1 : ℕ) - F.emax) *
    ((if expField F c = 0 then 0 else 1) + trailField F c / 2 ^ F.f)

/-! ## Comparison of floating-point data -/

open Verif.Float (Val)

/-- The extended number a datum stands for; NaNs stand for none. -/
def ext : Val → Option (WithBot (WithTop ℚ))
  | .plusInf => some ((⊤ : WithTop ℚ))
  | .minusInf => some ⊥
  | .plusZero | .minusZero => some (((0 : ℚ) : WithTop ℚ))
  | .num v => some ((v : WithTop ℚ))
  | .qNaN | .sNaN => none

/-- IEEE-754 comparisons (clause 5.11): false as soon as an operand is a NaN. -/
def less (a b : Val) : Prop := ∃ x y, ext a = some x ∧ ext b = some y ∧ x < y
def lessEq (a b : Val) : Prop := ∃ x y, ext a = some x ∧ ext b = some y ∧ x ≤ y

/-- Sign of a datum (for NaNs: the sign of the codes the format gives them, see C01). -/
def isNeg : Val → Prop
  | .plusInf | .plusZero => False
  | .minusInf | .minusZero | .qNaN | .sNaN => True
  | .num v => v < 0

end Verif.Legal
