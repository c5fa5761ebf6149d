import Verif.Check.Spec
import Verif.Special.Spec

/-! # What the generated elementary functions have to return

Independent of the code. `Verif.Check.Faithful` and `Verif.Check.RoundsTo` define the accuracy of a result. -/

namespace Verif.Elem

open Verif.Float (Fmt Val)

/-- `a` is a datum of the format and stands for the real `x` (both zeros stand for `0`). -/
def IsReal (F : Fmt) (a : Val) (x : ℝ) : Prop := F.Datum a ∧ Check.value a = some (x : EReal)

open Special in
/-- IEEE-754 division where the result does not depend on rounding: a NaN gives a quiet NaN, `0/0` and `inf/inf` are invalid, all the other results
have the product of the signs: infinite for an infinite dividend or a null divisor, zero for an infinite divisor or a null dividend. -/
structure DivSpecial (a b r : Val) : Prop where
  nan : IsNaN a ∨ IsNaN b → r = .qNaN
  invalid : (IsZero a ∧ IsZero b) ∨ (IsInf a ∧ IsInf b) → r = .qNaN
  infL : IsInf a → (∃ w, finVal b = some w) → r = if xor (neg a) (neg b) then .minusInf else .plusInf
  byZero : IsZero b → (∃ v, finVal a = some v ∧ v ≠ 0) → r = if xor (neg a) (neg b) then .minusInf else .plusInf
  byInf : IsInf b → (∃ v, finVal a = some v) → r = if xor (neg a) (neg b) then .minusZero else .plusZero
  zero : IsZero a → (∃ w, finVal b = some w ∧ w ≠ 0) → r = if xor (neg a) (neg b) then .minusZero else .plusZero

open Special in
/-- IEEE-754 square root where the result does not depend on rounding: a zero is returned with its sign, a negative operand is invalid. -/
structure SqrtSpecial (a r : Val) : Prop where
  nan : IsNaN a → r = .qNaN
  invalid : neg a = true → ¬ IsZero a → r = .qNaN
  inf : a = .plusInf → r = .plusInf
  plusZero : a = .plusZero → r = .plusZero
  minusZero : a = .minusZero → r = .minusZero

open Special in
/-- IEEE-754 `rSqrt` (clause 9.2): the infinity of the sign of a zero, zero for `+inf`, invalid for a negative operand. -/
structure RsqrtSpecial (a r : Val) : Prop where
  nan : IsNaN a → r = .qNaN
  invalid : neg a = true → ¬ IsZero a → r = .qNaN
  inf : a = .plusInf → r = .plusZero
  plusZero : a = .plusZero → r = .plusInf
  minusZero : a = .minusZero → r = .minusInf

end Verif.Elem
