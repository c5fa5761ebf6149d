import Verif.Float.Spec
import Mathlib.Order.WithBot
import Mathlib.Data.Sign.Basic

/-!
# IEEE-754 comparison and arithmetic of special values

Operands are `Verif.Float.Val`: NaNs, infinities, signed zeros, or a number object (`num v`, where `v = 0` is possible: the
numeric zero object of the library, distinct from the signed zero objects).
-/

namespace Verif.Special
open Verif.Float (Val)

/-- NaN operands. -/
def IsNaN : Val → Prop
  | .qNaN | .sNaN => True
  | _ => False

instance : DecidablePred IsNaN := fun v => by cases v <;> simp only [IsNaN] <;> infer_instance

/-- Position of a non-NaN value on the extended number line. -/
def ext : Val → WithBot (WithTop ℚ)
  | .minusInf => ⊥
  | .plusInf => ((⊤ : WithTop ℚ) : WithBot (WithTop ℚ))
  | .num v => ((v : WithTop ℚ) : WithBot (WithTop ℚ))
  | _ => (((0 : ℚ) : WithTop ℚ) : WithBot (WithTop ℚ))

/-- Outcome of a comparison: true, false or unordered. -/
inductive Tri where
  | yes | no | unordered
  deriving DecidableEq, Repr

/-- IEEE-754 `<`: unordered on NaN, otherwise the order of the extended number line. -/
def ltSpec (a b : Val) : Tri := if IsNaN a ∨ IsNaN b then .unordered else if ext a < ext b then .yes else .no

/-- IEEE-754 `<=`. -/
def leSpec (a b : Val) : Tri := if IsNaN a ∨ IsNaN b then .unordered else if ext a ≤ ext b then .yes else .no

/-- IEEE-754 `==`: false on NaN, otherwise equality on the extended number line (zeros of any sign are equal). -/
def eqSpec (a b : Val) : Tri := if IsNaN a ∨ IsNaN b then .no else if ext a = ext b then .yes else .no

/-- IEEE-754 `!=`: true on NaN, otherwise difference on the extended number line. -/
def neSpec (a b : Val) : Tri := if IsNaN a ∨ IsNaN b then .yes else if ext a = ext b then .no else .yes

/-- The finite numeric value of a non-NaN finite operand, zero for signed zeros; none for NaN and infinities. -/
def finVal : Val → Option ℚ
  | .num v => some v
  | .plusZero | .minusZero => some 0
  | _ => none

/-- Sign of an operand: negative for `-inf`, `-0` and negative numbers, positive otherwise. -/
def neg : Val → Bool
  | .minusInf | .minusZero => true
  | .num v => decide (v < 0)
  | _ => false

/-- Zero operands (signed zeros and the numeric zero). -/
def IsZero (a : Val) : Prop := finVal a = some 0

/-- Infinite operands. -/
def IsInf : Val → Prop
  | .plusInf | .minusInf => True
  | _ => False

/-- IEEE-754 addition, as far as the result does not depend on rounding:
NaN is absorbing, opposite infinities are invalid, an infinity wins over anything finite, finite operands add up, and two
signed zeros of the same sign give that zero. -/
structure AddOK (a b r : Val) : Prop where
  nan : IsNaN a ∨ IsNaN b → r = .qNaN
  invalid : (a = .plusInf ∧ b = .minusInf) ∨ (a = .minusInf ∧ b = .plusInf) → r = .qNaN
  infL : IsInf a → (b = a ∨ ∃ v, finVal b = some v) → r = a
  infR : IsInf b → (a = b ∨ ∃ v, finVal a = some v) → r = b
  fin : ∀ v w, finVal a = some v → finVal b = some w → finVal r = some (v + w)
  plusZeros : a = .plusZero → b = .plusZero → r = .plusZero
  minusZeros : a = .minusZero → b = .minusZero → r = .minusZero

/-- IEEE-754 opposite. -/
def opp : Val → Val
  | .plusInf => .minusInf
  | .minusInf => .plusInf
  | .plusZero => .minusZero
  | .minusZero => .plusZero
  | .num v => .num (-v)
  | x => x

/-- IEEE-754 multiplication: NaN is absorbing, `0 * inf` is invalid, otherwise an infinite operand gives the infinity whose
sign is the product of signs, finite operands multiply, and a signed zero result has the product of signs. -/
structure MulOK (a b r : Val) : Prop where
  nan : IsNaN a ∨ IsNaN b → r = .qNaN
  invalid : (IsZero a ∧ IsInf b) ∨ (IsInf a ∧ IsZero b) → r = .qNaN
  inf : (IsInf a ∧ ¬ IsNaN b ∧ ¬ IsZero b) ∨ (IsInf b ∧ ¬ IsNaN a ∧ ¬ IsZero a) →
    r = if xor (neg a) (neg b) then .minusInf else .plusInf
  fin : ∀ v w, finVal a = some v → finVal b = some w → finVal r = some (v * w)
  zeroSign : ∀ v w, finVal a = some v → finVal b = some w → r = .plusZero ∨ r = .minusZero →
    r = if xor (neg a) (neg b) then .minusZero else .plusZero

/-- IEEE-754 division: NaN is absorbing, `0/0` and `inf/inf` are invalid, infinity over anything finite is an infinity, a
non-zero finite number over zero is an infinity, a finite number over an infinity is a zero, all with the product of signs,
and finite operands divide. -/
structure DivOK (a b r : Val) : Prop where
  nan : IsNaN a ∨ IsNaN b → r = .qNaN
  invalid : (IsZero a ∧ IsZero b) ∨ (IsInf a ∧ IsInf b) → r = .qNaN
  infL : IsInf a → (∃ w, finVal b = some w) → r = if xor (neg a) (neg b) then .minusInf else .plusInf
  byZero : IsZero b → (∃ v, finVal a = some v ∧ v ≠ 0) → r = if xor (neg a) (neg b) then .minusInf else .plusInf
  byInf : IsInf b → (∃ v, finVal a = some v) → r = if xor (neg a) (neg b) then .minusZero else .plusZero
  fin : ∀ v w, finVal a = some v → finVal b = some w → w ≠ 0 → finVal r = some (v / w)

end Verif.Special
