import Verif.Elem.Spec

/-! # What `remquo` and `fmod` have to return

Independent of the code: IEEE-754 clause 5.3.1 (`remainder`), C17 7.12.10 and F.10.7. -/

namespace Verif.Rem

open Verif.Float (Fmt Val)

/-- IEEE-754 `remainder`: `r = x - n y` exactly, `n` the integer nearest to `x / y`, even if there are two. -/
def IsRemainder (x y r : ℝ) (n : ℤ) : Prop := r = x - n * y ∧ 2 * |r| ≤ |y| ∧ (2 * |r| = |y| → Even n)

/-- C `fmod`: `r = x - n y` exactly for an integer `n`, smaller than `y` in magnitude, and not of the sign opposite to that of `x`. -/
def IsFmod (x y r : ℝ) (n : ℤ) : Prop := r = x - n * y ∧ |r| < |y| ∧ 0 ≤ r * x

/-- C17 7.12.10.3: the sign of `x / y` and a magnitude congruent modulo `2^k` to that of the integral quotient, here the least one. -/
def QuotientBits (k : ℕ) (x y : ℝ) (n q : ℤ) : Prop :=
  (0 < x / y → q = |n| % 2 ^ k) ∧ (x / y < 0 → q = -(|n| % 2 ^ k))

open Special in
/-- The operands for which the result is not that of the division of two numbers (C17 F.10.7.1 to F.10.7.3, the same for `fmod` and `remquo`): a NaN
operand, an infinite dividend and a null divisor give a NaN, an infinite divisor and a null dividend give the dividend. -/
structure RemSpecial (a b r : Val) : Prop where
  nan : IsNaN a ∨ IsNaN b → r = .qNaN
  infL : IsInf a → r = .qNaN
  byZero : IsZero b → r = .qNaN
  byInf : IsInf b → (∃ v, finVal a = some v) → r = a
  zero : IsZero a → (∃ w, finVal b = some w ∧ w ≠ 0) → r = a

end Verif.Rem
