import Verif.Float.Spec
import Mathlib.Data.EReal.Basic

/-! # What it means for a result to meet an accuracy goal

Independent of the code. The exact value of a function is a special value or a real number; the result is a datum of the format. -/

namespace Verif.Check

open Verif.Float (Fmt Val)

/-- The extended real a datum stands for, `none` for a NaN. -/
noncomputable def value : Val → Option EReal
  | .plusInf => some ⊤
  | .minusInf => some ⊥
  | .qNaN => none
  | .sNaN => none
  | .plusZero => some 0
  | .minusZero => some 0
  | .num v => some ((v : ℝ) : EReal)

/-- `r` is faithful to `x`: it is the greatest datum below `x` or the least datum above. -/
def Faithful (F : Fmt) (x : ℝ) (r : Val) : Prop :=
  ∃ p, value r = some p ∧
    ((p ≤ (x : EReal) ∧ ∀ w q, F.Datum w → value w = some q → q ≤ (x : EReal) → q ≤ p) ∨
     ((x : EReal) ≤ p ∧ ∀ w q, F.Datum w → value w = some q → (x : EReal) ≤ q → p ≤ q))

/-- The numbers of the format if there was no largest exponent. -/
def Unbounded (F : Fmt) (v : ℚ) : Prop := ∃ m E : ℤ, |m| < 2 ^ (F.f + 1) ∧ F.emin ≤ E ∧ v = m * (2 : ℚ) ^ (E - F.f)

/-- The significand of `v` is even, with the least exponent `v` can have in the format. -/
def EvenSignificand (F : Fmt) (v : ℚ) : Prop :=
  ∃ m E : ℤ, |m| < 2 ^ (F.f + 1) ∧ F.emin ≤ E ∧ (2 ^ F.f ≤ |m| ∨ E = F.emin) ∧ Even m ∧ v = m * (2 : ℚ) ^ (E - F.f)

/-- `v` is the nearest number to `x`, the one with an even significand if there are two. -/
def NearestEven (F : Fmt) (x : ℝ) (v : ℚ) : Prop :=
  Unbounded F v ∧ (∀ w, Unbounded F w → |x - v| ≤ |x - w|) ∧ (∀ w, Unbounded F w → w ≠ v → |x - w| = |x - v| → EvenSignificand F v)

/-- IEEE-754 clause 4.3.1, `roundTiesToEven`: the nearest number, an infinity if it is out of the format; a zero has the sign of `x`. -/
def RoundsTo (F : Fmt) (x : ℝ) (r : Val) : Prop :=
  ∃ v, NearestEven F x v ∧
    ((F.Finite v ∧ v ≠ 0 ∧ r = .num v) ∨ (v = 0 ∧ r = if x < 0 then .minusZero else .plusZero) ∨
     (¬ F.Finite v ∧ r = if x < 0 then .minusInf else .plusInf))

end Verif.Check
