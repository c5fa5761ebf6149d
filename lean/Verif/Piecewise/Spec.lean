import Mathlib.Data.Real.Basic
import Mathlib.Algebra.BigOperators.Group.Finset.Basic

/-! # Polynomials and roundings

Independent of the code. -/

namespace Verif.Piecewise

/-- The value at `r` of the polynomial of coefficients `c 0 … c n`. -/
noncomputable def polyVal (c : ℕ → ℝ) (n : ℕ) (r : ℝ) : ℝ := ∑ j ∈ Finset.range (n + 1), c j * r ^ j

/-- The same with absolute values. -/
noncomputable def polyAbs (c : ℕ → ℝ) (n : ℕ) (r : ℝ) : ℝ := ∑ j ∈ Finset.range (n + 1), |c j| * |r| ^ j

/-- A rounding of relative error at most `u`. -/
def RelRounding (u : ℝ) (rd : ℝ → ℝ) : Prop := ∀ x, |rd x - x| ≤ u * |x|

/-- `e` is the largest of the numbers `l` and zero. -/
def IsMax (e : ℝ) (l : List ℝ) : Prop := (e = 0 ∨ e ∈ l) ∧ 0 ≤ e ∧ ∀ x ∈ l, x ≤ e

end Verif.Piecewise
