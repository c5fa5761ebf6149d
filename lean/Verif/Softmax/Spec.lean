import Mathlib.Analysis.SpecialFunctions.Exp
import Mathlib.Algebra.BigOperators.Group.Finset.Basic

/-! # The softmax function -/

namespace Verif.Softmax

/-- the `k`-th value of the softmax of `x 0, ..., x (n - 1)` -/
noncomputable def softmax (n : ℕ) (x : ℕ → ℝ) (k : ℕ) : ℝ := Real.exp (x k) / ∑ j ∈ Finset.range n, Real.exp (x j)

end Verif.Softmax
