import Mathlib.Analysis.Calculus.Deriv.Basic
import Mathlib.Data.Real.Basic

/-! # Smooth functions on an interval -/

namespace Verif.Bipart

/-- `f` has a derivative on `[lo, lo + R]`, and it varies by at most `M` times the distance (a bound of the second derivative) -/
structure Smooth (f f' : ℝ → ℝ) (lo R M : ℝ) : Prop where
  deriv : ∀ x ∈ Set.Icc lo (lo + R), HasDerivAt f (f' x) x
  lip : ∀ x ∈ Set.Icc lo (lo + R), ∀ y ∈ Set.Icc lo (lo + R), |f' x - f' y| ≤ M * |x - y|

/-- the input with index `X` among `2^n` equally spaced ones -/
noncomputable def point (lo R : ℝ) (n X : ℕ) : ℝ := lo + R * X / 2 ^ n

end Verif.Bipart
