import Verif.Check.Spec
import Mathlib.Data.Real.Basic

/-! # Threshold of a function on the numbers of a format

Independent of the code: what the documentation of `search_bound_threshold` promises. -/

namespace Verif.Search

open Verif.Float (Fmt)

/-- `x` is the least number of the format between `s` and `e` where the function, rounded to nearest, reaches the limit. -/
def IsThreshold (F : Fmt) (f : ℝ → ℝ) (limit : ℝ) (s e x : ℚ) : Prop :=
  F.Finite x ∧ s ≤ x ∧ x ≤ e ∧ (∃ v : ℚ, Check.NearestEven F (f x) v ∧ limit ≤ v) ∧
    ∀ y : ℚ, F.Finite y → s ≤ y → y < x → ∀ v : ℚ, Check.NearestEven F (f y) v → (v : ℝ) < limit

end Verif.Search
