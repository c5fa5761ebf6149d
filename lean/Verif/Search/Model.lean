import Verif.Check.Model
import Verif.Float.Model

/-! # The search of a threshold by dichotomy: metalibm_core/core/approximation.py:289-330

Sollya's rounding to the format is `Verif.Check.roundUnb` (no largest exponent: the numbers compared are below the largest one). The loop is run with
a number of iterations that it may take; `none` is a loop that has not finished. -/

namespace Verif.Search

open Verif.Float (Fmt fpNext)
open Verif.Check (roundUnb)

/-- approximation.py:300,322 `mid_point` -/
noncomputable def midPoint (F : Fmt) (l r : ℚ) : ℚ := roundUnb F .RU (((l + r) / 2 : ℚ) : ℝ)

/-- approximation.py:301-302,323-324 `mid_point_img >= limit` -/
noncomputable def reached (F : Fmt) (f : ℝ → ℝ) (limit : ℝ) (m : ℚ) : Prop := limit ≤ (roundUnb F .RU (f m) : ℝ)

open Classical in
/-- approximation.py:299-308: the loop of `search_bound_threshold` -/
noncomputable def loop (F : Fmt) (f : ℝ → ℝ) (limit : ℝ) : ℕ → ℚ → ℚ → Option ℚ
  | 0, _, _ => none
  | n + 1, l, r =>
    if l = r ∨ fpNext F l = some r then some l
    else if reached F f limit (midPoint F l r) then loop F f limit n l (midPoint F l r)
    else loop F f limit n (midPoint F l r) r

/-- approximation.py:294-296: the assertions of `search_bound_threshold` -/
def Asserts (F : Fmt) (f : ℝ → ℝ) (limit : ℝ) (s e : ℚ) : Prop :=
  (roundUnb F .RN (f s) : ℝ) < limit ∧ limit ≤ (roundUnb F .RN (f e) : ℝ) ∧ s < e

open Classical in
/-- approximation.py:321-330: the loop of `search_bound_threshold_mirror` -/
noncomputable def loopM (F : Fmt) (f : ℝ → ℝ) (limit : ℝ) : ℕ → ℚ → ℚ → Option ℚ
  | 0, _, _ => none
  | n + 1, l, r =>
    if l = r ∨ fpNext F l = some r then some l
    else if reached F f limit (midPoint F l r) then loopM F f limit n (midPoint F l r) r
    else loopM F f limit n l (midPoint F l r)

/-- approximation.py:316-318: the assertions of `search_bound_threshold_mirror` -/
def AssertsM (F : Fmt) (f : ℝ → ℝ) (limit : ℝ) (s e : ℚ) : Prop :=
  limit ≤ (roundUnb F .RN (f s) : ℝ) ∧ (roundUnb F .RN (f e) : ℝ) < limit ∧ s < e

end Verif.Search
