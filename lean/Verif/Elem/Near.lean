import Verif.Elem.Rel
import Verif.Elem.Faith

/-! # The rounding of a close approximation is faithful -/

namespace Verif.Elem

open Verif.Float (Fmt Val)
open Verif.Check

/-- two numbers of the format are at least the last place of the lower one apart -/
theorem unb_gap' {F : Fmt} {v w : ℚ} (hv : Unbounded F v) (hw : Unbounded F w) (h0 : 0 ≤ v) (h : v < w) :
    ∃ E : ℤ, F.emin ≤ E ∧ (2 : ℚ) ^ (E - F.f) ≤ w - v ∧ v < (2 : ℚ) ^ (E + 1) := by
  by_cases hc : (2 : ℚ) ^ F.emin ≤ v
  · have hv0 : 0 < v := lt_of_lt_of_le (Float.zp _) hc
    refine ⟨Int.log 2 v, Float.le_log hv0 hc, unb_gap hv hw (Float.pow_log_le hv0) h, Float.lt_pow_log⟩
  · obtain ⟨a, ha⟩ := unb_min_grid hv
    obtain ⟨b, hb⟩ := unb_min_grid hw
    refine ⟨F.emin, le_refl _, grid_gap ha hb h, lt_trans (not_le.1 hc) (Float.zlt (by omega))⟩

theorem near_pos {F : Fmt} {x z : ℝ} (hx : 0 < x) (h : |z - x| ≤ (2 : ℝ) ^ (-(F.f : ℤ) - 3) * x) :
    (((roundUnb F .RN z : ℚ) : ℝ) ≤ x ∧ ∀ w, Unbounded F w → (w : ℝ) ≤ x → w ≤ roundUnb F .RN z) ∨
      (x ≤ ((roundUnb F .RN z : ℚ) : ℝ) ∧ ∀ w, Unbounded F w → x ≤ (w : ℝ) → roundUnb F .RN z ≤ w) := by
  have hs : (2 : ℝ) ^ (-(F.f : ℤ) - 3) ≤ 1 / 8 := by
    have : (2 : ℝ) ^ (-(F.f : ℤ) - 3) ≤ (2 : ℝ) ^ (-3 : ℤ) := r2le (by omega)
    norm_num at this; linarith
  have hp := r2 (-(F.f : ℤ) - 3)
  obtain ⟨a1, a2⟩ := abs_le.1 h
  have hz : 0 < z := by nlinarith
  set y := roundUnb F .RN z with hy
  have hyu : Unbounded F y := roundUnb_unb F _ z
  have hy0 : 0 ≤ y := by have := ru_pos_sign (F := F) hz; exact_mod_cast this
  rcases le_total ((y : ℚ) : ℝ) x with hc | hc
  · left
    refine ⟨hc, fun v hv hvx => ?_⟩
    by_contra hlt
    have hlt := not_le.1 hlt
    obtain ⟨E, hE, hgap, hyE⟩ := unb_gap' hyu hv hy0 hlt
    have hgap' : (2 : ℝ) ^ (E - F.f) ≤ (v : ℝ) - y := by
      have : (((2 : ℚ) ^ (E - F.f) : ℚ) : ℝ) ≤ ((v - y : ℚ) : ℝ) := by exact_mod_cast hgap
      rw [← r2cast] at this; push_cast at this; exact this
    have hltR : (y : ℝ) < v := by exact_mod_cast hlt
    have hmin := rn_min (x := z) hv
    rw [← hy] at hmin
    have hzm : z ≤ ((y : ℝ) + v) / 2 := by
      by_contra hcc
      have hcc := not_le.1 hcc
      rw [abs_of_pos (by linarith)] at hmin
      rcases abs_cases (z - (v : ℝ)) with ⟨e, _⟩ | ⟨e, _⟩ <;> linarith
    have hzE : z < (2 : ℝ) ^ (E + 1) := by
      by_contra hcc
      have := ru_between_ge (F := F) (x := z) (w := (2 : ℚ) ^ (E + 1)) (unb_pow (by omega)) (by rw [← r2cast]; exact not_lt.1 hcc)
      rw [← hy] at this
      have : (2 : ℚ) ^ (E + 1) ≤ y := by exact_mod_cast this
      linarith
    have e1 : (2 : ℝ) ^ (-(F.f : ℤ) - 3) * (2 : ℝ) ^ (E + 1) = (2 : ℝ) ^ (E - F.f) / 4 := by
      rw [← r2add, show -(F.f : ℤ) - 3 + (E + 1) = (E - F.f) + (-2) by ring, r2add]; norm_num; ring
    have hg := r2 (E - F.f)
    have hx2 : x < (2 : ℝ) ^ (E + 1) * (8 / 7) := by nlinarith
    have : (2 : ℝ) ^ (-(F.f : ℤ) - 3) * x < (2 : ℝ) ^ (-(F.f : ℤ) - 3) * ((2 : ℝ) ^ (E + 1) * (8 / 7)) := mul_lt_mul_of_pos_left hx2 hp
    rw [← mul_assoc, e1] at this
    linarith
  · right
    refine ⟨hc, fun v hv hvx => ?_⟩
    by_contra hlt
    have hlt := not_le.1 hlt
    have hv0 : 0 ≤ v := by
      have : (0 : ℝ) ≤ v := by linarith
      exact_mod_cast this
    obtain ⟨E, hE, hgap, hyE⟩ := unb_gap' hv hyu hv0 hlt
    have hgap' : (2 : ℝ) ^ (E - F.f) ≤ (y : ℝ) - v := by
      have : (((2 : ℚ) ^ (E - F.f) : ℚ) : ℝ) ≤ ((y - v : ℚ) : ℝ) := by exact_mod_cast hgap
      rw [← r2cast] at this; push_cast at this; exact this
    have hltR : (v : ℝ) < y := by exact_mod_cast hlt
    have hvE : (v : ℝ) < (2 : ℝ) ^ (E + 1) := by rw [r2cast]; exact_mod_cast hyE
    have hmin := rn_min (x := z) hv
    rw [← hy] at hmin
    have hzm : ((y : ℝ) + v) / 2 ≤ z := by
      by_contra hcc
      have hcc := not_le.1 hcc
      rw [abs_of_neg (by linarith)] at hmin
      rcases abs_cases (z - (v : ℝ)) with ⟨e, _⟩ | ⟨e, _⟩ <;> linarith
    have e1 : (2 : ℝ) ^ (-(F.f : ℤ) - 3) * (2 : ℝ) ^ (E + 1) = (2 : ℝ) ^ (E - F.f) / 4 := by
      rw [← r2add, show -(F.f : ℤ) - 3 + (E + 1) = (E - F.f) + (-2) by ring, r2add]; norm_num; ring
    have hg := r2 (E - F.f)
    have : (2 : ℝ) ^ (-(F.f : ℤ) - 3) * x ≤ (2 : ℝ) ^ (-(F.f : ℤ) - 3) * (2 : ℝ) ^ (E + 1) := mul_le_mul_of_nonneg_left (by linarith) hp.le
    rw [e1] at this
    linarith

/-- the rounding to nearest of an approximation within a quarter of a unit roundoff is faithful -/
theorem near_faithful {F : Fmt} (he : 2 ≤ F.e) {x z : ℝ} (hx : x ≠ 0) (h : |z - x| ≤ (2 : ℝ) ^ (-(F.f : ℤ) - 3) * |x|) {r : Val}
    (hr : value r = some (((roundUnb F .RN z : ℚ) : ℝ) : EReal)) : Faithful F x r := by
  refine faithful_num he ?_ hr
  rcases lt_or_gt_of_ne hx with hx | hx
  · have h' : |(-z) - (-x)| ≤ (2 : ℝ) ^ (-(F.f : ℤ) - 3) * (-x) := by
      rw [show -z - -x = -(z - x) by ring, abs_neg]; rwa [abs_of_neg hx] at h
    have := near_pos (F := F) (neg_pos.2 hx) h'
    rw [ru_neg] at this
    push_cast at this
    rcases this with ⟨h1, h2⟩ | ⟨h1, h2⟩
    · right
      refine ⟨by linarith, fun w hw hle => ?_⟩
      have := h2 (-w) (unb_neg hw) (by push_cast; linarith)
      linarith
    · left
      refine ⟨by linarith, fun w hw hle => ?_⟩
      have := h2 (-w) (unb_neg hw) (by push_cast; linarith)
      linarith
  · rw [abs_of_pos hx] at h
    exact near_pos hx h

end Verif.Elem
