import Verif.Elem.DivLemmas
import Verif.Elem.Near

/-! # The generated division (property C78) -/

namespace Verif.Elem

open Verif.Float (Fmt Val)
open Verif.Check

/-- a power of two times a finite datum, in the range of the normal numbers -/
theorem scale_mul {F : Fmt} (he : 2 ≤ F.e) {a p : Val} (ha : Fin' F a) (hp : Fin' F p) {j : ℤ} (hpv : rv p = (2 : ℝ) ^ j) {z : ℝ} (hz : rv a = z)
    (hl : (2 : ℝ) ^ F.emin ≤ |z|) (h1 : (2 : ℝ) ^ F.emin ≤ |z * (2 : ℝ) ^ j|) (h2 : |z * (2 : ℝ) ^ j| ≤ (2 : ℝ) ^ F.emax) :
    Fin' F (fmul F a p) ∧ rv (fmul F a p) = z * (2 : ℝ) ^ j := by
  obtain ⟨m1, m2⟩ := fmul_val he ha hp (by rw [hz, hpv]; exact h2)
  refine ⟨m1, ?_⟩
  have hz0 : z ≠ 0 := by intro h; rw [h, abs_zero] at hl; exact absurd hl (not_le.2 (r2 _))
  have hu : Unbounded F (numOf a) := (fin_unb he ha).1
  rw [m2, hz, hpv, ru_scale]
  · have e : roundUnb F .RN z = numOf a := by rw [← hz]; exact ru_exact hu
    rw [e]; push_cast; rw [show (numOf a : ℝ) = z from hz]
  · right; exact le_logR (abs_pos.2 hz0) hl
  · right
    rw [← log_scale hz0]
    exact le_logR (by rw [abs_pos]; exact mul_ne_zero hz0 (r2 _).ne') h1

/-- the scaled operand -/
theorem scaled {F : Fmt} (B : Big F) {x : Val} (hx : Fin' F x) (hx1 : (2 : ℝ) ^ F.emin ≤ |rv x|) :
    ∃ c : ℤ, clampE F (expExtract F x) = c ∧ F.emin ≤ c ∧ c ≤ F.emax - 1 ∧
      Fin' F (fmul F x (insExp F (-c))) ∧ rv (fmul F x (insExp F (-c))) = rv x * (2 : ℝ) ^ (-c) ∧
      1 ≤ |rv x * (2 : ℝ) ^ (-c)| ∧ |rv x * (2 : ℝ) ^ (-c)| < 4 := by
  have he := B.he2
  have hm := B.hm
  have hf := B.hf
  have h0 : numOf x ≠ 0 := by
    intro h; unfold rv at hx1; rw [h, Rat.cast_zero, abs_zero] at hx1; exact absurd hx1 (not_le.2 (r2 _))
  have hxe := fin_num_ne hx h0
  set v := numOf x with hv
  have hrv : rv x = (v : ℝ) := rfl
  have hx1q : (2 : ℚ) ^ F.emin ≤ |v| := by
    rw [hrv, r2cast, ← Rat.cast_abs] at hx1; exact_mod_cast hx1
  have hpos : 0 < |v| := abs_pos.2 h0
  have hL : expExtract F x = Int.log 2 |v| := by rw [hxe]; simp only [expExtract]; rw [if_neg (not_lt.2 hx1q)]
  set L := Int.log 2 |v| with hLd
  have hL1 : F.emin ≤ L := Float.le_log hpos hx1q
  have hl1 : (2 : ℚ) ^ L ≤ |v| := Float.pow_log_le hpos
  have hl2 : |v| < (2 : ℚ) ^ (L + 1) := Float.lt_pow_log
  have hL2 : L ≤ F.emax := by
    have h3 := lt_of_le_of_lt (le_trans hl1 (fin_unb he hx).2) (omega_lt he)
    have := (zpow_lt_zpow_iff_right₀ (by norm_num : (1 : ℚ) < 2)).1 h3
    omega
  have hemin : F.emin = 1 - F.emax := rfl
  refine ⟨clampE F (expExtract F x), rfl, ?_, ?_, ?_⟩
  · rw [hL]; unfold clampE; omega
  · rw [hL]; unfold clampE; omega
  have hc : clampE F (expExtract F x) = L ∨ (L = F.emax ∧ clampE F (expExtract F x) = L - 1) := by rw [hL]; unfold clampE; omega
  have hc1 : clampE F (expExtract F x) ≤ F.emax - 1 := by rw [hL]; unfold clampE; omega
  have hc2 : F.emin ≤ clampE F (expExtract F x) := by rw [hL]; unfold clampE; omega
  generalize clampE F (expExtract F x) = c at hc hc1 hc2
  obtain ⟨i1, i2⟩ := insExp_fin he (F := F) (k := -c) (by omega) (by omega)
  have i3 : rv (insExp F (-c)) = (2 : ℝ) ^ (-c) := by unfold rv; rw [i2, ← r2cast]
  have hl1R : (2 : ℝ) ^ L ≤ |rv x| := by rw [hrv, r2cast, ← Rat.cast_abs]; exact_mod_cast hl1
  have hl2R : |rv x| < (2 : ℝ) ^ (L + 1) := by rw [hrv, r2cast, ← Rat.cast_abs]; exact_mod_cast hl2
  have hp := r2 (-c)
  have b1 : 1 ≤ |rv x * (2 : ℝ) ^ (-c)| := by
    rw [abs_mul, abs_of_pos hp]
    calc (1 : ℝ) ≤ (2 : ℝ) ^ (L + -c) := one_le_zpow₀ (by norm_num) (by omega)
      _ = (2 : ℝ) ^ L * (2 : ℝ) ^ (-c) := r2add _ _
      _ ≤ _ := mul_le_mul_of_nonneg_right hl1R hp.le
  have b2 : |rv x * (2 : ℝ) ^ (-c)| < 4 := by
    rw [abs_mul, abs_of_pos hp]
    calc |rv x| * (2 : ℝ) ^ (-c) < (2 : ℝ) ^ (L + 1) * (2 : ℝ) ^ (-c) := mul_lt_mul_of_pos_right hl2R hp
      _ = (2 : ℝ) ^ (L + 1 + -c) := (r2add _ _).symm
      _ ≤ (2 : ℝ) ^ (2 : ℤ) := r2le (by omega)
      _ = 4 := by norm_num
  obtain ⟨s1, s2⟩ := scale_mul he hx i1 i3 rfl hx1
    (le_trans (by
      have : (2 : ℝ) ^ F.emin ≤ (2 : ℝ) ^ (0 : ℤ) := r2le (by omega)
      simpa using this) b1) (le_trans b2.le (by have := B.emax_ge; linarith))
  exact ⟨s1, s2, b1, b2⟩

theorem fin_not_special {F : Fmt} {x : Val} (hx : Fin' F x) (h0 : rv x ≠ 0) : isInfOrNaN x = false ∧ isZero x = false := by
  have hn : numOf x ≠ 0 := by intro h; apply h0; unfold rv; rw [h]; simp
  have := fin_num_ne hx hn
  rw [this]
  refine ⟨rfl, ?_⟩
  simp [isZero, hn]

set_option maxHeartbeats 1000000 in
/-- The quotient of two normal numbers is faithful if it is not within a factor two of the subnormal numbers nor of the overflow, whatever the
seed of the reciprocal, provided its relative error `t` is small enough for the number `n` of Newton-Raphson iterations. -/
theorem C78_div_faithful_partial {F : Fmt} (hf : 10 ≤ F.f) (hm : (F.f : ℤ) + 2 ≤ F.emax) {seed : Val → Val} {n : ℕ} {t : ℝ} (ht1 : t ≤ 1 / 64)
    (hseed : ∀ a y, IsReal F a y → 1 ≤ |y| → |y| < 4 → ∃ r, IsReal F (seed a) r ∧ |y * r - 1| ≤ t)
    (hn : (1.001 * t) ^ 2 ^ n ≤ (2 : ℝ) ^ (-(F.f : ℤ))) (sub : Val) {a b : Val} {x y : ℝ} (hx : IsReal F a x) (hy : IsReal F b y)
    (hx1 : (2 : ℝ) ^ F.emin ≤ |x|) (hy1 : (2 : ℝ) ^ F.emin ≤ |y|) (hq1 : (2 : ℝ) ^ (F.emin + 1) ≤ |x / y|)
    (hq2 : |x / y| < (2 : ℝ) ^ (F.emax - 1)) : Faithful F (x / y) (divModel F seed n sub a b) := by
  have B : Big F := ⟨hf, hm⟩
  have he := B.he2
  have hu := B.u_small
  have hu0 := uu_pos F
  have hemin : F.emin = 1 - F.emax := rfl
  obtain ⟨ha, rfl⟩ := isReal_rv.1 hx
  obtain ⟨hb, rfl⟩ := isReal_rv.1 hy
  have hx0 : rv a ≠ 0 := by intro h; rw [h, abs_zero] at hx1; exact absurd hx1 (not_le.2 (r2 _))
  have hy0 : rv b ≠ 0 := by intro h; rw [h, abs_zero] at hy1; exact absurd hy1 (not_le.2 (r2 _))
  obtain ⟨cx, ex, cx1, cx2, sx1, sx2, sx3, sx4⟩ := scaled B ha hx1
  obtain ⟨cy, ey, cy1, cy2, sy1, sy2, sy3, sy4⟩ := scaled B hb hy1
  set sx := fmul F a (insExp F (-cx)) with hsx
  set sy := fmul F b (insExp F (-cy)) with hsy
  rw [← sx2] at sx3 sx4
  rw [← sy2] at sy3 sy4
  obtain ⟨r0, hr0, hr1⟩ := hseed sy (rv sy) (isReal_rv.2 ⟨sy1, rfl⟩) sy3 sy4
  obtain ⟨hr2, rfl⟩ := isReal_rv.1 hr0
  have ht0 : 0 ≤ t := le_trans (abs_nonneg _) hr1
  obtain ⟨g1, g2⟩ := recp_iter B sy1 sy3 sy4.le n hr2 ht0 ht1 (by linarith)
  have h2u : (2 : ℝ) ^ (-(F.f : ℤ)) = 2 * uu F := by
    unfold uu; rw [show -(F.f : ℤ) = 1 + (-(F.f : ℤ) - 1) by ring, r2add, zpow_one]; ring_nf
  obtain ⟨d1, z, d2, d3⟩ := red_div B sx1 sy1 g1 sx3 sx4.le sy3 sy4.le (le_trans g2 (by rw [h2u] at hn; norm_num at hn ⊢; linarith))
  set q1 := reducedDiv F sx sy (recpIter F sy n (seed sy)) with hq1d
  set k := cx - cy with hk
  have hpk := r2 k
  have hqs : rv a / rv b = rv sx / rv sy * (2 : ℝ) ^ k := by
    rw [sx2, sy2, hk, show cx - cy = cx + -cy by ring, r2add]
    have e : (2 : ℝ) ^ (-cx) * (2 : ℝ) ^ cx = 1 := by rw [← r2add]; simp
    have hc := (r2 (-cy)).ne'
    field_simp
    linear_combination -e
  set q := rv sx / rv sy with hqd
  have hq0 : q ≠ 0 := by
    rw [hqd]; apply div_ne_zero
    · intro h; rw [h, abs_zero] at sx3; linarith
    · intro h; rw [h, abs_zero] at sy3; linarith
  have hqlo : 1 / 4 ≤ |q| := by rw [hqd, abs_div, le_div_iff₀ (by linarith)]; linarith
  have hqlo' : 1 / 4 < |q| := by rw [hqd, abs_div, lt_div_iff₀ (by linarith)]; linarith
  have hqhi : |q| < 4 := by rw [hqd, abs_div, div_lt_iff₀ (by linarith)]; nlinarith
  rw [hqs] at hq1 hq2 ⊢
  rw [abs_mul, abs_of_pos hpk] at hq1 hq2
  have hk1 : F.emin ≤ k := by
    have : (2 : ℝ) ^ (F.emin + 1) < (2 : ℝ) ^ (k + 2) := by
      rw [r2add k 2]; norm_num; nlinarith
    have := r2lt' this; omega
  have hk2 : k ≤ F.emax := by
    have : (2 : ℝ) ^ (k - 2) < (2 : ℝ) ^ (F.emax - 1) := by
      rw [show k - 2 = k + (-2) by ring, r2add]; norm_num; nlinarith
    have := r2lt' this; omega
  have hsmall : 23 * uu F ^ 2 ≤ (2 : ℝ) ^ (-(F.f : ℤ) - 3) := by
    have : (2 : ℝ) ^ (-(F.f : ℤ) - 3) = uu F / 4 := by
      unfold uu; rw [show -(F.f : ℤ) - 3 = (-(F.f : ℤ) - 1) + (-2) by ring, r2add]; norm_num; ring
    rw [this]; nlinarith
  have hsm2 : 23 * uu F ^ 2 ≤ 1 / 8 := by nlinarith
  -- the power of two
  obtain ⟨i1, i2⟩ := insExp_fin he (F := F) (k := cx) (by omega) (by omega)
  obtain ⟨j1, j2⟩ := insExp_fin he (F := F) (k := -cy) (by omega) (by omega)
  have i3 : rv (insExp F cx) = (2 : ℝ) ^ cx := by unfold rv; rw [i2, ← r2cast]
  have j3 : rv (insExp F (-cy)) = (2 : ℝ) ^ (-cy) := by unfold rv; rw [j2, ← r2cast]
  have ij : (2 : ℝ) ^ cx * (2 : ℝ) ^ (-cy) = (2 : ℝ) ^ k := by rw [← r2add]; rfl
  obtain ⟨p1, p2⟩ := scale_mul he i1 j1 j3 i3 (by rw [abs_of_pos (r2 _)]; exact r2le cx1)
    (by rw [ij, abs_of_pos hpk]; exact r2le hk1) (by rw [ij, abs_of_pos hpk]; exact r2le hk2)
  rw [ij] at p2
  -- the last product
  have hzq : |z| ≤ |q| * (9 / 8) ∧ |q| * (7 / 8) ≤ |z| := by
    have t1 := abs_add_le (z - q) q
    have t2 := abs_add_le (q - z) z
    rw [sub_add_cancel] at t1 t2
    rw [abs_sub_comm] at t2
    have : 23 * uu F ^ 2 * |q| ≤ 1 / 8 * |q| := mul_le_mul_of_nonneg_right hsm2 (abs_nonneg _)
    constructor <;> linarith
  have hz0 : z ≠ 0 := by intro h; rw [h, abs_zero] at hzq; linarith [hzq.2]
  have he2 : (2 : ℝ) ^ (F.emin + 1) = 2 * (2 : ℝ) ^ F.emin := by rw [r2add, zpow_one]; ring
  have he3 : (2 : ℝ) ^ F.emax = 2 * (2 : ℝ) ^ (F.emax - 1) := by rw [show F.emax = 1 + (F.emax - 1) by ring, r2add, zpow_one]; ring_nf
  have hpe := r2 F.emin
  have hz1 : (2 : ℝ) ^ F.emin ≤ |z * (2 : ℝ) ^ k| := by
    rw [abs_mul, abs_of_pos hpk]; nlinarith [hzq.2]
  have hz2 : |z * (2 : ℝ) ^ k| ≤ (2 : ℝ) ^ F.emax := by
    rw [abs_mul, abs_of_pos hpk]; nlinarith [hzq.1]
  have hsc : roundUnb F .RN (z * (2 : ℝ) ^ k) = roundUnb F .RN z * (2 : ℚ) ^ k := by
    apply ru_scale
    · right
      refine le_logR (abs_pos.2 hz0) (le_trans (r2le (show F.emin ≤ -3 by omega)) ?_)
      norm_num; linarith [hzq.2]
    · right; rw [← log_scale hz0]; exact le_logR (abs_pos.2 (mul_ne_zero hz0 hpk.ne')) hz1
  have hprod : rv q1 * rv (fmul F (insExp F cx) (insExp F (-cy))) = ((roundUnb F .RN (z * (2 : ℝ) ^ k) : ℚ) : ℝ) := by
    rw [d2, p2, hsc]; push_cast; rfl
  have hub : |roundUnb F .RN (z * (2 : ℝ) ^ k)| ≤ (2 : ℚ) ^ F.emax := ru_abs_le (by omega) hz2
  have hubR : |((roundUnb F .RN (z * (2 : ℝ) ^ k) : ℚ) : ℝ)| ≤ (2 : ℝ) ^ F.emax := by
    rw [r2cast F.emax, ← Rat.cast_abs]; exact_mod_cast hub
  obtain ⟨m1, m2⟩ := fmul_val he d1 p1 (by rw [hprod]; exact hubR)
  rw [hprod, ru_exact (roundUnb_unb F _ _)] at m2
  have hres : divUnscaled F seed n a b = fmul F q1 (fmul F (insExp F cx) (insExp F (-cy))) := by
    unfold divUnscaled divReduced; simp only [ex, ey]; rfl
  rw [← hres] at m1 m2
  -- not subnormal
  have hlow : (2 : ℚ) ^ F.emin ≤ |roundUnb F .RN (z * (2 : ℝ) ^ k)| := by
    have h := ru_between_ge (F := F) (x := |z * (2 : ℝ) ^ k|) (w := (2 : ℚ) ^ F.emin) (unb_pow (by omega)) (by rw [← r2cast]; exact hz1)
    have h' : (2 : ℚ) ^ F.emin ≤ roundUnb F .RN |z * (2 : ℝ) ^ k| := by exact_mod_cast h
    rcases abs_cases (z * (2 : ℝ) ^ k) with ⟨e, _⟩ | ⟨e, _⟩
    · rw [e] at h'; exact le_trans h' (le_abs_self _)
    · rw [e, ru_neg] at h'; exact le_trans h' (neg_le_abs _)
  have hnum : numOf (divUnscaled F seed n a b) = roundUnb F .RN (z * (2 : ℝ) ^ k) := by
    unfold rv at m2; exact_mod_cast m2
  have hne : numOf (divUnscaled F seed n a b) ≠ 0 := by
    rw [hnum]; intro h; rw [h, abs_zero] at hlow; exact absurd hlow (not_le.2 (Float.zp _))
  have hval := fin_num_ne m1 hne
  have hnsub : isSubnormal F (divUnscaled F seed n a b) = false := by
    rw [hval, hnum]; simp [isSubnormal, hlow]
  obtain ⟨s1, s2⟩ := fin_not_special ha hx0
  obtain ⟨s3, s4⟩ := fin_not_special hb hy0
  have hmod : divModel F seed n sub a b = divUnscaled F seed n a b := by
    unfold divModel; simp only [s1, s2, s3, s4, hnsub, Bool.false_eq_true, if_false]
  rw [hmod, hval, hnum]
  refine near_faithful he (mul_ne_zero hq0 hpk.ne') (z := z * (2 : ℝ) ^ k) ?_ rfl
  rw [← sub_mul, abs_mul, abs_mul, ← mul_assoc]
  refine mul_le_mul_of_nonneg_right (le_trans d3 ?_) (abs_nonneg _)
  exact mul_le_mul_of_nonneg_right hsmall (abs_nonneg _)

end Verif.Elem
