import Verif.Elem.DivModel
import Verif.Elem.Rel
import Verif.Elem.Faith

/-! # Error analysis of the generated division -/

namespace Verif.Elem

open Verif.Float (Fmt Val)
open Verif.Check

theorem am {a b A B : ℝ} (ha : |a| ≤ A) (hb : |b| ≤ B) : |a * b| ≤ A * B := by
  rw [abs_mul]; exact mul_le_mul ha hb (abs_nonneg _) (le_trans (abs_nonneg _) ha)

theorem aa {a b A B : ℝ} (ha : |a| ≤ A) (hb : |b| ≤ B) : |a + b| ≤ A + B := le_trans (abs_add_le _ _) (add_le_add ha hb)

/-- the formats: at least binary16 -/
structure Big (F : Fmt) : Prop where
  hf : 10 ≤ F.f
  hm : (F.f : ℤ) + 2 ≤ F.emax

theorem Big.he {F : Fmt} (B : Big F) : 5 ≤ F.e := by
  by_contra h
  have h1 : F.e - 1 ≤ 3 := by omega
  have h2 : (2 : ℤ) ^ (F.e - 1) ≤ 2 ^ 3 := pow_le_pow_right₀ (by norm_num) h1
  have hm := B.hm
  have hf := B.hf
  unfold Fmt.emax at hm
  norm_num at h2
  omega

theorem Big.he2 {F : Fmt} (B : Big F) : 2 ≤ F.e := by have := B.he; omega

theorem Big.u_small {F : Fmt} (B : Big F) : uu F ≤ 1 / 2048 := by
  have h : (2 : ℝ) ^ (-(F.f : ℤ) - 1) ≤ (2 : ℝ) ^ (-11 : ℤ) := r2le (by have := B.hf; omega)
  norm_num at h
  unfold uu; linarith

theorem Big.ee_le {F : Fmt} (B : Big F) : ee F ≤ uu F ^ 2 := by
  unfold ee uu
  rw [sq, ← r2add]
  exact r2le (by have := B.hm; unfold Fmt.emin; omega)

theorem Big.emax_ge {F : Fmt} (B : Big F) : (16 : ℝ) ≤ (2 : ℝ) ^ F.emax := by
  have h : (2 : ℝ) ^ (4 : ℤ) ≤ (2 : ℝ) ^ F.emax := r2le (by have := B.hm; have := B.hf; omega)
  norm_num at h; linarith

theorem one_fin {F : Fmt} (he : 2 ≤ F.e) : Fin' F (.num 1) ∧ rv (.num 1) = 1 := by
  have := emax_pos he
  refine ⟨⟨⟨(finite_iff he).2 ⟨by simpa using unb_pow (F := F) (k := 0) (by unfold Fmt.emin; omega), ?_⟩, one_ne_zero⟩, rfl, rfl⟩, by simp [rv, numOf]⟩
  refine abs_le_omega_of he ?_
  rw [abs_one]; exact one_le_zpow₀ (by norm_num) (by omega)

/-- one Newton-Raphson iteration -/
theorem nr_step {F : Fmt} (B : Big F) {y r : Val} (hy : Fin' F y) (hr : Fin' F r) (hy1 : 1 ≤ |rv y|) (hy2 : |rv y| ≤ 4)
    {a : ℝ} (ha : |rv y * rv r - 1| ≤ a) (ha1 : a ≤ 1 / 32) :
    Fin' F (nrStep F y r) ∧ |rv y * rv (nrStep F y r) - 1| ≤ 1.001 * a ^ 2 + 1.05 * uu F := by
  have he := B.he2
  have hu := B.u_small
  have hu0 := uu_pos F
  have hee := B.ee_le
  have hem := B.emax_ge
  have ha0 : 0 ≤ a := le_trans (abs_nonneg _) ha
  set Y := rv y with hY
  set R := rv r with hR
  set u := uu F with hu_
  have hR2 : |R| ≤ 33 / 32 := by
    have h3 : |Y * R| ≤ 33 / 32 := by
      have := abs_add_le (Y * R - 1) 1
      rw [sub_add_cancel, abs_one] at this; linarith
    rw [abs_mul] at h3
    nlinarith [abs_nonneg R]
  obtain ⟨n1, n2⟩ := rv_neg hy
  have harg : rv (fneg y) * R + rv (.num 1) = -(Y * R - 1) := by rw [n2, (one_fin he).2]; ring
  obtain ⟨e1, d1, m1, hd1, hm1, ee1⟩ := fma_rel he n1 hr (one_fin he).1 (by rw [harg, abs_neg]; linarith)
  rw [harg] at ee1
  set err := ffma F (fneg y) r (.num 1) with herr
  have hm1' : |m1| ≤ u ^ 2 := le_trans hm1 hee
  have herr' : |rv err| ≤ 1 / 16 := by
    rw [ee1]
    refine le_trans (aa (A := 1 / 32 * (11 / 10)) (B := 1 / 100) (am (by rw [abs_neg]; linarith) ?_) ?_) (by norm_num)
    · refine le_trans (aa (le_of_eq abs_one) hd1) (by linarith)
    · nlinarith
  obtain ⟨e2, d2, m2, hd2, hm2, ee2⟩ := fma_rel he e1 hr hr (by
    have : |rv err * R + R| ≤ 1 / 16 * (33 / 32) + 33 / 32 := aa (am herr' hR2) hR2
    norm_num at this; linarith)
  have hm2' : |m2| ≤ u ^ 2 := le_trans hm2 hee
  refine ⟨e2, ?_⟩
  show |Y * rv (ffma F err r r) - 1| ≤ _
  rw [ee2]
  set p := Y * R - 1 with hp
  have hYR : Y * R = 1 + p := by rw [hp]; ring
  set w := -(p * p) - p * d1 * (1 + p) + m1 * (1 + p) with hw
  have id1 : Y * ((rv err * R + R) * (1 + d2) + m2) - 1 = w + d2 * (1 + w) + Y * m2 := by
    rw [ee1, hw]
    linear_combination ((-p * (1 + d1) + m1 + 1) * (1 + d2)) * hYR
  have h1p : |1 + p| ≤ 33 / 32 := le_trans (aa (le_of_eq abs_one) ha) (by linarith)
  have hwb : |w| ≤ a * a + a * u * (33 / 32) + u ^ 2 * (33 / 32) := by
    rw [hw, show -(p * p) - p * d1 * (1 + p) + m1 * (1 + p) = (-(p * p) + -(p * d1 * (1 + p))) + m1 * (1 + p) by ring]
    refine aa (aa (by rw [abs_neg]; exact am ha ha) (by rw [abs_neg]; exact am (am ha hd1) h1p)) (am hm1' h1p)
  rw [id1]
  have hw1 : |w| ≤ 1 / 500 := by
    refine le_trans hwb ?_
    nlinarith
  have h1w : |1 + w| ≤ 1 + |w| := le_trans (abs_add_le _ _) (by rw [abs_one])
  have hfin : |w + d2 * (1 + w) + Y * m2| ≤ |w| + u * (1 + |w|) + 4 * u ^ 2 :=
    aa (aa le_rfl (am hd2 h1w)) (am hy2 hm2')
  refine le_trans hfin ?_
  norm_num
  have hw0 := abs_nonneg w
  nlinarith

theorem recp_iter {F : Fmt} (B : Big F) {y : Val} (hy : Fin' F y) (hy1 : 1 ≤ |rv y|) (hy2 : |rv y| ≤ 4) (n : ℕ) :
    ∀ {r : Val} {t : ℝ}, Fin' F r → 0 ≤ t → t ≤ 1 / 64 → |rv y * rv r - 1| ≤ t + 1.1 * uu F →
      Fin' F (recpIter F y n r) ∧ |rv y * rv (recpIter F y n r) - 1| ≤ (1.001 * t) ^ (2 ^ n) + 1.1 * uu F := by
  have hu := B.u_small
  have hu0 := uu_pos F
  induction n with
  | zero =>
    intro r t hr h0 h1 h
    refine ⟨hr, le_trans h ?_⟩
    norm_num; linarith
  | succ n ih =>
    intro r t hr h0 h1 h
    obtain ⟨s1, s2⟩ := nr_step B hy hr hy1 hy2 h (by norm_num; linarith)
    have h2 : 1.001 * (t + 1.1 * uu F) ^ 2 + 1.05 * uu F ≤ 1.001 * t ^ 2 + 1.1 * uu F := by
      norm_num; nlinarith
    have := ih (r := nrStep F y r) (t := 1.001 * t ^ 2) s1 (by positivity) (by norm_num; nlinarith) (le_trans s2 h2)
    refine ⟨this.1, ?_⟩
    have e : (1.001 * (1.001 * t ^ 2)) ^ 2 ^ n = (1.001 * t) ^ 2 ^ (n + 1) := by
      rw [pow_succ 2 n, mul_comm (2 ^ n) 2, pow_mul]; congr 1; ring
    rw [e] at this
    exact this.2

set_option maxHeartbeats 1000000 in
/-- the corrected quotient before its rounding -/
theorem red_div {F : Fmt} (B : Big F) {x y r : Val} (hx : Fin' F x) (hy : Fin' F y) (hr : Fin' F r) (hx1 : 1 ≤ |rv x|) (hx2 : |rv x| ≤ 4)
    (hy1 : 1 ≤ |rv y|) (hy2 : |rv y| ≤ 4) (hrho : |rv y * rv r - 1| ≤ 3.2 * uu F) :
    Fin' F (reducedDiv F x y r) ∧
      ∃ z : ℝ, rv (reducedDiv F x y r) = roundUnb F .RN z ∧ |z - rv x / rv y| ≤ 23 * uu F ^ 2 * |rv x / rv y| := by
  have he := B.he2
  have hu := B.u_small
  have hu0 := uu_pos F
  have hee := B.ee_le
  have hem := B.emax_ge
  set X := rv x with hX
  set Y := rv y with hY
  set R := rv r with hR
  set u := uu F with hu_
  have hY0 : Y ≠ 0 := by intro h; rw [h, abs_zero] at hy1; linarith
  norm_num at hrho
  have hR2 : |R| ≤ 33 / 32 := by
    have h3 : |Y * R| ≤ 33 / 32 := by
      have := abs_add_le (Y * R - 1) 1
      rw [sub_add_cancel, abs_one] at this; linarith
    rw [abs_mul] at h3
    nlinarith [abs_nonneg R]
  set q := X / Y with hq
  have hXq : X = q * Y := by rw [hq]; field_simp
  have hqlo : 1 / 4 ≤ |q| := by
    rw [hq, abs_div, le_div_iff₀ (by linarith)]; linarith
  have hqhi : |q| ≤ 4 := by
    rw [hq, abs_div, div_le_iff₀ (by linarith)]; nlinarith
  -- q0
  obtain ⟨f1, d1, m1, hd1, hm1, e1⟩ := mul_rel he hx hr (le_trans (am hx2 hR2) (by norm_num; linarith))
  set q0 := fmul F x r with hq0
  have hm1' : |m1| ≤ u ^ 2 := le_trans hm1 hee
  set p := Y * R - 1 with hp
  have hXR : X * R = q * (1 + p) := by rw [hXq, hp]; ring
  rw [← hX, ← hR, hXR] at e1
  -- relative error of q0
  set al := rv q0 - q with hal
  have halb : |al| ≤ 4.3 * u * |q| := by
    have e : al = q * (p + d1 + p * d1) + m1 := by rw [hal, e1]; ring
    rw [e]
    have h1 : |p + d1 + p * d1| ≤ 16 / 5 * u + u + 16 / 5 * u * u := aa (aa hrho hd1) (am hrho hd1)
    have h2 : |q * (p + d1 + p * d1) + m1| ≤ |q| * (16 / 5 * u + u + 16 / 5 * u * u) + u ^ 2 := aa (am le_rfl h1) hm1'
    refine le_trans h2 ?_
    norm_num
    nlinarith [abs_nonneg q]
  -- residual
  obtain ⟨n1, n2⟩ := rv_neg f1
  have harg : rv (fneg q0) * Y + X = -(al * Y) := by rw [n2, hXq, hal]; ring
  have hal1 : |al| ≤ 1 / 100 := by
    refine le_trans halb ?_; norm_num; nlinarith
  obtain ⟨f2, d2, m2, hd2, hm2, e2⟩ := fma_rel he n1 hy hx (by
    rw [← hX, ← hY, harg, abs_neg]; exact le_trans (am hal1 hy2) (by norm_num; linarith))
  rw [← hX, ← hY, harg] at e2
  have hm2' : |m2| ≤ u ^ 2 := le_trans hm2 hee
  set er := ffma F (fneg q0) y x with her
  have hm2r : ee F ≤ u ^ 2 := hee
  -- the last operation
  have hzid : rv er * R + rv q0 - q = -(al * (p + d2 + p * d2)) + m2 * R := by
    rw [e2, show rv q0 = al + q by rw [hal]; ring, hp]; ring
  have hzb : |rv er * R + rv q0 - q| ≤ 23 * u ^ 2 * |q| := by
    rw [hzid]
    have h1 : |p + d2 + p * d2| ≤ 16 / 5 * u + u + 16 / 5 * u * u := aa (aa hrho hd2) (am hrho hd2)
    have h2 : |-(al * (p + d2 + p * d2)) + m2 * R| ≤ 4.3 * u * |q| * (16 / 5 * u + u + 16 / 5 * u * u) + u ^ 2 * (33 / 32) :=
      aa (by rw [abs_neg]; exact am halb h1) (am hm2' hR2)
    refine le_trans h2 ?_
    have hu2 : 0 ≤ u ^ 2 := sq_nonneg u
    have hc : u ^ 2 * (1 / 4) ≤ u ^ 2 * |q| := mul_le_mul_of_nonneg_left hqlo hu2
    have hc3 : 0 ≤ u ^ 2 * |q| := by positivity
    have hc2 : u ^ 2 * |q| * u ≤ u ^ 2 * |q| * (1 / 2048) := mul_le_mul_of_nonneg_left hu hc3
    rw [show 4.3 * u * |q| * (16 / 5 * u + u + 16 / 5 * u * u) = 4.3 * (21 / 5) * (u ^ 2 * |q|) + 4.3 * (16 / 5) * (u ^ 2 * |q| * u) by ring]
    norm_num
    linarith
  have hzle : |rv er * R + rv q0| ≤ (2 : ℝ) ^ F.emax := by
    have := abs_add_le (rv er * R + rv q0 - q) q
    rw [sub_add_cancel] at this
    have h3 : 23 * u ^ 2 * |q| ≤ 1 := by
      have : u ^ 2 ≤ 1 / 2048 * (1 / 2048) := by rw [sq]; exact mul_le_mul hu hu hu0.le (by norm_num)
      nlinarith [abs_nonneg q]
    linarith
  obtain ⟨f3, e3⟩ := ffma_fin he f2 hr f1 hzle
  exact ⟨f3, _, e3, hzb⟩

end Verif.Elem
