import Verif.Elem.SqrtFloat

/-! # The refined half reciprocal of the square root -/

namespace Verif.Elem

open Verif.Float (Fmt Val)
open Verif.Check

/-- the powers of two around the half reciprocal, in units -/
theorem pw_unit (F : Fmt) (e : ℤ) : (2 : ℝ) ^ (-e) * ww F e = 1 / TT F ∧ (2 : ℝ) ^ (-e - 1) * ww F e = 1 / (2 * TT F) ∧ (2 : ℝ) ^ (-e - 2) * ww F e = 1 / (4 * TT F) := by
  have hw := ww_pos F e
  have hTw := TT_ww F e
  have hp := r2 e
  have hT0 : (0 : ℝ) < TT F := by rw [TT_cast]; exact r2 _
  have h1 : (2 : ℝ) ^ (-e) * ww F e = 1 / TT F := by
    rw [zpow_neg, ← hTw]; field_simp
  have h2 : (2 : ℝ) ^ (-e - 1) = (2 : ℝ) ^ (-e) / 2 := by
    rw [show -e = 1 + (-e - 1) by ring, r2add, zpow_one]; simp
  have h3 : (2 : ℝ) ^ (-e - 2) = (2 : ℝ) ^ (-e) / 4 := by
    rw [show -e = 2 + (-e - 2) by ring, r2add]; norm_num
  refine ⟨h1, ?_, ?_⟩
  · rw [h2, div_mul_eq_mul_div, h1]; field_simp
  · rw [h3, div_mul_eq_mul_div, h1]; field_simp

theorem err_unit (F : Fmt) (e : ℤ) : (2 : ℝ) ^ (-e - 1 - F.f - 1) * ww F e = 1 / (2 * (TT F : ℝ) ^ 2) ∧ (2 : ℝ) ^ (-e - 2 - F.f - 1) * ww F e = 1 / (4 * (TT F : ℝ) ^ 2) := by
  obtain ⟨h1, h2, h3⟩ := pw_unit F e
  have hT0 : (0 : ℝ) < TT F := by rw [TT_cast]; exact r2 _
  have hi : (2 : ℝ) ^ (-(F.f : ℤ) - 1) = 1 / TT F := by have := uu_TT F; unfold uu at this; exact this
  refine ⟨?_, ?_⟩
  · rw [show -e - 1 - (F.f : ℤ) - 1 = (-e - 1) + (-(F.f : ℤ) - 1) by ring, r2add, hi, mul_right_comm, h2]; field_simp
  · rw [show -e - 2 - (F.f : ℤ) - 1 = (-e - 2) + (-(F.f : ℤ) - 1) by ring, r2add, hi, mul_right_comm, h3]; field_simp

/-- real bounds used below -/
theorem x1_real {T s H : ℝ} (hT : 2 ^ 21 ≤ T) (hs : T ≤ s) (h : |2 * s * H - 1| ≤ 1.501 / T) : H < 1 / (2 * T) * (1 + 2 / T) := by
  have hT0 : 0 < T := by linarith
  have h2 := (abs_le.1 h).2
  by_contra hc
  have hc := not_lt.1 hc
  have hp : 0 < 1 / (2 * T) * (1 + 2 / T) := by positivity
  have h3 : 2 * T * (1 / (2 * T) * (1 + 2 / T)) ≤ 2 * s * H := mul_le_mul (by linarith) hc hp.le (by linarith)
  have h4 : 2 * T * (1 / (2 * T) * (1 + 2 / T)) = 1 + 2 / T := by field_simp
  have h5 : 1.501 / T < 2 / T := div_lt_div_of_pos_right (by norm_num) hT0
  linarith

theorem x2_real {T s H : ℝ} (hT : 2 ^ 21 ≤ T) (hs : 2 * T - 1 - 1 / T ≤ s) (h : |2 * s * H - 1| ≤ 1.251 / T) : H < 1 / (4 * T) * (1 + 2 / T) := by
  have hT0 : 0 < T := by linarith
  have h2 := (abs_le.1 h).2
  by_contra hc
  have hc := not_lt.1 hc
  have hp : 0 < 1 / (4 * T) * (1 + 2 / T) := by positivity
  have hU : 1 / T ≤ 1 / 2 ^ 21 := one_div_le_one_div_of_le (by norm_num) hT
  norm_num at hU
  have hT2 : (2097152 : ℝ) ≤ T := by norm_num at hT; exact hT
  have h3 : 2 * (2 * T - 1 - 1 / T) * (1 / (4 * T) * (1 + 2 / T)) ≤ 2 * s * H := mul_le_mul (by linarith) hc hp.le (by
    have : 1 / T ≤ 1 := by rw [div_le_one hT0]; linarith
    linarith)
  have h4 : 2 * (2 * T - 1 - 1 / T) * (1 / (4 * T) * (1 + 2 / T)) = 1 + 3 / 2 * (1 / T) - 3 / 2 * (1 / T) ^ 2 - (1 / T) ^ 3 := by field_simp; ring
  set U := 1 / T with hU'
  have hU0 : 0 < U := by positivity
  have h5 : 1.251 / T = 1.251 * U := by rw [hU']; ring
  have hU2 : U ≤ 1 / 2097152 := by rw [hU']; simpa using hU
  rw [h5] at h2
  nlinarith [mul_pos hU0 hU0, mul_pos (mul_pos hU0 hU0) hU0]

theorem top_root {T X s : ℝ} (hT : 2 ^ 21 ≤ T) (s0 : 0 < s) (hs : s ^ 2 = X) (hX : X = 4 * T ^ 2 - 4 * T) : 2 * T - 1 - 1 / T ≤ s := by
  have hT0 : 0 < T := by linarith
  by_contra hc
  have hc := not_le.1 hc
  have h1 : s ^ 2 < (2 * T - 1 - 1 / T) ^ 2 := by nlinarith
  have h2 : (2 * T - 1 - 1 / T) ^ 2 = 4 * T ^ 2 - 4 * T - 3 + 2 * (1 / T) + (1 / T) ^ 2 := by field_simp; ring
  have hU : 1 / T ≤ 1 / 2 ^ 21 := one_div_le_one_div_of_le (by norm_num) hT
  have hU0 : 0 < 1 / T := by positivity
  have hU1 : 1 / T ≤ 1 / 100 := le_trans hU (by norm_num)
  generalize 1 / T = U at *
  have : U ^ 2 ≤ 1 / 100 := by nlinarith
  linarith

theorem small_T {T : ℝ} (hT : 2 ^ 21 ≤ T) : 1 / T ≤ 1 / 100 ∧ 1 / T ^ 2 ≤ 1 / 100 ∧ 2 / T ≤ 1 / 100 ∧ 0 ≤ (4 * T ^ 2 - 4 * T) / 2 := by
  have hT0 : 0 < T := by linarith
  refine ⟨?_, ?_, ?_, ?_⟩
  · rw [div_le_iff₀ hT0]; linarith
  · rw [div_le_iff₀ (by positivity)]; nlinarith
  · rw [div_le_iff₀ hT0]; linarith
  · nlinarith

theorem p_small {p : ℝ} (h : |p| ≤ 1 / 100) : |p + p ^ 2 / 2| ≤ 1 / 20 := by
  obtain ⟨q1, q2⟩ := abs_le.1 h
  rw [abs_le]; constructor <;> nlinarith

section
variable {F : Fmt} {x : Val} {s : ℝ} {e X : ℤ}

/-- the reciprocal just above a power of two -/
theorem h_mid (c : Ctx F x s e X) {A : ℝ} {n : ℤ} (hA : A = n * (2 : ℝ) ^ (-e - 1 - F.f)) (hn : n = 2 ^ F.f + 1) (hX : X = 4 * TT F ^ 2 - 4 * TT F) :
    (roundUnb F .RN (A * (rv x / 2)) : ℝ) = (2 : ℝ) ^ e ∧ -(2 : ℝ) ^ e * A + 1 / 2 = ((-(2 : ℚ) ^ (-(F.f : ℤ) - 1) : ℚ) : ℝ) ∧
      A / 2 * (1 + ((-(2 : ℚ) ^ (-(F.f : ℤ) - 1) : ℚ) : ℝ)) * ww F e < 1 / (4 * TT F) * (1 + 1 / TT F) := by
  have hT := c.sq.bigR
  have hT0 : (0 : ℝ) < TT F := by linarith
  have hw := ww_pos F e
  have hTw := TT_ww F e
  obtain ⟨w1, w2, w3⟩ := pw_unit F e
  have huT := c.u_T
  have hu : (2 : ℝ) ^ (-(F.f : ℤ) - 1) = 1 / TT F := by unfold uu at huT; exact huT
  have hf2 : ((2 ^ F.f : ℤ) : ℝ) * (2 : ℝ) ^ (-e - 1 - F.f) = (2 : ℝ) ^ (-e - 1) := by
    push_cast; rw [← zpow_natCast, ← r2add]; congr 1; ring
  have hA' : A = (2 : ℝ) ^ (-e - 1) * (1 + 2 / TT F) := by
    rw [hA, hn]; push_cast at hf2 ⊢
    rw [add_mul, hf2, one_mul, mul_add, mul_one, show -e - 1 - (F.f : ℤ) = (-e - 1) + (1 + (-(F.f : ℤ) - 1)) by ring, r2add (-e - 1), r2add 1, hu, zpow_one]
    ring
  have hAw : A * ww F e = 1 / (2 * TT F) * (1 + 2 / TT F) := by rw [hA', mul_right_comm, w2]
  have hXR : (X : ℝ) = 4 * (TT F : ℝ) ^ 2 - 4 * TT F := by rw [hX]; push_cast; ring
  have hz : A * (rv x / 2) = (TT F + 1 - 2 / TT F) * ww F e := by
    rw [c.hX, show A * (X * ww F e ^ 2 / 2) = (A * ww F e) * (X / 2) * ww F e by ring, hAw, hXR]; field_simp; ring
  have h2T : 2 / (TT F : ℝ) ≤ 1 := by rw [div_le_one hT0]; linarith
  have h2T0 : 0 < 2 / (TT F : ℝ) := by positivity
  have hzp : 0 < A * (rv x / 2) := by rw [hz]; exact mul_pos (by linarith) hw
  refine ⟨?_, ?_, ?_⟩
  · have := ru_eq (F := F) (z := A * (rv x / 2)) (E := e) (n := 2 ^ F.f) (by have := c.emin_le; omega)
      (by rw [abs_of_pos hzp, hz, ← hTw]; exact mul_le_mul_of_nonneg_right (by linarith) hw.le)
      (by rw [abs_of_pos hzp, hz, two_e F]; exact mul_lt_mul_of_pos_right (by linarith) hw)
      (by
        have h1 : ((2 ^ F.f : ℤ) : ℝ) * (2 : ℝ) ^ (e - F.f) = TT F * ww F e := by
          rw [hTw]; push_cast; rw [← zpow_natCast, ← r2add]; congr 1; ring
        rw [h1, hz, show (TT F + 1 - 2 / TT F) * ww F e - TT F * ww F e = (1 - 2 / TT F) * ww F e by ring, abs_of_nonneg (mul_nonneg (by linarith) hw.le)]
        show _ < ww F e
        nlinarith)
    rw [this]
    push_cast
    rw [← zpow_natCast, ← r2add]; congr 1; ring
  · push_cast
    rw [hA', hu, neg_mul, ← mul_assoc, ← r2add, show e + (-e - 1) = -1 by ring]
    norm_num; ring
  · push_cast
    rw [hu, show A / 2 * (1 + -(1 / (TT F : ℝ))) * ww F e = (A * ww F e) / 2 * (1 - 1 / TT F) by ring, hAw]
    set U := 1 / (TT F : ℝ) with hU
    have hU0 : 0 < U := by positivity
    have e1 : 1 / (2 * (TT F : ℝ)) = U / 2 := by rw [hU]; field_simp
    have e2 : 1 / (4 * (TT F : ℝ)) = U / 4 := by rw [hU]; field_simp
    have e3 : 2 / (TT F : ℝ) = 2 * U := by rw [hU]; ring
    rw [e1, e2, e3]
    nlinarith [mul_pos hU0 hU0, mul_pos (mul_pos hU0 hU0) hU0]

set_option maxHeartbeats 3000000 in
/-- the half reciprocal and its refinement -/
theorem hf_facts (c : Ctx F x s e X) {a h : Val} (ha : Fin' F a) (hp : |rv a * s - 1| ≤ 6 * uu F) (hh : Fin' F h) (hhv : rv h = rv x / 2) :
    Fin' F (fmul F (.num (1 / 2)) a) ∧ rv (fmul F (.num (1 / 2)) a) = rv a / 2 ∧
    Fin' F (ffma F (fmsn F (fmul F a h) a (.num (1 / 2))) (fmul F (.num (1 / 2)) a) (fmul F (.num (1 / 2)) a)) ∧
    Sq.Hf (TT F) X (s / ww F e) (rv (ffma F (fmsn F (fmul F a h) a (.num (1 / 2))) (fmul F (.num (1 / 2)) a) (fmul F (.num (1 / 2)) a)) * ww F e) := by
  have B := c.big
  have he := B.he2
  have hu0 := uu_pos F
  have hT := c.sq.bigR
  have hT0 : (0 : ℝ) < TT F := by linarith
  have hw := ww_pos F e
  have hTw := TT_ww F e
  have huT := c.u_T
  have hs0 := c.s0
  have h2e := r2 e
  obtain ⟨hf1, hf2⟩ := half_fin B
  obtain ⟨w1, w2, w3⟩ := pw_unit F e
  obtain ⟨k1, k2⟩ := err_unit F e
  obtain ⟨b1, b2⟩ := c.e_neg
  have hu1 : uu F ≤ 1 / 2 ^ 21 := by rw [huT]; exact one_div_le_one_div_of_le (by norm_num) hT
  norm_num at hu1
  set A := rv a with hA
  set w := ww F e with hw_
  set p := A * s - 1 with hp_
  obtain ⟨p1, p2⟩ := abs_le.1 hp
  have hAs : A * s = 1 + p := by rw [hp_]; ring
  have hA0 : 0 < A := by
    have : 0 < A * s := by rw [hAs]; linarith
    exact pos_of_mul_pos_left this hs0.le
  -- the size of the reciprocal
  have hpe : (2 : ℝ) ^ (-e) * (2 : ℝ) ^ e = 1 := by rw [← r2add]; norm_num
  have hAhi : A ≤ (2 : ℝ) ^ (-e) * (1 + 6 * uu F) := by
    have h1 : A * (2 : ℝ) ^ e ≤ A * s := mul_le_mul_of_nonneg_left c.e1 hA0.le
    have h2 : A = (2 : ℝ) ^ (-e) * (A * (2 : ℝ) ^ e) := by rw [mul_left_comm, hpe, mul_one]
    rw [h2]; exact mul_le_mul_of_nonneg_left (by linarith) (r2 _).le
  have hAlo : (2 : ℝ) ^ (F.emin + 1) ≤ A := by
    have h1 : A * s ≤ A * (2 * (2 : ℝ) ^ e) := by
      refine mul_le_mul_of_nonneg_left ?_ hA0.le
      have := c.e2.le; rw [r2add, zpow_one] at this; linarith
    have h2 : (2 : ℝ) ^ (-e - 2) ≤ A := by
      have h3 : (2 : ℝ) ^ (-e - 2) = (2 : ℝ) ^ (-e) / 4 := by
        rw [show -e = 2 + (-e - 2) by ring, r2add]; norm_num
      have h4 : A = (2 : ℝ) ^ (-e) * (A * (2 : ℝ) ^ e) := by rw [mul_left_comm, hpe, mul_one]
      rw [h3, h4, div_eq_mul_one_div]
      refine mul_le_mul_of_nonneg_left ?_ (r2 _).le
      rw [show A * (2 * (2 : ℝ) ^ e) = 2 * (A * (2 : ℝ) ^ e) by ring] at h1
      linarith
    exact le_trans (r2le (by omega)) h2
  obtain ⟨fH, vH⟩ := half_mul B ha (by rw [← hA, abs_of_pos hA0]; exact hAlo)
  rw [← hA] at vH
  -- the product
  have hAh : A * rv h = s * (1 + p) / 2 := by rw [hhv, ← c.hs, ← hAs]; ring
  have hAh0 : 0 < A * rv h := by rw [hAh]; have : 0 < 1 + p := by linarith
                                 positivity
  have hAhb : A * rv h ≤ (2 : ℝ) ^ (e + 1) := by
    rw [hAh]
    have h1 : s * (1 + p) ≤ s * 2 := mul_le_mul_of_nonneg_left (by linarith) hs0.le
    have := c.e2
    linarith
  obtain ⟨f5, v5⟩ := fmul_val he ha hh (by
    rw [← hA, abs_of_pos hAh0]; exact le_trans hAhb (r2le (by have := c.e_le; omega)))
  rw [← hA] at v5
  set t5 := fmul F a h with ht5
  have g1 : |rv t5 - A * rv h| ≤ w := by
    have := ru_err_le (F := F) (x := A * rv h) (k := e) (by have := c.emin_le; omega) (by rw [abs_of_pos hAh0]; exact hAhb)
    rw [v5]; exact this
  have g2 : A * rv h ≤ (2 : ℝ) ^ e → |rv t5 - A * rv h| ≤ w / 2 := by
    intro hb
    have := ru_err_le (F := F) (x := A * rv h) (k := e - 1) (by have := c.emin_le; omega) (by rw [abs_of_pos hAh0, sub_add_cancel]; exact hb)
    rw [v5]
    refine le_trans this (le_of_eq ?_)
    rw [hw_]; unfold ww
    rw [show e - (F.f : ℤ) - 1 = 1 + (e - 1 - F.f - 1) by ring, r2add 1, zpow_one]; ring
  -- the residual
  set t := (rv t5 - A * rv h) / w with ht
  have htw : rv t5 = A * rv h + t * w := by rw [ht]; field_simp; ring
  have ht1 : |t| ≤ 1 := by rw [ht, abs_div, abs_of_pos hw, div_le_one hw]; exact g1
  set As := A * w with hAs_
  set ss := s / w with hss
  have hAss : As * ss = 1 + p := by rw [hAs_, hss, ← hAs]; field_simp
  have hhat : As * (ss ^ 2 / 2) = A * rv h / w := by rw [hAs_, hss, hhv, ← c.hs]; field_simp
  have hAsT : As ≤ 2 / TT F := by
    have : As ≤ (2 : ℝ) ^ (-e) * (1 + 6 * uu F) * w := mul_le_mul_of_nonneg_right hAhi hw.le
    rw [mul_right_comm, w1] at this
    have h3 : 1 / (TT F : ℝ) * (1 + 6 * uu F) ≤ 1 / (TT F : ℝ) * 2 := mul_le_mul_of_nonneg_left (by linarith) (by positivity)
    refine le_trans this (le_trans h3 (le_of_eq (by ring)))
  have hAs0 : 0 < As := mul_pos hA0 hw
  set m := 1 / 2 - (As * (ss ^ 2 / 2) + t) * As with hm
  have hmv : rv (fneg t5) * A + 1 / 2 = m := by
    rw [(rv_neg f5).2, htw, hm, hhat, hAs_]; field_simp; ring
  have hmb : |m| ≤ 1 / 4 := by
    have e1 : m = -(p + p ^ 2 / 2) + -(t * As) := by
      rw [hm, show (As * (ss ^ 2 / 2) + t) * As = (As * ss) ^ 2 / 2 + t * As by ring, hAss]; ring
    have h6 : |p| ≤ 1 / 100 := le_trans hp (by linarith)
    have h7 := p_small h6
    have h8 : 2 / (TT F : ℝ) ≤ 1 / 100 := (small_T hT).2.2.1
    rw [e1]
    refine le_trans (aa ((abs_neg _).trans_le h7) ((abs_neg _).trans_le (am ht1 (le_trans (le_of_eq (abs_of_pos hAs0)) (le_trans hAsT h8))))) (by norm_num)
  have hemax1 : (1 : ℝ) ≤ (2 : ℝ) ^ F.emax := by
    rw [show (1 : ℝ) = (2 : ℝ) ^ (0 : ℤ) by norm_num]; exact r2le (by have := c.hm; omega)
  obtain ⟨f6, v6⟩ := ffma_fin he (rv_neg f5).1 ha hf1 (by
    rw [← hA, hf2, hmv]; exact le_trans hmb (by linarith))
  rw [← hA, hf2, hmv] at v6
  obtain ⟨d, n, hd, hn, h6⟩ := ru_split F m
  rw [← v6] at h6
  have heq6 : fmsn F t5 a (.num (1 / 2)) = ffma F (fneg t5) a (.num (1 / 2)) := rfl
  rw [heq6]
  set t6 := ffma F (fneg t5) a (.num (1 / 2)) with ht6
  have heT : ee F ≤ 1 / (TT F : ℝ) ^ 2 := by
    have : 1 / (TT F : ℝ) ^ 2 = uu F ^ 2 := by rw [huT]; field_simp
    rw [this]; unfold ee uu
    rw [sq, ← r2add]
    exact r2le (by have := c.hm; unfold Fmt.emin; omega)
  rw [huT] at hd
  have hn' := le_trans hn heT
  have hd' : 1 / (TT F : ℝ) ≤ 1 / 100 := (small_T hT).1
  have hn2 : 1 / (TT F : ℝ) ^ 2 ≤ 1 / 100 := (small_T hT).2.1
  have h6b : |rv t6| ≤ 1 / 2 := by
    rw [h6]
    refine le_trans (aa (am hmb (aa (le_of_eq abs_one) (le_trans hd hd'))) (le_trans hn' hn2)) (by norm_num)
  obtain ⟨z1, z2⟩ := abs_le.1 h6b
  have hpre : rv t6 * rv (fmul F (.num (1 / 2)) a) + rv (fmul F (.num (1 / 2)) a) = A / 2 * (1 + rv t6) := by rw [vH]; ring
  set P := A / 2 * (1 + rv t6) with hP
  have hP0 : 0 < P := by rw [hP]; have : 0 < 1 + rv t6 := by linarith
                         positivity
  have hPhi : P ≤ (2 : ℝ) ^ (-e) := by
    have q := r2 (-e)
    have h1 : P ≤ A / 2 * (3 / 2) := mul_le_mul_of_nonneg_left (by linarith) (by linarith)
    have h2 : (2 : ℝ) ^ (-e) * (1 + 6 * uu F) ≤ (2 : ℝ) ^ (-e) * (4 / 3) := mul_le_mul_of_nonneg_left (by linarith) q.le
    linarith
  obtain ⟨f7, v7⟩ := ffma_fin he f6 fH fH (by
    rw [hpre, abs_of_pos hP0]; exact le_trans hPhi (r2le (by omega)))
  rw [hpre] at v7
  set H1 := ffma F t6 (fmul F (.num (1 / 2)) a) (fmul F (.num (1 / 2)) a) with hH1
  refine ⟨fH, vH, f7, ?_⟩
  have hPw : As / 2 * (1 + rv t6) = P * w := by rw [hP, hAs_]; ring
  have q1 : |rv H1 * w - As / 2 * (1 + rv t6)| ≤ 1 / (2 * (TT F : ℝ) ^ 2) := by
    have := ru_err_le (F := F) (x := P) (k := -e - 1) (by omega) (by rw [abs_of_pos hP0, sub_add_cancel]; exact hPhi)
    rw [← v7] at this
    rw [hPw, ← sub_mul, abs_mul, abs_of_pos hw, ← k1]
    exact mul_le_mul_of_nonneg_right this hw.le
  have q2 : As / 2 * (1 + rv t6) ≤ 1 / (2 * TT F) → |rv H1 * w - As / 2 * (1 + rv t6)| ≤ 1 / (4 * (TT F : ℝ) ^ 2) := by
    intro hb
    rw [hPw, ← w2] at hb
    have hb' := le_of_mul_le_mul_right hb hw
    have := ru_err_le (F := F) (x := P) (k := -e - 2) (by omega) (by rw [abs_of_pos hP0, show -e - 2 + 1 = -e - 1 by ring]; exact hb')
    rw [← v7] at this
    rw [hPw, ← sub_mul, abs_mul, abs_of_pos hw, ← k2]
    exact mul_le_mul_of_nonneg_right this hw.le
  have ht2 : As * (ss ^ 2 / 2) ≤ TT F → |t| ≤ 1 / 2 := by
    intro hb
    rw [hhat, div_le_iff₀ hw, hTw] at hb
    have := g2 hb
    rw [ht, abs_div, abs_of_pos hw, div_le_iff₀ hw]; linarith
  have hp' : |p| ≤ 6 / TT F := le_trans hp (le_of_eq (by rw [huT]; ring))
  have hslo := c.sq.s_lo
  have hshi := c.sq.s_hi
  rw [← hw_, ← hss] at hslo hshi
  obtain ⟨B1, B2⟩ := h_bounds hT hslo hshi.le hAss hp' ht1 ht2 hm h6 hd hn' q1 q2
  have hH1u := (fin_unb he f7).1
  have low : ∀ k : ℤ, ∀ y : ℝ, (2 : ℝ) ^ k * w = y → rv H1 * w < y * (1 + 2 / TT F) → rv H1 * w ≤ y := by
    intro k y hy hlt
    by_contra hc
    have hc := not_le.1 hc
    refine no_gap hH1u (k := k) ⟨?_, ?_⟩
    · rw [← hy] at hc; exact lt_of_mul_lt_mul_right hc hw.le
    · rw [← hy, mul_right_comm] at hlt
      have := lt_of_mul_lt_mul_right hlt hw.le
      rw [huT]; refine lt_of_lt_of_eq this (by ring)
  have hsX : ss ^ 2 = X := c.sq.hs
  constructor
  · exact B1
  · intro j1 j2
    refine B2 j1 ?_
    rw [show As * (ss ^ 2 / 2) = (As * ss) * ss / 2 by ring, hAss]
    have h1 : (1 + p) * ss ≤ (1 + 6 / TT F) * (2 * TT F - 20) := by
      have := (abs_le.1 hp').2
      exact mul_le_mul (by linarith) j2 (by linarith) (by positivity)
    have h2 : (1 + 6 / (TT F : ℝ)) * (2 * TT F - 20) = 2 * TT F - 8 - 120 / TT F := by field_simp; ring
    have h3 : 0 < 120 / (TT F : ℝ) := by positivity
    linarith
  · intro _
    exact low (-e - 1) _ w2 (x1_real hT hslo B1)
  · intro hX
    have hXR : (X : ℝ) = 4 * (TT F : ℝ) ^ 2 - 4 * TT F := by rw [hX]; push_cast; ring
    have htop := top_root hT c.sq.s0 hsX hXR
    refine low (-e - 2) _ w3 ?_
    have fin : As / 2 * (1 + rv t6) < 1 / (4 * TT F) * (1 + 1 / TT F) → rv H1 * w < 1 / (4 * TT F) * (1 + 2 / TT F) := by
      intro hlt
      have hq := q2 (le_trans hlt.le (by
        have : 1 / (4 * (TT F : ℝ)) * (1 + 1 / TT F) ≤ 1 / (4 * (TT F : ℝ)) * 2 := mul_le_mul_of_nonneg_left (by linarith) (by positivity)
        refine le_trans this (le_of_eq ?_); field_simp; norm_num))
      have := (abs_le.1 hq).2
      have e1 : 1 / (4 * (TT F : ℝ)) * (1 + 2 / TT F) = 1 / (4 * (TT F : ℝ)) * (1 + 1 / TT F) + 1 / (4 * (TT F : ℝ) ^ 2) := by field_simp; ring
      linarith
    rcases le_or_gt As (1 / (2 * TT F)) with hc | hc
    · refine x2_real hT htop (B2 (by linarith) ?_)
      rw [hsX, hXR]
      have : As * ((4 * (TT F : ℝ) ^ 2 - 4 * TT F) / 2) ≤ 1 / (2 * TT F) * ((4 * (TT F : ℝ) ^ 2 - 4 * TT F) / 2) :=
        mul_le_mul_of_nonneg_right hc (small_T hT).2.2.2
      have e1 : 1 / (2 * (TT F : ℝ)) * ((4 * (TT F : ℝ) ^ 2 - 4 * TT F) / 2) = TT F - 1 := by field_simp; ring
      linarith
    rcases le_or_gt (1 / (2 * (TT F : ℝ)) * (1 + 4 / TT F)) As with hc2 | hc2
    · exact fin (h_top hT htop (by linarith) hAss hp' ht1 hm h6 hd hn' hc2)
    · refine fin ?_
      have hAu := (fin_unb he ha).1
      have hc' : (2 : ℝ) ^ (-e - 1) < A := by rw [← w2] at hc; exact lt_of_mul_lt_mul_right hc hw.le
      have hc2' : A < (2 : ℝ) ^ (-e - 1) * (1 + 4 / TT F) := by
        rw [← w2, mul_right_comm] at hc2; exact lt_of_mul_lt_mul_right hc2 hw.le
      obtain ⟨n, hn⟩ := unb_grid hAu (E := -e - 1) (by
        rw [hA] at hc'; unfold rv at hc'; rw [r2cast] at hc'
        exact le_trans (by exact_mod_cast hc'.le) (le_abs_self _))
      have hAn : A = n * (2 : ℝ) ^ (-e - 1 - F.f) := by rw [hA]; unfold rv; rw [hn]; push_cast; rfl
      have hq := r2 (-e - 1 - F.f)
      have e1 : (2 : ℝ) ^ (-e - 1) = ((2 ^ F.f : ℤ) : ℝ) * (2 : ℝ) ^ (-e - 1 - F.f) := by
        push_cast; rw [← zpow_natCast, ← r2add]; congr 1; ring
      have e2 : (2 : ℝ) ^ (-e - 1) * (4 / TT F) = 2 * (2 : ℝ) ^ (-e - 1 - F.f) := by
        have hu : (2 : ℝ) ^ (-(F.f : ℤ) - 1) = 1 / TT F := by unfold uu at huT; exact huT
        rw [show -e - 1 - (F.f : ℤ) = (-e - 1) + (1 + (-(F.f : ℤ) - 1)) by ring, r2add (-e - 1), r2add 1, hu, zpow_one]
        ring
      rw [mul_add, mul_one, e2, e1, hAn] at hc2'
      rw [e1, hAn] at hc'
      have c1 : 2 ^ F.f < n := by exact_mod_cast lt_of_mul_lt_mul_right hc' hq.le
      have c2 : n < 2 ^ F.f + 2 := by
        have : (n : ℝ) < ((2 ^ F.f + 2 : ℤ) : ℝ) := by
          refine lt_of_mul_lt_mul_right (a := (2 : ℝ) ^ (-e - 1 - F.f)) ?_ hq.le
          push_cast at hc2' ⊢; linarith
        exact_mod_cast this
      obtain ⟨m1, m2, m3⟩ := h_mid c hAn (by omega) hX
      have v5' : rv t5 = (2 : ℝ) ^ e := by rw [v5, hhv]; exact m1
      have hm' : m = ((-(2 : ℚ) ^ (-(F.f : ℤ) - 1) : ℚ) : ℝ) := by rw [← hmv, (rv_neg f5).2, v5']; exact m2
      have hv6 : rv t6 = ((-(2 : ℚ) ^ (-(F.f : ℤ) - 1) : ℚ) : ℝ) := by
        rw [v6, hm', ru_exact]
        have := unb_pow (F := F) (k := -(F.f : ℤ) - 1) (by have := c.hm; unfold Fmt.emin; omega)
        exact unb_neg this
      rw [hPw, hP, hv6]
      exact m3

end

end Verif.Elem
