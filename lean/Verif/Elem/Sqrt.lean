import Verif.Elem.SqrtHf
import Verif.Elem.SqrtModel

/-! # The generated square root is correctly rounded -/

namespace Verif.Elem

open Verif.Float (Fmt Val)
open Verif.Check

section
variable {F : Fmt} {x : Val} {s : ℝ} {e X : ℤ}

/-- rounding between `2 ^ e` and `2 ^ (e + 1)`, in half last places -/
theorem rn_grid (c : Ctx F x s e X) {z : ℝ} (h1 : (TT F : ℝ) ≤ z) (h2 : z ≤ 2 * TT F) :
    ∃ n : ℤ, (roundUnb F .RN (z * ww F e) : ℝ) = ((2 * n : ℤ) : ℝ) * ww F e ∧ |((2 * n : ℤ) : ℝ) - z| ≤ 1 := by
  have hw := ww_pos F e
  have hTw := TT_ww F e
  have hT := c.sq.bigR
  have hz : (2 : ℝ) ^ e ≤ z * ww F e := by rw [← hTw]; exact mul_le_mul_of_nonneg_right h1 hw.le
  have hz2 : z * ww F e ≤ (2 : ℝ) ^ (e + 1) := by rw [two_e F]; exact mul_le_mul_of_nonneg_right h2 hw.le
  have hz0 : 0 < z * ww F e := lt_of_lt_of_le (r2 _) hz
  have hg := ru_between_ge (F := F) (x := z * ww F e) (unb_pow (k := e) (by have := c.emin_le; omega)) (by rw [← r2cast]; exact hz)
  obtain ⟨n, hn⟩ := unb_grid (roundUnb_unb F .RN (z * ww F e)) (E := e) (by
    refine le_trans ?_ (le_abs_self _); exact_mod_cast hg)
  have hv : (roundUnb F .RN (z * ww F e) : ℝ) = ((2 * n : ℤ) : ℝ) * ww F e := by
    rw [hn]; push_cast; unfold ww
    rw [show e - (F.f : ℤ) = 1 + (e - F.f - 1) by ring, r2add, zpow_one, show (1 : ℤ) + (e - F.f - 1) - 1 = e - F.f - 1 by ring]; ring
  refine ⟨n, hv, ?_⟩
  have := ru_err_le (F := F) (x := z * ww F e) (k := e) (by have := c.emin_le; omega) (by rw [abs_of_pos hz0]; exact hz2)
  rw [hv, ← sub_mul, abs_mul, abs_of_pos hw] at this
  have h3 : (2 : ℝ) ^ (e - F.f - 1) = 1 * ww F e := by unfold ww; ring
  rw [h3] at this
  exact le_of_mul_le_mul_right this hw

theorem rn_unit (c : Ctx F x s e X) {z : ℝ} {K : ℤ} (hK : Even K) (k1 : TT F ≤ K) (k2 : K + 2 ≤ 2 * TT F) (h : |z - K| < 1) (hz : (TT F : ℝ) - 1 / 2 < z) :
    (roundUnb F .RN (z * ww F e) : ℝ) = K * ww F e := by
  have hw := ww_pos F e
  have hTw := TT_ww F e
  have hT := c.sq.bigR
  obtain ⟨j1, j2⟩ := abs_lt.1 h
  have k1R : (TT F : ℝ) ≤ K := by exact_mod_cast k1
  have k2R : (K : ℝ) + 2 ≤ 2 * TT F := by exact_mod_cast k2
  rcases le_or_gt (TT F : ℝ) z with hc | hc
  · obtain ⟨n, hn, hd⟩ := rn_grid c hc (by linarith)
    obtain ⟨d1, d2⟩ := abs_le.1 hd
    obtain ⟨j, hj⟩ := hK
    have a1 : ((2 * n : ℤ) : ℝ) < ((K + 2 : ℤ) : ℝ) := by push_cast at *; linarith
    have a2 : ((K - 2 : ℤ) : ℝ) < ((2 * n : ℤ) : ℝ) := by push_cast at *; linarith
    have a1' : 2 * n < K + 2 := by exact_mod_cast a1
    have a2' : K - 2 < 2 * n := by exact_mod_cast a2
    rw [hn, show 2 * n = K by omega]
  · have hKT : K = TT F := by
      have : (K : ℝ) < ((TT F + 1 : ℤ) : ℝ) := by push_cast; linarith
      have : K < TT F + 1 := by exact_mod_cast this
      omega
    subst hKT
    have hz0 : 0 < z := by linarith
    have hzp : 0 < z * ww F e := mul_pos hz0 hw
    have he1 : (2 : ℝ) ^ e = 2 * (2 : ℝ) ^ (e - 1) := by
      rw [show e = 1 + (e - 1) by ring, r2add, zpow_one]; congr 2; ring
    have hwe : (2 : ℝ) ^ (e - 1 - F.f) = ww F e := by unfold ww; congr 1; ring
    have := ru_eq (F := F) (z := z * ww F e) (E := e - 1) (n := TT F) (by have := c.emin_le; omega)
      (by
        rw [abs_of_pos hzp]
        have : (2 : ℝ) ^ (e - 1) = TT F / 2 * ww F e := by linarith
        rw [this]; exact mul_le_mul_of_nonneg_right (by linarith) hw.le)
      (by rw [abs_of_pos hzp, sub_add_cancel, ← hTw]; exact mul_lt_mul_of_pos_right hc hw)
      (by
        rw [hwe, ← sub_mul, abs_mul, abs_of_pos hw, show e - 1 - (F.f : ℤ) - 1 = (e - F.f - 1) + -1 by ring, r2add]
        show _ < ww F e * _
        rw [mul_comm (ww F e)]
        refine mul_lt_mul_of_pos_right ?_ hw
        rw [abs_lt]; constructor <;> norm_num <;> linarith)
    rw [this]; push_cast
    rw [hwe]

theorem rn_tie (c : Ctx F x s e X) : (roundUnb F .RN ((TT F + 1) * ww F e) : ℝ) = TT F * ww F e := by
  have hw := ww_pos F e
  have hTw := TT_ww F e
  have hT := c.sq.bigR
  have hz0 : 0 < ((TT F : ℝ) + 1) * ww F e := mul_pos (by linarith) hw
  have hlog : Int.log 2 |((TT F : ℝ) + 1) * ww F e| = e := by
    rw [abs_of_pos hz0]
    refine log_eqR ?_ ?_
    · rw [← hTw]; exact mul_le_mul_of_nonneg_right (by linarith) hw.le
    · rw [two_e F]; exact mul_lt_mul_of_pos_right (by linarith) hw
  have hlp : lastPlace F (((TT F : ℝ) + 1) * ww F e) = e - F.f := by
    unfold lastPlace; rw [hlog, max_eq_left (by have := c.emin_le; omega)]
  have hq : (2 : ℝ) ^ (e - F.f) = 2 * ww F e := by
    unfold ww
    rw [show e - (F.f : ℤ) = 1 + (e - F.f - 1) by ring, r2add, zpow_one, show (1 : ℤ) + (e - F.f - 1) - 1 = e - F.f - 1 by ring]
  have hTT : (TT F : ℝ) = 2 * ((2 ^ F.f : ℤ) : ℝ) := by unfold TT; push_cast; rw [pow_succ]; ring
  have hy : ((TT F : ℝ) + 1) * ww F e / (2 : ℝ) ^ (e - F.f) = ((2 ^ F.f : ℤ) : ℝ) + 1 / 2 := by
    rw [hq, div_eq_iff (by positivity), hTT]; ring
  have hfl : ⌊((2 ^ F.f : ℤ) : ℝ) + 1 / 2⌋ = 2 ^ F.f := by
    rw [Int.floor_eq_iff]; constructor <;> norm_num
  have hev : (2 ^ F.f : ℤ) % 2 = 0 := by
    have := c.hf
    rw [show F.f = (F.f - 1) + 1 by omega, pow_succ]; omega
  have hi : toInt .RN (((TT F : ℝ) + 1) * ww F e / (2 : ℝ) ^ (e - F.f)) = 2 ^ F.f := by
    rw [hy]; unfold toInt; simp only [hfl]
    rw [if_neg (by norm_num), if_neg (by norm_num), if_pos hev]
  unfold roundUnb
  rw [if_neg hz0.ne', hlp, hi]
  push_cast
  rw [hq, hTT]; push_cast; ring

/-- the even integer the root rounds to -/
theorem root_near (c : Ctx F x s e X) : ∃ K : ℤ, Even K ∧ TT F ≤ K ∧ K + 2 ≤ 2 * TT F ∧ |s / ww F e - K| < 1 := by
  have hlo := c.sq.s_lo
  have hhi := c.sq.s_hi
  have hs := c.sq.hs
  have hd8 := c.sq.mod8
  obtain ⟨k, hk, hT2⟩ := c.sq.hT
  have hTe : TT F % 2 = 0 := by
    rw [hT2, show k = (k - 1) + 1 by omega, pow_succ]; omega
  set r := s / ww F e with hr
  have f1 := Int.floor_le r
  have f2 := Int.lt_floor_add_one r
  have g1 : TT F ≤ ⌊r⌋ := Int.le_floor.2 hlo
  have g2 : ⌊r⌋ < 2 * TT F - 1 := by
    have : (⌊r⌋ : ℝ) < ((2 * TT F - 1 : ℤ) : ℝ) := by push_cast; linarith
    exact_mod_cast this
  rcases Int.even_or_odd ⌊r⌋ with hp | hp
  · have := hp
    obtain ⟨j, hj⟩ := this
    refine ⟨⌊r⌋, hp, g1, by omega, ?_⟩
    rw [abs_of_nonneg (by linarith)]; linarith
  · have := hp
    obtain ⟨j, hj⟩ := this
    refine ⟨⌊r⌋ + 1, hp.add_one, by omega, by omega, ?_⟩
    have hne : (⌊r⌋ : ℝ) ≠ r := by
      intro heq
      rw [← heq] at hs
      have : ⌊r⌋ ^ 2 = X := by exact_mod_cast hs
      rw [hj] at this
      have h3 : X = 4 * (j ^ 2 + j) + 1 := by rw [← this]; ring
      omega
    have hlt := lt_of_le_of_ne f1 hne
    push_cast
    rw [abs_lt]; constructor <;> linarith

/-- the exact residual -/
theorem resid (c : Ctx F x s e X) {S : Val} {K : ℤ} (hS : Fin' F S) (hSv : rv S = K * ww F e) (hb : |X - K ^ 2| ≤ 4 * TT F) (h4 : 4 ∣ X - K ^ 2) :
    Fin' F (fmsn F S S x) ∧ rv (fmsn F S S x) = (X - (K : ℝ) ^ 2) * ww F e ^ 2 := by
  have B := c.big
  have he := B.he2
  obtain ⟨k, hk⟩ := h4
  have hk1 : |k| ≤ 2 ^ (F.f + 1) := by
    rw [hk, abs_mul] at hb
    unfold TT at hb
    norm_num at hb
    linarith
  have hww : ww F e ^ 2 = (2 : ℝ) ^ (2 * e - 2 * F.f - 2) := by
    unfold ww; rw [sq, ← r2add]; congr 1; ring
  obtain ⟨n1, n2⟩ := rv_neg hS
  have harg : rv (fneg S) * rv S + rv x = (X - (K : ℝ) ^ 2) * ww F e ^ 2 := by rw [n2, hSv, c.hX]; ring
  have e1 : (X - (K : ℝ) ^ 2) * ww F e ^ 2 = ((k * (2 : ℚ) ^ (2 * e - 2 * F.f - 2 + 2) : ℚ) : ℝ) := by
    rw [show (X : ℝ) - (K : ℝ) ^ 2 = ((X - K ^ 2 : ℤ) : ℝ) by push_cast; ring, hk, hww]; push_cast
    rw [r2add]; norm_num; ring
  obtain ⟨f1, v1⟩ := ffma_fin he n1 hS c.hx (by
    rw [harg, e1]; push_cast
    rw [abs_mul, abs_of_pos (r2 _)]
    have : |(k : ℝ)| ≤ (2 : ℝ) ^ ((F.f : ℤ) + 1) := by
      have h1 : ((|k| : ℤ) : ℝ) ≤ ((2 ^ (F.f + 1) : ℤ) : ℝ) := by exact_mod_cast hk1
      rw [Int.cast_abs] at h1
      refine le_trans h1 (le_of_eq ?_)
      push_cast
      rw [show ((F.f : ℤ) + 1) = ((F.f + 1 : ℕ) : ℤ) by push_cast; ring, zpow_natCast]
    refine le_trans (mul_le_mul_of_nonneg_right this (r2 _).le) ?_
    rw [← r2add]; exact r2le (by have := c.hi; have := c.hf; omega))
  refine ⟨f1, ?_⟩
  show rv (ffma F (fneg S) S x) = _
  rw [v1, harg, e1, ru_exact (unb_of hk1 (by have := c.lo; omega))]

theorem even_dvd (c : Ctx F x s e X) {K : ℤ} (hK : Even K) : 4 ∣ X - K ^ 2 := by
  have := c.sq.mod8
  obtain ⟨j, rfl⟩ := hK
  have : (j + j) ^ 2 = 4 * j ^ 2 := by ring
  omega

theorem near_resid (c : Ctx F x s e X) {K : ℤ} (k1 : TT F ≤ K) (k2 : K + 2 ≤ 2 * TT F) (h : |s / ww F e - K| < 1) : |X - K ^ 2| ≤ 4 * TT F := by
  have hlo := c.sq.s_lo
  have hhi := c.sq.s_hi
  have hs := c.sq.hs
  have hT := c.sq.bigR
  set r := s / ww F e with hr
  have k1R : (TT F : ℝ) ≤ K := by exact_mod_cast k1
  have k2R : (K : ℝ) + 2 ≤ 2 * TT F := by exact_mod_cast k2
  have h1 : |(X : ℝ) - (K : ℝ) ^ 2| ≤ 4 * TT F := by
    rw [← hs, show r ^ 2 - (K : ℝ) ^ 2 = (r - K) * (r + K) by ring]
    refine le_trans (am h.le (B := 4 * TT F) ?_) (by linarith)
    rw [abs_of_pos (by linarith)]; linarith
  have h2 : ((|X - K ^ 2| : ℤ) : ℝ) ≤ ((4 * TT F : ℤ) : ℝ) := by push_cast; exact h1
  exact_mod_cast h2

theorem k_le_emax (c : Ctx F x s e X) {z : ℝ} (h0 : 0 ≤ z) (h : z ≤ 4 * TT F) : |z * ww F e| ≤ (2 : ℝ) ^ F.emax := by
  have hw := ww_pos F e
  rw [abs_of_nonneg (mul_nonneg h0 hw.le)]
  refine le_trans (mul_le_mul_of_nonneg_right h hw.le) ?_
  rw [mul_assoc, TT_ww, show (4 : ℝ) = (2 : ℝ) ^ (2 : ℤ) by norm_num, ← r2add]
  exact r2le (by have := c.e_le; omega)

/-- the correction keeps the rounding of the root -/
theorem step_keep (c : Ctx F x s e X) {S H : Val} {K : ℤ} (hS : Fin' F S) (hSv : rv S = K * ww F e) (hH : Fin' F H) (g : Sq.Hf (TT F) X (s / ww F e) (rv H * ww F e))
    (hK : Even K) (k1 : TT F ≤ K) (k2 : K + 2 ≤ 2 * TT F) (h : |s / ww F e - K| < 1) :
    Fin' F (ffma F (fmsn F S S x) H S) ∧ rv (ffma F (fmsn F S S x) H S) = K * ww F e := by
  have he := c.big.he2
  have hw := ww_pos F e
  have hT := c.sq.bigR
  have k1R : (TT F : ℝ) ≤ K := by exact_mod_cast k1
  have k2R : (K : ℝ) + 2 ≤ 2 * TT F := by exact_mod_cast k2
  obtain ⟨f1, v1⟩ := resid c hS hSv (near_resid c k1 k2 h) (even_dvd c hK)
  set q := (X - (K : ℝ) ^ 2) * (rv H * ww F e) with hq
  have harg : rv (fmsn F S S x) * rv H + rv S = (K + q) * ww F e := by rw [v1, hSv, hq]; ring
  have hpos : K = TT F → 0 ≤ q := by
    intro hKT
    have hX : ((TT F ^ 2 : ℤ) : ℝ) ≤ X := by exact_mod_cast c.sq.lo
    have hH0 : 0 < rv H * ww F e := by
      have := (abs_le.1 g.e1).1
      have h3 : 1.501 / (TT F : ℝ) < 1 := by rw [div_lt_one (by linarith)]; linarith
      have h4 : 0 < 2 * (s / ww F e) * (rv H * ww F e) := by linarith
      exact pos_of_mul_pos_right h4 (by have := c.sq.s_lo; linarith)
    rw [hq, hKT]; push_cast at hX
    exact mul_nonneg (by linarith) hH0.le
  rcases c.sq.keep g hK h with hk | ⟨hk1, hk2, hk3⟩
  · obtain ⟨a1, a2⟩ := abs_lt.1 hk
    obtain ⟨f2, v2⟩ := ffma_fin he f1 hH hS (by rw [harg]; exact k_le_emax c (by linarith) (by linarith))
    refine ⟨f2, ?_⟩
    rw [v2, harg]
    refine rn_unit c hK k1 k2 (by rw [add_sub_cancel_left]; exact hk) ?_
    by_cases hKT : K = TT F
    · have := hpos hKT; linarith
    · have : TT F + 1 ≤ K := by omega
      have : (TT F : ℝ) + 1 ≤ K := by exact_mod_cast this
      linarith
  · rw [← hq] at hk2 hk3
    obtain ⟨f2, v2⟩ := ffma_fin he f1 hH hS (by rw [harg]; exact k_le_emax c (by linarith) (by linarith))
    refine ⟨f2, ?_⟩
    rw [v2, harg]
    rcases lt_or_eq_of_le hk3 with h1 | h1
    · exact rn_unit c hK k1 k2 (by rw [add_sub_cancel_left, abs_of_nonneg hk2]; exact h1) (by linarith)
    · rw [h1, hk1]; exact rn_tie c

/-- the correction of a root rounded down once too much -/
theorem step_move (c : Ctx F x s e X) {S H : Val} {K : ℤ} (hS : Fin' F S) (hSv : rv S = K * ww F e) (hH : Fin' F H) (g : Sq.Hf (TT F) X (s / ww F e) (rv H * ww F e))
    (hK : Even K) (k1 : TT F ≤ K) (hc : (K + 1 : ℝ) < s / ww F e) (hX : X - (K + 1) ^ 2 ≤ 720) :
    Fin' F (ffma F (fmsn F S S x) H S) ∧ rv (ffma F (fmsn F S S x) H S) = ((K + 2 : ℤ) : ℝ) * ww F e := by
  have he := c.big.he2
  have hw := ww_pos F e
  have hT := c.sq.bigR
  have hs := c.sq.hs
  have k1R : (TT F : ℝ) ≤ K := by exact_mod_cast k1
  obtain ⟨m1, m2, m3, m4, m5⟩ := c.sq.move g hK k1 hc hX
  have m2R : (K : ℝ) + 2 < 2 * TT F := by exact_mod_cast m2
  have hK2 : Even (K + 2) := by obtain ⟨j, rfl⟩ := hK; exact ⟨j + 1, by ring⟩
  have k2 : K + 2 + 2 ≤ 2 * TT F := by
    obtain ⟨j, rfl⟩ := hK; omega
  obtain ⟨f1, v1⟩ := resid c hS hSv (by
    rw [abs_of_nonneg]; exact m1
    have : (0 : ℝ) ≤ ((X - K ^ 2 : ℤ) : ℝ) := by push_cast; rw [← hs]; nlinarith
    exact_mod_cast this) (even_dvd c hK)
  have harg : rv (fmsn F S S x) * rv H + rv S = (K + (X - (K : ℝ) ^ 2) * (rv H * ww F e)) * ww F e := by rw [v1, hSv]; ring
  obtain ⟨f2, v2⟩ := ffma_fin he f1 hH hS (by rw [harg]; exact k_le_emax c (by linarith) (by linarith))
  refine ⟨f2, ?_⟩
  rw [v2, harg]
  refine rn_unit c hK2 (by omega) k2 ?_ (by linarith)
  push_cast
  rw [abs_lt]; constructor <;> linarith

/-- the first correction gives the rounding of the root, or its predecessor if the root is just above the middle -/
theorem step_first (c : Ctx F x s e X) {S d H : Val} {A : ℝ} {Si : ℤ} (hS : Fin' F S) (hSv : rv S = Si * ww F e) (hd : Fin' F d) (hH : Fin' F H) (hHv : rv H = A / 2)
    (g : Sq.Sf (TT F) X (s / ww F e) (A * ww F e) Si (rv d / ww F e ^ 2)) {K : ℤ} (hK : Even K) (k1 : TT F ≤ K) (k2 : K + 2 ≤ 2 * TT F) (h : |s / ww F e - K| < 1) :
    Fin' F (ffma F d H S) ∧ (rv (ffma F d H S) = K * ww F e ∨
      (rv (ffma F d H S) = ((K - 2 : ℤ) : ℝ) * ww F e ∧ TT F ≤ K - 2 ∧ (((K - 2 : ℤ) : ℝ) + 1) < s / ww F e ∧ X - (K - 2 + 1) ^ 2 ≤ 720)) := by
  have he := c.big.he2
  have hw := ww_pos F e
  have hT := c.sq.bigR
  have hT0 : (0 : ℝ) < TT F := by linarith
  have hs := c.sq.hs
  have hlo := c.sq.s_lo
  have hhi := c.sq.s_hi
  have k1R : (TT F : ℝ) ≤ K := by exact_mod_cast k1
  have k2R : (K : ℝ) + 2 ≤ 2 * TT F := by exact_mod_cast k2
  have hcl := c.sq.first_close g
  have hcl' := c.sq.first_close' g
  have h360 : 360 / (TT F : ℝ) < 1 / 2 := by rw [div_lt_iff₀ hT0]; linarith
  have hKo : Odd (K + 1) := hK.add_one
  have hno := c.sq.no_over g hKo (by omega) (by omega) (by push_cast; have := (abs_lt.1 h).2; linarith)
  set z := Si + rv d / ww F e ^ 2 * (A * ww F e / 2) with hz
  set r := s / ww F e with hr
  have harg : rv d * rv H + rv S = z * ww F e := by rw [hSv, hHv, hz]; field_simp; ring
  obtain ⟨c1, c2⟩ := abs_le.1 hcl
  obtain ⟨c3, c4⟩ := abs_lt.1 h
  push_cast at hno
  obtain ⟨f1, v1⟩ := ffma_fin he hd hH hS (by rw [harg]; exact k_le_emax c (by linarith) (by linarith))
  refine ⟨f1, ?_⟩
  rw [v1, harg]
  rcases lt_or_ge (K - 1 : ℝ) z with h1 | h1
  · left
    exact rn_unit c hK k1 k2 (by rw [abs_lt]; constructor <;> linarith) (by linarith)
  · have hKT : TT F + 2 ≤ K := by
      by_contra hcon
      have : K = TT F := by
        obtain ⟨j, rfl⟩ := hK
        obtain ⟨k, hk, hT2⟩ := c.sq.hT
        have hTe : TT F % 2 = 0 := by
          rw [hT2, show k = (k - 1) + 1 by omega, pow_succ]; omega
        omega
      rw [this] at h1
      linarith
    have hKTR : (TT F : ℝ) + 2 ≤ K := by exact_mod_cast hKT
    have hX : X - (K - 2 + 1) ^ 2 ≤ 720 := by
      have h2 : ((X - (K - 2 + 1) ^ 2 : ℤ) : ℝ) ≤ 720 := by
        push_cast
        rw [← hs, show r ^ 2 - ((K : ℝ) - 2 + 1) ^ 2 = (r - (K - 1)) * (r + (K - 1)) by ring]
        have h3 : |z - r| = r - z := by rw [abs_of_nonpos (by linarith)]; ring
        rw [h3] at hcl'
        have h4 : (r - (K - 1)) * (r + (K - 1)) ≤ (r - z) * (2 * r) := mul_le_mul (by linarith) (by linarith) (by linarith) (by linarith)
        linarith
      exact_mod_cast h2
    have h5 : ((K - 2 : ℤ) : ℝ) + 1 < r := by push_cast; linarith
    obtain ⟨n, hn, hd⟩ := rn_grid c (z := z) (by linarith) (by linarith)
    obtain ⟨d1, d2⟩ := abs_le.1 hd
    obtain ⟨j, hj⟩ := hK
    have a1 : ((2 * n : ℤ) : ℝ) ≤ ((K : ℤ) : ℝ) := by push_cast at *; linarith
    have a2 : ((K - 3 : ℤ) : ℝ) < ((2 * n : ℤ) : ℝ) := by push_cast at *; linarith
    have a1' : 2 * n ≤ K := by exact_mod_cast a1
    have a2' : K - 3 < 2 * n := by exact_mod_cast a2
    rcases (by omega : 2 * n = K ∨ 2 * n = K - 2) with h6 | h6
    · left; rw [hn, h6]
    · right; rw [hn, h6]; exact ⟨rfl, by omega, h5, hX⟩

/-- the correction gives the rounding of the root -/
theorem correct_val (c : Ctx F x s e X) {a h : Val} (ha : Fin' F a) (hp : |rv a * s - 1| ≤ 6 * uu F) (hh : Fin' F h) (hhv : rv h = rv x / 2) :
    Fin' F (sqrtCorrect F x h a) ∧ rv (sqrtCorrect F x h a) = roundUnb F .RN s := by
  obtain ⟨Si, fS, vS, fd, gS⟩ := sf_facts c ha hp
  obtain ⟨fH, vH, fH1, gH⟩ := hf_facts c ha hp hh hhv
  obtain ⟨K, hK, k1, k2, hc⟩ := root_near c
  have hw := ww_pos F e
  have hT := c.sq.bigR
  have hRN : (roundUnb F .RN s : ℝ) = K * ww F e := by
    have := rn_unit c hK k1 k2 hc (by have := c.sq.s_lo; linarith)
    rwa [div_mul_cancel₀ _ hw.ne'] at this
  rw [hRN]
  unfold sqrtCorrect
  dsimp only
  obtain ⟨f1, v1⟩ := step_first c fS vS fd fH vH gS hK k1 k2 hc
  set S1 := ffma F (fmsn F (fmul F x a) (fmul F x a) x) (fmul F (.num (1 / 2)) a) (fmul F x a) with hS1
  set H1 := ffma F (fmsn F (fmul F a h) a (.num (1 / 2))) (fmul F (.num (1 / 2)) a) (fmul F (.num (1 / 2)) a) with hH1
  have key : Fin' F (ffma F (fmsn F S1 S1 x) H1 S1) ∧ rv (ffma F (fmsn F S1 S1 x) H1 S1) = K * ww F e := by
    rcases v1 with v1 | ⟨v1, v2, v3, v4⟩
    · exact step_keep c f1 v1 fH1 gH hK k1 k2 hc
    · have := step_move c f1 v1 fH1 gH (by obtain ⟨j, rfl⟩ := hK; exact ⟨j - 1, by ring⟩) v2 v3 v4
      rwa [sub_add_cancel] at this
  exact step_keep c key.1 key.2 fH1 gH hK k1 k2 hc

end

end Verif.Elem
