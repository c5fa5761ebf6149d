import Verif.Elem.SqrtH

/-! # The operations of the square root in units of half its last place -/

namespace Verif.Elem

open Verif.Float (Fmt Val)
open Verif.Check

section
variable {F : Fmt} {x : Val} {s : ℝ} {e X : ℤ}

theorem Ctx.emin_le (c : Ctx F x s e X) : F.emin ≤ e - 1 := by
  have := c.lo; have := c.hm; have := c.hf; unfold Fmt.emin at *; omega

theorem Ctx.e_le (c : Ctx F x s e X) : e + 3 ≤ F.emax := by
  have := c.hi; have := c.hm; have := c.hf; omega

theorem Ctx.e_neg (c : Ctx F x s e X) : F.emin ≤ -e - 3 ∧ -e + 3 ≤ F.emax := by
  have := c.hi; have := c.lo; have := c.hm; have := c.hf; unfold Fmt.emin at *; omega

theorem Ctx.u_T (_c : Ctx F x s e X) : uu F = 1 / (TT F : ℝ) := uu_TT F

theorem Ctx.X_div (c : Ctx F x s e X) : (X : ℝ) = rv x / ww F e ^ 2 := by
  have := ww_pos F e
  rw [c.hX]; field_simp

theorem two_e (F : Fmt) (e : ℤ) : (2 : ℝ) ^ (e + 1) = 2 * TT F * ww F e := by
  rw [mul_assoc, TT_ww, r2add, zpow_one]; ring

/-- the first approximation of the root and its residual -/
theorem sf_facts (c : Ctx F x s e X) {a : Val} (ha : Fin' F a) (hp : |rv a * s - 1| ≤ 6 * uu F) :
    ∃ S : ℤ, Fin' F (fmul F x a) ∧ rv (fmul F x a) = S * ww F e ∧ Fin' F (fmsn F (fmul F x a) (fmul F x a) x) ∧
      Sq.Sf (TT F) X (s / ww F e) (rv a * ww F e) S (rv (fmsn F (fmul F x a) (fmul F x a) x) / ww F e ^ 2) := by
  have B := c.big
  have he := B.he2
  have hu0 := uu_pos F
  have hT := c.sq.bigR
  have hT0 : (0 : ℝ) < TT F := by linarith
  have hw := ww_pos F e
  have hTw := TT_ww F e
  have huT := c.u_T
  have hs0 := c.s0
  have h2e := r2 e
  have h2e1 := two_e F e
  have hp0 := r2 (e - 1)
  have he1 : (2 : ℝ) ^ e = 2 * (2 : ℝ) ^ (e - 1) := by
    rw [show e = 1 + (e - 1) by ring, r2add, zpow_one]; congr 2; ring
  have hu1 : uu F ≤ 1 / 2 ^ 21 := by rw [huT]; exact one_div_le_one_div_of_le (by norm_num) hT
  norm_num at hu1
  set A := rv a with hA
  set w := ww F e with hw_
  set p := A * s - 1 with hp_
  obtain ⟨p1, p2⟩ := abs_le.1 hp
  have hxA : rv x * A = s * (1 + p) := by rw [← c.hs, hp_]; ring
  have hlo : (2 : ℝ) ^ (e - 1) ≤ rv x * A := by
    rw [hxA]
    have h1 := c.e1
    have : s * (1 / 2) ≤ s * (1 + p) := mul_le_mul_of_nonneg_left (by linarith) hs0.le
    linarith
  have hhi : rv x * A ≤ (2 : ℝ) ^ (e + 2) := by
    rw [hxA, show e + 2 = 1 + (e + 1) by ring, r2add, zpow_one]
    have h1 := c.e2
    have : s * (1 + p) ≤ s * 2 := mul_le_mul_of_nonneg_left (by linarith) hs0.le
    linarith
  have hpos : 0 < rv x * A := by linarith
  obtain ⟨f1, v1⟩ := fmul_val he c.hx ha (by
    rw [← hA, abs_of_pos hpos]; exact le_trans hhi (r2le (by have := c.e_le; omega)))
  rw [← hA] at v1
  set Sv := fmul F x a with hSv
  have hSlo : (2 : ℝ) ^ (e - 1) ≤ rv Sv := by
    rw [v1]
    have := ru_between_ge (F := F) (x := rv x * A) (unb_pow (k := e - 1) (by have := c.emin_le; omega)) (by rw [← r2cast]; exact hlo)
    rwa [← r2cast] at this
  have hSu := (fin_unb he f1).1
  have grid : ∀ E : ℤ, (2 : ℝ) ^ E ≤ rv Sv → ∃ n : ℤ, rv Sv = n * (2 : ℝ) ^ (E - F.f) := by
    intro E hE
    obtain ⟨n, hn⟩ := unb_grid hSu (E := E) (by
      unfold rv at hE; rw [r2cast] at hE
      exact le_trans (by exact_mod_cast hE) (le_abs_self _))
    exact ⟨n, by unfold rv; rw [hn]; push_cast; rfl⟩
  obtain ⟨S, hS⟩ := grid _ hSlo
  have hS' : rv Sv = S * w := by rw [hS, hw_]; unfold ww; congr 2; ring
  -- errors
  have r1 : rv x * A < 2 * TT F * w → |rv Sv - rv x * A| ≤ w := by
    intro h
    rw [← h2e1] at h
    have := ru_err_le (F := F) (x := rv x * A) (k := e) (by have := c.emin_le; omega) (by rw [abs_of_pos hpos]; exact h.le)
    rw [v1]; exact this
  have r2' : |rv Sv - rv x * A| ≤ 2 * w := by
    have := ru_err_le (F := F) (x := rv x * A) (k := e + 1) (by have := c.emin_le; omega) (by
      rw [abs_of_pos hpos, show e + 1 + 1 = e + 2 by ring]; exact hhi)
    rw [v1]
    refine le_trans this (le_of_eq ?_)
    rw [hw_]; unfold ww
    rw [show e + 1 - (F.f : ℤ) - 1 = 1 + (e - F.f - 1) by ring, r2add, zpow_one]
  have hXA : (X : ℝ) * (A * w) = rv x * A / w := by rw [c.X_div, ← hw_]; field_simp
  -- residual
  obtain ⟨n1, n2⟩ := rv_neg f1
  have hww : w ^ 2 = (2 : ℝ) ^ (2 * e - 2 * F.f - 2) := by
    rw [hw_]; unfold ww; rw [sq, ← r2add]; congr 1; ring
  have harg : rv (fneg Sv) * rv Sv + rv x = ((X - S ^ 2 : ℤ) : ℝ) * (2 : ℝ) ^ (2 * e - 2 * F.f - 2) := by
    rw [n2, hS', c.hX, ← hww]; push_cast; ring
  have hgq : F.emin - F.f ≤ 2 * e - 2 * F.f - 2 := by have := c.lo; omega
  have hargb : |rv (fneg Sv) * rv Sv + rv x| ≤ (2 : ℝ) ^ F.emax := by
    have e1 : rv (fneg Sv) * rv Sv + rv x = (s - rv Sv) * (s + rv Sv) := by rw [n2, ← c.hs]; ring
    have h1 : |s - rv Sv| ≤ 14 * w := by
      have : s - rv Sv = -(s * p) + -(rv Sv - rv x * A) := by rw [hxA]; ring
      rw [this]
      refine le_trans (aa (A := 12 * w) (B := 2 * w) ((abs_neg _).trans_le ?_) ((abs_neg _).trans_le r2')) (by linarith)
      refine le_trans (am (le_of_eq (abs_of_pos hs0)) hp) ?_
      have h3 : s ≤ 2 * TT F * w := by rw [← h2e1]; exact c.e2.le
      rw [huT]
      calc s * (6 * (1 / (TT F : ℝ))) ≤ (2 * TT F * w) * (6 * (1 / (TT F : ℝ))) := mul_le_mul_of_nonneg_right h3 (by positivity)
        _ = 12 * w := by field_simp; ring
    have hwl : 14 * w ≤ (2 : ℝ) ^ e / 100 := by
      rw [← hTw]; nlinarith
    have h2 : |s + rv Sv| ≤ 6 * (2 : ℝ) ^ e := by
      have h3 : s < 2 * (2 : ℝ) ^ e := by have := c.e2; rw [r2add, zpow_one] at this; linarith
      obtain ⟨b1, b2⟩ := abs_le.1 h1
      rw [abs_of_pos (by linarith)]; linarith
    rw [e1]
    refine le_trans (am (le_trans h1 hwl) h2) ?_
    have h4 : (2 : ℝ) ^ e * (2 : ℝ) ^ e ≤ (2 : ℝ) ^ F.emax := by rw [← r2add]; exact r2le (by have := c.hi; omega)
    nlinarith
  obtain ⟨f2, v2⟩ := ffma_fin he n1 f1 c.hx hargb
  have hdeq : fmsn F Sv Sv x = ffma F (fneg Sv) Sv x := rfl
  refine ⟨S, f1, hS', f2, ?_⟩
  rw [hdeq, v2, harg, ← hww]
  have hw2 : (0 : ℝ) < w ^ 2 := by positivity
  constructor
  · rw [show A * w * (s / w) - 1 = p by rw [hp_]; field_simp]
    refine le_trans hp (le_of_eq ?_)
    rw [huT]; ring
  · intro h
    rw [hXA, div_lt_iff₀ hw] at h
    have := r1 h
    rw [hXA, show (S : ℝ) - rv x * A / w = (rv Sv - rv x * A) / w by rw [hS']; field_simp, abs_div, abs_of_pos hw, div_le_one hw]
    exact this
  · rw [hXA, show (S : ℝ) - rv x * A / w = (rv Sv - rv x * A) / w by rw [hS']; field_simp, abs_div, abs_of_pos hw, div_le_iff₀ hw]
    exact r2'
  · have h1 := ru_grid (F := F) (n := X - S ^ 2) hgq
    rw [← hww] at h1
    set g := ((roundUnb F .RN (((X - S ^ 2 : ℤ) : ℝ) * w ^ 2) : ℚ) : ℝ) with hg
    have e1 : g / w ^ 2 - ((X : ℝ) - (S : ℝ) ^ 2) = (g - ((X - S ^ 2 : ℤ) : ℝ) * w ^ 2) / w ^ 2 := by
      push_cast; field_simp
    rw [e1, abs_div, abs_of_pos hw2, div_le_iff₀ hw2]
    refine le_trans h1 (le_of_eq ?_)
    rw [abs_mul, abs_of_pos hw2, huT]; push_cast; field_simp
  · intro h h4
    obtain ⟨k, hk⟩ := h4
    have hk1 : |k| ≤ 2 ^ (F.f + 1) := by
      rw [hk, abs_mul] at h
      unfold TT at h
      norm_num at h
      linarith
    have e1 : ((X - S ^ 2 : ℤ) : ℝ) * w ^ 2 = ((k * (2 : ℚ) ^ (2 * e - 2 * F.f - 2 + 2) : ℚ) : ℝ) := by
      rw [hk, hww]; push_cast
      rw [r2add]; norm_num; ring
    rw [e1, ru_exact (unb_of hk1 (by omega)), ← e1]; push_cast; field_simp
  · intro h
    have h' : (2 : ℝ) ^ e ≤ rv Sv := by
      rw [hS', ← hTw]
      have : (TT F : ℝ) ≤ S := by exact_mod_cast h
      exact mul_le_mul_of_nonneg_right this hw.le
    obtain ⟨k, hk⟩ := grid _ h'
    refine ⟨k, ?_⟩
    have : (S : ℝ) * w = ((k + k : ℤ) : ℝ) * w := by
      rw [← hS', hk, hw_]; unfold ww
      rw [show e - (F.f : ℤ) = 1 + (e - F.f - 1) by ring, r2add, zpow_one, show (1 : ℤ) + (e - F.f - 1) - 1 = e - F.f - 1 by ring]
      push_cast; ring
    have := mul_right_cancel₀ hw.ne' this
    exact_mod_cast this
  · rintro ⟨h1, h2⟩
    refine no_gap (fin_unb he ha).1 (k := -e - 1) ⟨?_, ?_⟩
    · have e1 : (1 : ℝ) / (2 * TT F) = (2 : ℝ) ^ (-e - 1) * w := by
        rw [div_eq_iff (by positivity), mul_assoc, show w * (2 * (TT F : ℝ)) = (2 : ℝ) ^ (e + 1) by rw [h2e1]; ring, ← r2add,
          show -e - 1 + (e + 1) = 0 by ring, zpow_zero]
      rw [e1] at h1
      exact lt_of_mul_lt_mul_right h1 hw.le
    · have e1 : (1 : ℝ) / (2 * TT F) = (2 : ℝ) ^ (-e - 1) * w := by
        rw [div_eq_iff (by positivity), mul_assoc, show w * (2 * (TT F : ℝ)) = (2 : ℝ) ^ (e + 1) by rw [h2e1]; ring, ← r2add,
          show -e - 1 + (e + 1) = 0 by ring, zpow_zero]
      rw [e1] at h2
      rw [huT]
      refine lt_of_mul_lt_mul_right (a := w) ?_ hw.le
      refine lt_of_lt_of_eq h2 ?_
      ring

end

end Verif.Elem
