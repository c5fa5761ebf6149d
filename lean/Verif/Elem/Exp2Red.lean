import Verif.Elem.Exp2

/-! # The argument reduction of the generated `exp2` -/

namespace Verif.Elem

open Verif.Float (Fmt Val)
open Verif.Check

/-- the formats: binary16, binary32 and binary64 are among them -/
structure Wide (F : Fmt) : Prop where
  f : 10 ≤ F.f
  e : F.e ≤ F.f
  m : (F.f : ℤ) + 1 ≤ F.emax

theorem Wide.e2 {F : Fmt} (h : Wide F) : 2 ≤ F.e := by
  obtain ⟨h1, _, h3⟩ := h
  by_contra hc
  have : F.e = 0 ∨ F.e = 1 := by omega
  unfold Fmt.emax at h3
  rcases this with e | e <;> rw [e] at h3 <;> norm_num at h3 <;> omega

theorem Wide.emax_le {F : Fmt} (h : Wide F) : F.emax < 2 ^ (F.f - 1) := by
  have h2 := h.e
  have h3 := h.e2
  unfold Fmt.emax
  have : (2 : ℤ) ^ (F.e - 1) ≤ 2 ^ (F.f - 1) := pow_le_pow_right₀ (by norm_num) (by omega)
  omega

theorem Wide.int {F : Fmt} (h : Wide F) {n : ℤ} (h1 : F.emin - F.f ≤ n) (h2 : n ≤ F.emax) :
    |n| ≤ 2 ^ (F.f + 1) ∧ |n| ≤ 2 * F.emax ∧ |n| < 2 ^ (F.e + F.f) := by
  have a := h.emax_le
  have b := h.m
  have e : F.emin = 1 - F.emax := rfl
  have c : |n| ≤ 2 * F.emax := by rw [abs_le]; constructor <;> omega
  have d : (2 : ℤ) ^ (F.f - 1) * 4 = 2 ^ (F.f + 1) := by
    rw [show (4 : ℤ) = 2 ^ 2 by norm_num, ← pow_add]; congr 1; have := h.f; omega
  have g : (2 : ℤ) ^ (F.f + 1) ≤ 2 ^ (F.e + F.f) := pow_le_pow_right₀ (by norm_num) (by have := h.e2; omega)
  have := emax_pos h.e2
  refine ⟨by omega, c, by omega⟩

theorem Wide.small {F : Fmt} (h : Wide F) {n : ℤ} (h1 : 0 ≤ n) (h2 : n ≤ 8) :
    |n| ≤ 2 ^ (F.f + 1) ∧ |n| ≤ 2 * F.emax ∧ |n| < 2 ^ (F.e + F.f) := by
  have e : F.emin = 1 - F.emax := rfl
  have b := h.m
  have := h.f
  exact h.int (by omega) (by omega)

theorem unb_mul8 {F : Fmt} {w : ℚ} (h : Unbounded F w) : Unbounded F (w * 8) := by
  obtain ⟨m, E, hm, hE, rfl⟩ := h
  refine ⟨m, E + 3, hm, by omega, ?_⟩
  rw [show E + 3 - (F.f : ℤ) = (E - F.f) + 3 by ring, zpow_add₀ (by norm_num)]
  norm_num
  ring

theorem exp2_reduce {F : Fmt} (hF : Wide F) (P : Val → Val) (cv : Val → ℤ) (scale : ℤ → Val → Val) {a : Val} (ha : Fin' F a)
    (h1 : (F.emin : ℚ) - F.f ≤ numOf a) (h2 : numOf a < F.emax + 1) :
    ∃ (w : ℚ) (i : ℤ) (rl : Val), w = roundUnb F .RN ((numOf a - ⌊numOf a⌋ : ℚ) : ℝ) ∧ 0 ≤ w ∧ w ≤ 1 ∧ i = toInt .RN ((w * 8 : ℚ) : ℝ) ∧ 0 ≤ i ∧ i ≤ 8 ∧
      Fin' F rl ∧ numOf rl = w - i / 8 ∧ |w - i / 8| ≤ 1 / 16 ∧
      exp2Core F P cv scale a = some (fadd F (fmul F (scale ⌊numOf a⌋ (cst F ((2 : ℝ) ^ ((i : ℝ) / 8)))) (P rl)) (scale ⌊numOf a⌋ (cst F ((2 : ℝ) ^ ((i : ℝ) / 8))))) := by
  have he := hF.e2
  have hem : F.emin = 1 - F.emax := rfl
  have hm := hF.m
  have hf := hF.f
  set n := ⌊numOf a⌋ with hn
  have hn1 : F.emin - F.f ≤ n := Int.le_floor.2 (by push_cast; exact h1)
  have hn2 : n ≤ F.emax := by
    have : n < F.emax + 1 := Int.floor_lt.2 (by push_cast; exact h2)
    omega
  obtain ⟨i1, i2, i3⟩ := hF.int hn1 hn2
  obtain ⟨f1, f2⟩ := ffloor_fin he ha i1 i2
  rw [← hn] at f2
  have x0 : 0 ≤ numOf a - n := sub_nonneg.2 (Int.floor_le _)
  have x1 : numOf a - n < 1 := by have := Int.lt_floor_add_one (numOf a); rw [← hn] at this; linarith
  set w := roundUnb F .RN ((numOf a - n : ℚ) : ℝ) with hw
  have hwu : Unbounded F w := roundUnb_unb F _ _
  have w0 : 0 ≤ w := by
    have := ru_between_ge (F := F) (x := ((numOf a - n : ℚ) : ℝ)) (unb_zero F) (by exact_mod_cast x0)
    exact_mod_cast this
  have w1 : w ≤ 1 := by
    have u1 : Unbounded F 1 := by simpa using unb_pow (F := F) (k := 0) (by omega)
    have := ru_between_le (F := F) (x := ((numOf a - n : ℚ) : ℝ)) u1 (by exact_mod_cast x1.le)
    exact_mod_cast this
  have small : ∀ v : ℚ, |v| ≤ 8 → |v| ≤ Float.omega F := by
    intro v hv
    refine abs_le_omega_of he (le_trans hv ?_)
    have : (2 : ℚ) ^ (3 : ℤ) ≤ (2 : ℚ) ^ F.emax := Float.zle (by omega)
    norm_num at this
    exact this
  obtain ⟨r1, r2⟩ := fsub_fin he ha f1 (by rw [f2, ← hw]; exact small _ (by rw [abs_of_nonneg w0]; linarith))
  rw [f2, ← hw] at r2
  have u8 : Unbounded F 8 := by have := unb_pow (F := F) (k := 3) (by omega); norm_num at this; exact this
  have u18 : Unbounded F (1 / 8) := by have := unb_pow (F := F) (k := -3) (by omega); norm_num at this ⊢; exact this
  have n8 : Fin' F (.num 8) := fin_num he u8 (small _ (by norm_num)) (by norm_num)
  have n18 : Fin' F (.num (1 / 8)) := fin_num he u18 (small _ (by norm_num)) (by norm_num)
  have e8 : roundUnb F .RN ((w * 8 : ℚ) : ℝ) = w * 8 := ru_exact (unb_mul8 hwu)
  obtain ⟨p1, p2⟩ := fmul_fin he r1 n8 (by
    rw [r2, show numOf (.num 8) = 8 from rfl, e8]; exact small _ (by rw [abs_of_nonneg (by linarith)]; linarith))
  rw [r2, show numOf (.num 8) = 8 from rfl, e8] at p2
  set t := fmul F (fsub F a (ffloor a)) (.num 8) with ht
  set i := toInt .RN ((w * 8 : ℚ) : ℝ) with hi
  have hti : nearestZ t = i := by unfold nearestZ; rw [p2]
  have near : |w * 8 - i| ≤ 1 / 2 := by
    have := toInt_near ((w * 8 : ℚ) : ℝ)
    rw [← hi] at this
    have e : |((w * 8 : ℚ) : ℝ) - (i : ℝ)| = ((|w * 8 - i| : ℚ) : ℝ) := by push_cast; rfl
    rw [e] at this
    have h12 : (1 / 2 : ℝ) = ((1 / 2 : ℚ) : ℝ) := by push_cast; rfl
    rw [h12] at this
    exact_mod_cast this
  obtain ⟨near1, near2⟩ := abs_le.1 near
  have i0 : 0 ≤ i := by
    have : (-1 : ℚ) < i := by linarith
    have : (-1 : ℤ) < i := by exact_mod_cast this
    omega
  have i8 : i ≤ 8 := by
    have : (i : ℚ) < 9 := by linarith
    have : i < 9 := by exact_mod_cast this
    omega
  obtain ⟨j1, j2, j3⟩ := hF.small i0 i8
  obtain ⟨q1, q2⟩ := fnearest_fin he p1 (by rw [hti]; exact j1) (by rw [hti]; exact j2)
  rw [hti] at q2
  have iQ : (0 : ℚ) ≤ i := by exact_mod_cast i0
  have iQ8 : (i : ℚ) ≤ 8 := by exact_mod_cast i8
  have ui8 : Unbounded F ((i : ℚ) * (1 / 8)) := by
    have := unb_of (F := F) (n := i) (q := -3) j1 (by omega)
    norm_num at this ⊢
    exact this
  obtain ⟨s1, s2⟩ := fmul_fin he q1 n18 (by
    rw [q2, show numOf (.num (1 / 8)) = 1 / 8 from rfl, ru_exact ui8]
    exact small _ (by rw [abs_of_nonneg (by positivity)]; linarith))
  rw [q2, show numOf (.num (1 / 8)) = 1 / 8 from rfl, ru_exact ui8] at s2
  have hlo : |w - i / 8| ≤ 1 / 16 := by rw [abs_le]; constructor <;> linarith
  have ulo : Unbounded F (w - i * (1 / 8)) := by
    rcases lt_or_ge w (1 / 16) with hc | hc
    · have : (i : ℚ) < 1 := by linarith
      have : i < 1 := by exact_mod_cast this
      have : i = 0 := by omega
      rw [this]; simpa using hwu
    · obtain ⟨k, hk⟩ := unb_grid hwu (E := -4) (by rw [abs_of_nonneg w0]; norm_num; norm_num at hc; exact hc)
      have e1 : (2 : ℚ) ^ (-4 - (F.f : ℤ)) * 2 ^ (F.f + 1) = 1 / 8 := by
        rw [← zpow_natCast, ← zpow_add₀ (by norm_num)]
        rw [show -4 - (F.f : ℤ) + ((F.f + 1 : ℕ) : ℤ) = -3 by push_cast; ring]; norm_num
      have e2 : w - i * (1 / 8) = ((k - i * 2 ^ (F.f + 1) : ℤ) : ℚ) * (2 : ℚ) ^ (-4 - (F.f : ℤ)) := by
        rw [← e1, hk]; push_cast; ring
      rw [e2]
      apply unb_of _ (by omega)
      have h3 : |w - i * (1 / 8)| ≤ 1 / 16 := by rw [abs_le]; constructor <;> linarith
      rw [e2, abs_mul, abs_of_pos (Float.zp _)] at h3
      have e3 : (1 / 16 : ℚ) = 2 ^ F.f * (2 : ℚ) ^ (-4 - (F.f : ℤ)) := by
        rw [← zpow_natCast, ← zpow_add₀ (by norm_num)]
        rw [show (F.f : ℤ) + (-4 - (F.f : ℤ)) = -4 by ring]; norm_num
      rw [e3] at h3
      have h4 := le_of_mul_le_mul_right h3 (Float.zp _)
      have h5 : |k - i * 2 ^ (F.f + 1)| ≤ 2 ^ F.f := by exact_mod_cast h4
      exact le_trans h5 (pow_le_pow_right₀ (by norm_num) (by omega))
  obtain ⟨v1, v2⟩ := fsub_fin he r1 s1 (by
    rw [r2, s2, ru_exact ulo]
    exact small _ (by rw [abs_le]; constructor <;> linarith))
  rw [r2, s2, ru_exact ulo] at v2
  refine ⟨w, i, _, rfl, w0, w1, rfl, i0, i8, v1, by rw [v2]; ring, hlo, ?_⟩
  have cidx : exp2Idx F cv (fnearest t) = i := by
    unfold exp2Idx
    rw [convC_fin q1 q2 j3]; omega
  have cfl : convC F cv (ffloor a) = n := convC_fin f1 f2 i3
  unfold exp2Core
  simp only [← ht]
  rw [cidx, cfl]
  unfold exp2Tab
  rw [if_pos ⟨i0, i8⟩]
  rfl

end Verif.Elem
