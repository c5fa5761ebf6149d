import Verif.Rem.FmodModel
import Verif.Rem.Half
import Verif.Elem.SqrtWrong

/-! # One step of the reduction, in rational numbers -/

namespace Verif.Rem

open Verif.Float (Fmt Val)
open Verif.Elem
open Verif.Check

/-- rounding of a rational -/
noncomputable def rr (F : Fmt) (z : ℚ) : ℚ := roundUnb F .RN (z : ℝ)

theorem rr_le {F : Fmt} {z w : ℚ} (hw : Unbounded F w) (h : z ≤ w) : rr F z ≤ w := by
  have := ru_between_le (F := F) (x := (z : ℝ)) hw (by exact_mod_cast h)
  exact_mod_cast this
theorem rr_ge {F : Fmt} {z w : ℚ} (hw : Unbounded F w) (h : w ≤ z) : w ≤ rr F z := by
  have := ru_between_ge (F := F) (x := (z : ℝ)) hw (by exact_mod_cast h)
  exact_mod_cast this
theorem rr_neg (F : Fmt) (z : ℚ) : rr F (-z) = -rr F z := by
  unfold rr; rw [← ru_neg]; push_cast; rfl
theorem rr_unb (F : Fmt) (z : ℚ) : Unbounded F (rr F z) := roundUnb_unb F .RN z
theorem rr_exact {F : Fmt} {w : ℚ} (h : Unbounded F w) : rr F w = w := ru_exact h
theorem rr_err {F : Fmt} {z : ℚ} {E : ℤ} (hE : F.emin ≤ E) (h1 : (2 : ℚ) ^ E ≤ |z|) (h2 : |z| < (2 : ℚ) ^ (E + 1)) : |rr F z - z| ≤ (2 : ℚ) ^ (E - F.f - 1) := by
  have h := ru_error F (z : ℝ)
  have hlog : Int.log 2 |(z : ℝ)| = E := log_eqR (by rw [r2cast, ← Rat.cast_abs]; exact_mod_cast h1) (by rw [r2cast, ← Rat.cast_abs]; exact_mod_cast h2)
  unfold lastPlace at h
  rw [hlog, max_eq_left hE, r2cast] at h
  unfold rr
  exact_mod_cast h

/-- the exponent of the last place of a number -/
def up (F : Fmt) (Y : ℚ) : ℤ := max (Int.log 2 |Y|) F.emin - F.f

theorem up_ge (F : Fmt) (Y : ℚ) : F.emin - F.f ≤ up F Y := by unfold up; have := le_max_right (Int.log 2 |Y|) F.emin; omega

theorem up_grid {F : Fmt} {Y : ℚ} (hY : Unbounded F Y) (h0 : Y ≠ 0) : ∃ n : ℤ, Y = n * (2 : ℚ) ^ up F Y := by
  unfold up
  rcases le_total F.emin (Int.log 2 |Y|) with h | h
  · rw [max_eq_left h]; exact unb_grid hY (Float.pow_log_le (abs_pos.2 h0))
  · rw [max_eq_right h]; exact unb_min_grid hY

theorem up_lt {F : Fmt} {Y : ℚ} : |Y| < (2 : ℚ) ^ (F.f + 1) * (2 : ℚ) ^ up F Y := by
  have h : |Y| < (2 : ℚ) ^ (Int.log 2 |Y| + 1) := Float.lt_pow_log
  refine lt_of_lt_of_le h ?_
  rw [← zpow_natCast, ← Float.zadd]
  apply Float.zle
  unfold up
  have := le_max_left (Int.log 2 |Y|) F.emin
  push_cast; omega

theorem up_mono {F : Fmt} {Y A : ℚ} (h0 : 0 < Y) (h : Y ≤ A) : up F Y ≤ up F A := by
  have : Int.log 2 |Y| ≤ Int.log 2 |A| := by
    rw [abs_of_pos h0, abs_of_pos (by linarith)]; exact Int.log_mono_right h0 h
  unfold up; omega

theorem up_multiple {F : Fmt} {A : ℚ} (hA : Unbounded F A) (hA0 : A ≠ 0) {k : ℤ} (h : k ≤ up F A) : ∃ n : ℤ, A = n * (2 : ℚ) ^ k := by
  obtain ⟨n, hn⟩ := up_grid hA hA0
  obtain ⟨m, hm⟩ := grid_coarse n h
  exact ⟨m, hn.trans hm⟩

/-- a multiple of the last place of `Y`, not above `Y` -/
theorem unb_below {F : Fmt} {Y v : ℚ} {n : ℤ} (hv : v = n * (2 : ℚ) ^ up F Y) (h : |v| ≤ |Y|) : Unbounded F v := by
  rw [hv]
  refine unb_of ?_ (up_ge F Y)
  have h1 := lt_of_le_of_lt h (up_lt (F := F))
  have hp := Float.zp (up F Y)
  rw [hv, abs_mul, abs_of_pos hp] at h1
  have := lt_of_mul_lt_mul_right h1 hp.le
  have h2 : |n| < 2 ^ (F.f + 1) := by exact_mod_cast this
  exact h2.le

/-- a quotient below one is not rounded to one -/
theorem lt_one {F : Fmt} (he : 3 ≤ F.e) {A Y : ℚ} (hA : Unbounded F A) (hY : Unbounded F Y) (hA0 : 0 < A) (h : A < Y) : rr F (A / Y) < 1 := by
  have hem := emax_ge3 he
  have hY0 : 0 < Y := by linarith
  set w : ℚ := 1 - (2 : ℚ) ^ (-((F.f : ℤ) + 1)) with hw
  have hpp : (2 : ℚ) ^ (-((F.f : ℤ) + 1)) * (2 : ℚ) ^ (F.f + 1) = 1 := by
    rw [← zpow_natCast, ← Float.zadd]; push_cast; rw [neg_add_cancel]; simp
  have hwu : Unbounded F w := by
    have : w = ((2 ^ (F.f + 1) - 1 : ℤ)) * (2 : ℚ) ^ (-((F.f : ℤ) + 1)) := by
      push_cast; rw [sub_mul, one_mul, mul_comm, hpp]
    rw [this]
    refine unb_of ?_ (by unfold Fmt.emin; omega)
    have : (1 : ℤ) ≤ 2 ^ (F.f + 1) := one_le_pow₀ (by norm_num)
    rw [abs_of_nonneg (by omega)]; omega
  have hsm := Float.zp (-((F.f : ℤ) + 1))
  have key : A ≤ w * Y := by
    have h1 := up_mono (F := F) hA0 h.le
    have hYl := up_lt (F := F) (Y := Y)
    rw [abs_of_pos hY0] at hYl
    have hq : (2 : ℚ) ^ (-((F.f : ℤ) + 1)) * Y ≤ (2 : ℚ) ^ up F Y := by
      have := mul_le_mul_of_nonneg_left hYl.le hsm.le
      rwa [← mul_assoc, hpp, one_mul] at this
    rcases eq_or_lt_of_le h1 with h2 | h2
    · obtain ⟨a, ha⟩ := up_grid hA hA0.ne'
      obtain ⟨b, hb⟩ := up_grid hY hY0.ne'
      rw [h2] at ha
      have := grid_gap ha hb h
      rw [hw]; linarith
    · have hlog : Int.log 2 |A| < Int.log 2 |Y| ∧ F.emin < Int.log 2 |Y| := by unfold up at h2; omega
      set k := Int.log 2 |Y| with hk
      have hkY : (2 : ℚ) ^ k ≤ Y := by rw [hk, abs_of_pos hY0]; exact Float.pow_log_le hY0
      have hAk : A < (2 : ℚ) ^ k := by
        have h3 : |A| < (2 : ℚ) ^ (Int.log 2 |A| + 1) := Float.lt_pow_log
        rw [abs_of_pos hA0] at h3 
        exact lt_of_lt_of_le h3 (Float.zle (by rw [abs_of_pos hA0] at hlog; omega))
      have hw0 : 0 ≤ w := by
        rw [hw]; have : (2 : ℚ) ^ (-((F.f : ℤ) + 1)) ≤ (2 : ℚ) ^ (0 : ℤ) := Float.zle (by omega)
        rw [zpow_zero] at this; linarith
      refine le_trans ?_ (mul_le_mul_of_nonneg_left hkY hw0)
      have e : w * (2 : ℚ) ^ k = (2 : ℚ) ^ k - (2 : ℚ) ^ (k - 1 - F.f) := by
        rw [hw, sub_mul, one_mul, ← Float.zadd]; congr 2; ring
      rw [e]
      rcases lt_or_ge A ((2 : ℚ) ^ (k - 1)) with h4 | h4
      · have e2 : (2 : ℚ) ^ k = (2 : ℚ) ^ (k - 1) * 2 := by
          conv_lhs => rw [show k = (k - 1) + 1 by ring, Float.zadd, zpow_one]
        have : (2 : ℚ) ^ (k - 1 - F.f) ≤ (2 : ℚ) ^ (k - 1) := Float.zle (by omega)
        linarith
      · obtain ⟨a, ha⟩ := unb_grid hA (E := k - 1) (by rwa [abs_of_pos hA0])
        obtain ⟨b, hb⟩ : ∃ b : ℤ, (2 : ℚ) ^ k = b * (2 : ℚ) ^ (k - 1 - F.f) := by
          obtain ⟨m, hm⟩ := grid_coarse (a := k - 1 - F.f) (b := k) 1 (by omega)
          exact ⟨m, by rw [← hm]; simp⟩
        have := grid_gap ha hb hAk
        linarith
  have hz : A / Y ≤ w := by rw [div_le_iff₀ hY0]; exact key
  have := rr_le hwu hz
  rw [hw] at this; linarith

/-- `2^p + 1` times a number is not a number -/
theorem no_tie {F : Fmt} {A Y : ℚ} (hA : Unbounded F A) (hY : Unbounded F Y) (hY0 : 0 < Y) : A ≠ ((2 : ℚ) ^ (F.f + 1) + 1) * Y := by
  intro h
  have hP : (0 : ℚ) < (2 : ℚ) ^ (F.f + 1) := by positivity
  have hA0 : 0 < A := by rw [h]; positivity
  have hYA : Y ≤ A := by rw [h]; nlinarith
  obtain ⟨a, ha⟩ := up_grid hA hA0.ne'
  obtain ⟨b, hb⟩ := up_grid hY hY0.ne'
  have hm := up_mono (F := F) hY0 hYA
  obtain ⟨t, ht⟩ := Int.eq_ofNat_of_zero_le (sub_nonneg.2 hm)
  have hp := Float.zp (up F Y)
  have e : (a : ℚ) * 2 ^ t = ((2 : ℚ) ^ (F.f + 1) + 1) * b := by
    have h1 : A = (a : ℚ) * 2 ^ t * (2 : ℚ) ^ up F Y := by
      conv_lhs => rw [ha, show up F A = (t : ℤ) + up F Y by omega, Float.zadd, zpow_natCast]
      ring
    have h2 : (a : ℚ) * 2 ^ t * (2 : ℚ) ^ up F Y = ((2 : ℚ) ^ (F.f + 1) + 1) * b * (2 : ℚ) ^ up F Y := by
      rw [← h1, h]; conv_lhs => rw [hb]
      ring
    exact mul_right_cancel₀ hp.ne' h2
  have e' : a * 2 ^ t = ((2 : ℤ) ^ (F.f + 1) + 1) * b := by exact_mod_cast e
  have hd : ((2 : ℤ) ^ (F.f + 1) + 1) ∣ a := by
    have hc : IsCoprime ((2 : ℤ) ^ (F.f + 1) + 1) (2 ^ t) := by
      apply IsCoprime.pow_right
      exact ⟨1, -2 ^ F.f, by rw [pow_succ]; ring⟩
    exact hc.dvd_of_dvd_mul_right ⟨b, e'⟩
  have ha0 : 0 < a := by
    have : (0 : ℚ) < a := by
      by_contra hc
      have := mul_nonpos_of_nonpos_of_nonneg (not_lt.1 hc) (Float.zp (up F A)).le
      rw [← ha] at this; linarith
    exact_mod_cast this
  have h1 := Int.le_of_dvd ha0 hd
  have h2 := up_lt (F := F) (Y := A)
  rw [abs_of_pos hA0] at h2
  conv_lhs at h2 => rw [ha]
  have h3 := lt_of_mul_lt_mul_right h2 (Float.zp (up F A)).le
  have h4 : a < 2 ^ (F.f + 1) := by exact_mod_cast h3
  omega

theorem step_pos {F : Fmt} (he : 3 ≤ F.e) {A Y : ℚ} (hA : Unbounded F A) (hY : Unbounded F Y) (hA0 : 0 < A) (hY0 : 0 < Y) :
    ∃ q : ℤ, ⌊rr F (A / Y)⌋ = q ∧ 0 ≤ q ∧ Unbounded F (q : ℚ) ∧ (q : ℚ) ≤ rr F (A / Y) ∧ (q = 0 ∨ ∃ n : ℤ, A - q * Y = n * (2 : ℚ) ^ up F Y) ∧
      Unbounded F (A - q * Y) ∧ (q ≤ 2 ^ (F.f + 1) → |A - q * Y| < Y) ∧ (2 ^ (F.f + 1) < q → |A - q * Y| ≤ A / 2) := by
  have he2 : 2 ≤ F.e := by omega
  have hem := emax_ge3 he
  have hz0 : 0 < A / Y := div_pos hA0 hY0
  have hrr0 : 0 ≤ rr F (A / Y) := rr_ge (unb_zero F) hz0.le
  set P : ℤ := 2 ^ (F.f + 1) with hP
  have hP1 : 1 ≤ P := one_le_pow₀ (by norm_num)
  set z := A / Y with hz
  have hAz : A = z * Y := by rw [hz]; field_simp
  rcases lt_or_ge A Y with hlt | hge
  · have h1 := lt_one he hA hY hA0 hlt
    refine ⟨0, by rw [Int.floor_eq_zero_iff]; exact ⟨hrr0, h1⟩, le_rfl, by simpa using unb_zero F, by simpa using hrr0, Or.inl rfl, by simpa using hA, fun _ => ?_, fun h => ?_⟩
    · simpa [abs_of_pos hA0] using hlt
    · omega
  have hgrid : ∀ q : ℤ, ∃ n : ℤ, A - q * Y = n * (2 : ℚ) ^ up F Y := by
    intro q
    obtain ⟨a, ha⟩ := up_multiple hA hA0.ne' (up_mono (F := F) hY0 hge)
    obtain ⟨b, hb⟩ := up_grid hY hY0.ne'
    refine ⟨a - q * b, ?_⟩
    push_cast; linear_combination ha - q * hb
  have hcl : ∀ q : ℤ, |z - q| < 1 → |A - q * Y| < Y := by
    intro q h
    rw [hAz, ← sub_mul, abs_mul, abs_of_pos hY0]
    nlinarith
  have hun : ∀ q : ℤ, |z - q| < 1 → Unbounded F (A - q * Y) := by
    intro q h
    obtain ⟨n, hn⟩ := hgrid q
    exact unb_below hn (by rw [abs_of_pos hY0]; exact (hcl q h).le)
  rcases le_or_gt z P with hzP | hzP
  · have h1 : ((⌊z⌋ : ℤ) : ℚ) ≤ rr F z := by
      refine rr_ge (unb_int he2 ?_) (Int.floor_le z)
      rw [abs_of_nonneg (Int.floor_nonneg.2 hz0.le)]
      have : ((⌊z⌋ : ℤ) : ℚ) ≤ P := le_trans (Int.floor_le z) hzP
      exact_mod_cast this
    have hcP : ⌈z⌉ ≤ P := Int.ceil_le.2 hzP
    have h2 : rr F z ≤ ((⌈z⌉ : ℤ) : ℚ) := by
      refine rr_le (unb_int he2 ?_) (Int.le_ceil z)
      rw [abs_of_nonneg (Int.ceil_nonneg hz0.le)]; exact hcP
    set q := ⌊rr F z⌋ with hq
    have h3 : ⌊z⌋ ≤ q := Int.le_floor.2 h1
    have h4 : (q : ℚ) ≤ ((⌈z⌉ : ℤ) : ℚ) := le_trans (Int.floor_le _) h2
    have h4' : q ≤ ⌈z⌉ := by exact_mod_cast h4
    have hq0 : 0 ≤ q := Int.floor_nonneg.2 hrr0
    have h5 : |z - q| < 1 := by
      have a1 := Int.lt_floor_add_one z
      have a2 := Int.ceil_lt_add_one z
      have a3 : ((⌊z⌋ : ℤ) : ℚ) ≤ q := by exact_mod_cast h3
      rw [abs_lt]; constructor <;> linarith
    refine ⟨q, rfl, hq0, unb_int he2 (by rw [abs_of_nonneg hq0]; omega), Int.floor_le _, Or.inr (hgrid q), hun q h5, fun _ => hcl q h5, fun h => ?_⟩
    omega
  · have hPq : (P : ℚ) = (2 : ℚ) ^ ((F.f : ℤ) + 1) := by
      rw [hP]; push_cast; rw [← zpow_natCast]; push_cast; rfl
    have hPle : (P : ℚ) ≤ rr F z := rr_ge (unb_int he2 (by rw [abs_of_pos (by omega)])) hzP.le
    set q := ⌊rr F z⌋ with hq
    have hPq' : P ≤ q := Int.le_floor.2 hPle
    have hq0 : 0 ≤ q := by omega
    rcases eq_or_lt_of_le hPq' with h6 | h6
    · have hlt : rr F z < P + 1 := by have := Int.lt_floor_add_one (rr F z); rw [← hq, ← h6] at this; exact this
      have h7 : z < P + 1 := by
        by_contra hc
        rcases eq_or_lt_of_le (not_lt.1 hc) with h8 | h8
        · apply no_tie hA hY hY0
          rw [hAz, ← h8, hP]; push_cast; ring
        · have hPP : (2 : ℚ) ^ ((F.f : ℤ)) * 2 = P := by rw [hPq, Float.zadd, zpow_one]
          have hc2 : ((2 ^ F.f + 1 : ℤ) : ℚ) * (2 : ℚ) ^ (1 : ℤ) = P + 2 := by
            rw [← hPP]; push_cast; rw [zpow_natCast]; ring
          rcases le_or_gt ((P : ℚ) + 2) z with h9 | h9
          · have : Unbounded F ((P : ℚ) + 2) := by
              rw [← hc2]
              refine unb_of ?_ (by unfold Fmt.emin; omega)
              have : (1 : ℤ) ≤ 2 ^ F.f := one_le_pow₀ (by norm_num)
              rw [abs_of_pos (by omega), pow_succ]; omega
            have := rr_ge this h9
            linarith
          · have h10 : (P : ℚ) ≤ |z| := by rw [abs_of_pos hz0]; exact hzP.le
            have hP2 : (2 : ℚ) ≤ P := by
              have : (2 : ℤ) ≤ P := by
                rw [hP, pow_succ]; have : (1 : ℤ) ≤ 2 ^ F.f := one_le_pow₀ (by norm_num)
                omega
              exact_mod_cast this
            have := ru_eqe (F := F) (z := z) (E := F.f + 1) (M := F.f + 1) (n := 2 ^ F.f + 1) (by unfold Fmt.emin; omega) (by rw [← hPq]; exact h10)
              (by rw [Float.zadd, ← hPq, abs_of_pos hz0, zpow_one]; linarith)
              (Or.inl (by
                rw [show (F.f : ℤ) + 1 - F.f = 1 by ring, hc2, show (1 : ℤ) - 1 = 0 by norm_num, zpow_zero, abs_lt]
                constructor <;> linarith))
            rw [show (F.f : ℤ) + 1 - F.f = 1 by ring, hc2] at this
            unfold rr at hlt; linarith
      have h5 : |z - q| < 1 := by rw [← h6, abs_lt]; constructor <;> linarith
      refine ⟨q, rfl, hq0, unb_int he2 (by rw [abs_of_nonneg hq0]; omega), Int.floor_le _, Or.inr (hgrid q), hun q h5, fun _ => hcl q h5, fun h => by omega⟩
    · set E := Int.log 2 z with hE
      have hE1 : (F.f : ℤ) + 1 ≤ E := Float.le_log hz0 (by rw [← hPq]; exact hzP.le)
      have hz1 : (2 : ℚ) ^ E ≤ z := Float.pow_log_le hz0
      have hz2 : z < (2 : ℚ) ^ (E + 1) := Float.lt_pow_log
      have hrE : (2 : ℚ) ^ E ≤ rr F z := rr_ge (unb_pow (by unfold Fmt.emin; omega)) hz1
      obtain ⟨m, hm⟩ := unb_grid (rr_unb F z) (E := E) (by rw [abs_of_nonneg hrr0]; exact hrE)
      obtain ⟨t, ht⟩ := Int.eq_ofNat_of_zero_le (show (0 : ℤ) ≤ E - F.f by omega)
      have hqr : (q : ℚ) = rr F z := by
        have : rr F z = ((m * 2 ^ t : ℤ) : ℚ) := by rw [hm, ht, zpow_natCast]; push_cast; rfl
        rw [hq, this, Int.floor_intCast]
      have herr := rr_err (F := F) (z := z) (E := E) (by unfold Fmt.emin; omega) (by rw [abs_of_pos hz0]; exact hz1) (by rw [abs_of_pos hz0]; exact hz2)
      have hr : |A - q * Y| ≤ (2 : ℚ) ^ (E - F.f - 1) * Y := by
        rw [hAz, ← sub_mul, abs_mul, abs_of_pos hY0, hqr, abs_sub_comm]
        exact mul_le_mul_of_nonneg_right herr hY0.le
      have hlY : F.emin - F.f ≤ Int.log 2 |Y| := by
        apply Float.le_log (abs_pos.2 hY0.ne')
        obtain ⟨b, hb⟩ := unb_min_grid hY
        have := grid_gap (a := 0) (b := b) (q := F.emin - F.f) (v := 0) (w := Y) (by simp) hb hY0
        rw [abs_of_pos hY0]; linarith
      have hlA : E + Int.log 2 |Y| ≤ Int.log 2 |A| := by
        apply Float.le_log (abs_pos.2 hA0.ne')
        have h8 := Float.pow_log_le (abs_pos.2 hY0.ne')
        rw [abs_of_pos hY0] at h8
        rw [Float.zadd, abs_of_pos hA0, abs_of_pos hY0]
        conv_rhs => rw [hAz]
        exact mul_le_mul hz1 h8 (Float.zp _).le hz0.le
      have hup : E - F.f + up F Y ≤ up F A := by unfold up; omega
      obtain ⟨a, ha⟩ := up_multiple hA hA0.ne' hup
      obtain ⟨b, hb⟩ := up_grid hY hY0.ne'
      have hform : A - q * Y = ((a - m * b : ℤ) : ℚ) * (2 : ℚ) ^ (E - F.f + up F Y) := by
        rw [hqr, hm]
        rw [Float.zadd] at ha ⊢
        push_cast; linear_combination ha - m * (2 : ℚ) ^ (E - F.f) * hb
      refine ⟨q, rfl, hq0, by rw [hqr]; exact rr_unb F z, Int.floor_le _, Or.inr (hgrid q), ?_, fun h => by omega, fun _ => ?_⟩
      · rw [hform]
        refine unb_of ?_ (by have := up_ge F Y; omega)
        have h9 := up_lt (F := F) (Y := Y)
        rw [abs_of_pos hY0] at h9
        have h10 : |((a - m * b : ℤ) : ℚ)| * (2 : ℚ) ^ (E - F.f + up F Y) ≤ (2 : ℚ) ^ (F.f + 1) * (2 : ℚ) ^ (E - F.f + up F Y) := by
          rw [← abs_of_pos (Float.zp (E - F.f + up F Y)), ← abs_mul, ← hform, abs_of_pos (Float.zp (E - F.f + up F Y))]
          refine le_trans hr ?_
          have h11 : (2 : ℚ) ^ (E - F.f - 1) ≤ (2 : ℚ) ^ (E - F.f) := Float.zle (by omega)
          rw [Float.zadd]
          calc (2 : ℚ) ^ (E - F.f - 1) * Y ≤ (2 : ℚ) ^ (E - F.f) * ((2 : ℚ) ^ (F.f + 1) * (2 : ℚ) ^ up F Y) := mul_le_mul h11 h9.le hY0.le (Float.zp _).le
            _ = _ := by ring
        have h12 := le_of_mul_le_mul_right h10 (Float.zp _)
        exact_mod_cast h12
      · refine le_trans hr ?_
        have h11 : (2 : ℚ) ^ (E - F.f - 1) ≤ (2 : ℚ) ^ (E - 1) := Float.zle (by omega)
        have h12 : (2 : ℚ) ^ E = (2 : ℚ) ^ (E - 1) * 2 := by conv_lhs => rw [show E = (E - 1) + 1 by ring, Float.zadd, zpow_one]
        have h13 : (2 : ℚ) ^ (E - F.f - 1) ≤ z / 2 := by linarith
        calc (2 : ℚ) ^ (E - F.f - 1) * Y ≤ z / 2 * Y := mul_le_mul_of_nonneg_right h13 hY0.le
          _ = A / 2 := by rw [hAz]; ring

end Verif.Rem
