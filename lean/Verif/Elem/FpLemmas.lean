import Verif.Elem.Fp
import Verif.Check.Lemmas
import Mathlib.Tactic.Positivity
import Mathlib.Tactic.FieldSimp
import Mathlib.Tactic.LinearCombination

/-! # Lemmas on the floating-point operations -/

namespace Verif.Elem

open Verif.Float (Fmt Val)
open Verif.Check

theorem r2 (k : ℤ) : (0 : ℝ) < (2 : ℝ) ^ k := zpow_pos (by norm_num) k
theorem r2add (a b : ℤ) : (2 : ℝ) ^ (a + b) = (2 : ℝ) ^ a * (2 : ℝ) ^ b := zpow_add₀ (by norm_num) _ _
theorem r2le {a b : ℤ} (h : a ≤ b) : (2 : ℝ) ^ a ≤ (2 : ℝ) ^ b := zpow_le_zpow_right₀ (by norm_num) h
theorem r2lt {a b : ℤ} (h : a < b) : (2 : ℝ) ^ a < (2 : ℝ) ^ b := zpow_lt_zpow_right₀ (by norm_num) h
theorem r2cast (k : ℤ) : (2 : ℝ) ^ k = (((2 : ℚ) ^ k : ℚ) : ℝ) := by push_cast; rfl
theorem r2lt' {a b : ℤ} (h : (2 : ℝ) ^ a < (2 : ℝ) ^ b) : a < b := by
  by_contra hc
  exact absurd (r2le (not_lt.1 hc)) (not_le.2 h)

/-- rounding stays between numbers of the format -/
theorem ru_between_le {F : Fmt} {x : ℝ} {w : ℚ} (hw : Unbounded F w) (h : x ≤ w) : (roundUnb F .RN x : ℝ) ≤ w := by
  have h1 := rn_min (x := x) hw
  rw [abs_of_nonpos (by linarith : x - (w : ℝ) ≤ 0)] at h1
  have h2 := neg_abs_le (x - (roundUnb F .RN x : ℝ))
  linarith

theorem ru_between_ge {F : Fmt} {x : ℝ} {w : ℚ} (hw : Unbounded F w) (h : (w : ℝ) ≤ x) : (w : ℝ) ≤ roundUnb F .RN x := by
  have h1 := rn_min (x := x) hw
  rw [abs_of_nonneg (by linarith : 0 ≤ x - (w : ℝ))] at h1
  have h2 := le_abs_self (x - (roundUnb F .RN x : ℝ))
  linarith

/-- a number of the format is its own rounding -/
theorem ru_exact {F : Fmt} {w : ℚ} (hw : Unbounded F w) : roundUnb F .RN (w : ℝ) = w := by
  have h1 := ru_between_le hw (le_refl (w : ℝ))
  have h2 := ru_between_ge hw (le_refl (w : ℝ))
  exact_mod_cast le_antisymm h1 h2

theorem ru_neg_sign {F : Fmt} {x : ℝ} (hx : x < 0) : (roundUnb F .RN x : ℝ) ≤ 0 := by
  have := ru_between_le (F := F) (x := x) (unb_zero F) (by push_cast; linarith)
  simpa using this

theorem ru_pos_sign {F : Fmt} {x : ℝ} (hx : 0 < x) : (0 : ℝ) ≤ roundUnb F .RN x := by
  have := ru_between_ge (F := F) (x := x) (unb_zero F) (by push_cast; linarith)
  simpa using this

theorem unb_pow {F : Fmt} {k : ℤ} (h : F.emin - F.f ≤ k) : Unbounded F ((2 : ℚ) ^ k) := by
  have := unb_of (F := F) (n := 1) (q := k) (by rw [abs_one]; exact one_le_pow₀ (by norm_num)) h
  simpa using this

theorem omega_val {F : Fmt} (he : 2 ≤ F.e) : Float.omega F = (2 : ℚ) ^ F.emax * (2 - (2 : ℚ) ^ (-(F.f : ℤ))) := by
  rw [Float.omega_eq F (by omega), show F.emax - (F.f : ℤ) = F.emax + -(F.f : ℤ) by ring, Float.zadd]
  have : (2 : ℚ) ^ (F.f + 1) * (2 : ℚ) ^ (-(F.f : ℤ)) = 2 := by
    rw [← Float.znat, ← Float.zadd, show ((F.f + 1 : ℕ) : ℤ) + -(F.f : ℤ) = 1 by push_cast; ring, zpow_one]
  linear_combination ((2 : ℚ) ^ F.emax) * this

theorem omega_lt {F : Fmt} (he : 2 ≤ F.e) : Float.omega F < (2 : ℚ) ^ (F.emax + 1) := by
  have := omega_val he
  rw [this, Float.zsucc]
  have h1 := Float.zp F.emax
  have h2 := Float.zp (-(F.f : ℤ))
  nlinarith

theorem emax_pos {F : Fmt} (he : 2 ≤ F.e) : 1 ≤ F.emax := by
  have : (2 : ℤ) ^ 1 ≤ 2 ^ (F.e - 1) := pow_le_pow_right₀ (by norm_num) (by omega)
  unfold Fmt.emax; omega

theorem omega_ge {F : Fmt} (he : 2 ≤ F.e) : (2 : ℚ) ^ F.emax ≤ Float.omega F := by
  have := omega_val he
  rw [this]
  have h1 := Float.zp F.emax
  have h2 : (2 : ℚ) ^ (-(F.f : ℤ)) ≤ 2 ^ (0 : ℤ) := Float.zle (by omega)
  rw [zpow_zero] at h2
  nlinarith

/-- IEEE-754 rounding of a non-zero real -/
theorem rnd_rounds {F : Fmt} (he : 2 ≤ F.e) (hf : 1 ≤ F.f) (s : Bool) {x : ℝ} (hx : x ≠ 0) : RoundsTo F x (rnd F s x) := by
  refine ⟨roundUnb F .RN x, rn_nearest hf x, ?_⟩
  unfold rnd
  rw [if_neg hx]
  by_cases h1 : roundUnb F .RN x = 0
  · right; left
    refine ⟨h1, ?_⟩
    rw [if_pos h1]
    by_cases h : x < 0 <;> simp [zeroS, h]
  · rw [if_neg h1]
    by_cases h2 : |roundUnb F .RN x| ≤ Float.omega F
    · left
      rw [if_pos h2]
      exact ⟨(finite_iff he).2 ⟨roundUnb_unb F _ x, h2⟩, h1, rfl⟩
    · right; right
      rw [if_neg h2]
      refine ⟨fun h => h2 ((finite_iff he).1 h).2, ?_⟩
      by_cases h : x < 0 <;> simp [infS, h]

theorem rnd_zero (F : Fmt) (s : Bool) : rnd F s 0 = zeroS s := by simp [rnd]

theorem rnd_exact {F : Fmt} (he : 2 ≤ F.e) (s : Bool) {v : ℚ} (hv : F.Finite v) (h0 : v ≠ 0) : rnd F s (v : ℝ) = .num v := by
  obtain ⟨h1, h2⟩ := (finite_iff he).1 hv
  have h3 : (v : ℝ) ≠ 0 := by exact_mod_cast h0
  unfold rnd
  rw [if_neg h3, ru_exact h1, if_neg h0, if_pos h2]

theorem unb_omega_succ {F : Fmt} (he : 2 ≤ F.e) : Unbounded F ((2 : ℚ) ^ (F.emax + 1)) :=
  unb_pow (by have := emax_pos he; unfold Fmt.emin; omega)

theorem rnd_overflow {F : Fmt} (he : 2 ≤ F.e) (s : Bool) {x : ℝ} (h : (2 : ℝ) ^ (F.emax + 1) ≤ x) : rnd F s x = .plusInf := by
  have hp := r2 (F.emax + 1)
  have h1 : (2 : ℝ) ^ (F.emax + 1) ≤ roundUnb F .RN x := by
    have := ru_between_ge (F := F) (x := x) (unb_omega_succ he) (by rw [← r2cast]; exact h)
    rwa [← r2cast] at this
  have h1' : (2 : ℚ) ^ (F.emax + 1) ≤ roundUnb F .RN x := by rw [r2cast] at h1; exact_mod_cast h1
  have h2 := omega_lt he
  have h3 := Float.zp (F.emax + 1)
  unfold rnd
  rw [if_neg (by linarith), if_neg (by intro h; rw [h] at h1'; linarith), if_neg (by rw [abs_of_pos (by linarith)]; linarith)]
  simp [infS, show ¬ x < 0 by linarith]

theorem toInt_neg (y : ℝ) : toInt .RN (-y) = -toInt .RN y := by
  have h0 := Int.floor_le y
  have h1 := Int.lt_floor_add_one y
  rcases eq_or_lt_of_le h0 with h | h
  · have e : -y = ((-⌊y⌋ : ℤ) : ℝ) := by push_cast; rw [h]
    have hf : ⌊-y⌋ = -⌊y⌋ := by rw [e, Int.floor_intCast]
    simp only [toInt]
    rw [hf, if_pos (by push_cast; linarith), if_pos (by linarith)]
  · have hf : ⌊-y⌋ = -⌊y⌋ - 1 := by
      rw [Int.floor_eq_iff]; push_cast; constructor <;> linarith
    simp only [toInt]
    rw [hf]
    push_cast
    split_ifs <;> first | omega | (exfalso; linarith)

theorem ru_neg (F : Fmt) (x : ℝ) : roundUnb F .RN (-x) = -roundUnb F .RN x := by
  by_cases hx : x = 0
  · subst hx; simp [roundUnb]
  · have hn : -x ≠ 0 := neg_ne_zero.2 hx
    simp only [roundUnb, hx, hn, if_false, log_abs_neg]
    rw [neg_div, toInt_neg]
    push_cast; ring

/-- the error of a rounding is at most half a unit in the last place -/
theorem ru_error (F : Fmt) (x : ℝ) : |(roundUnb F .RN x : ℝ) - x| ≤ (2 : ℝ) ^ (lastPlace F x - 1) := by
  by_cases hx : x = 0
  · subst hx; simp [roundUnb]; exact (r2 _).le
  · rw [roundUnb_cast hx]
    have h := toInt_near (x / (2 : ℝ) ^ lastPlace F x)
    have hp := r2 (lastPlace F x)
    rw [show (toInt .RN (x / (2 : ℝ) ^ lastPlace F x) : ℝ) * (2 : ℝ) ^ lastPlace F x - x =
      -((x / (2 : ℝ) ^ lastPlace F x - toInt .RN (x / (2 : ℝ) ^ lastPlace F x)) * (2 : ℝ) ^ lastPlace F x) by field_simp; ring,
      abs_neg, abs_mul, abs_of_pos hp, show lastPlace F x - 1 = -1 + lastPlace F x by ring, r2add]
    have : (2 : ℝ) ^ (-1 : ℤ) = 1 / 2 := by norm_num
    rw [this]
    exact mul_le_mul_of_nonneg_right h hp.le

theorem log_eqR {a : ℝ} {k : ℤ} (h1 : (2 : ℝ) ^ k ≤ a) (h2 : a < (2 : ℝ) ^ (k + 1)) : Int.log 2 a = k := by
  have ha : 0 < a := lt_of_lt_of_le (r2 k) h1
  have h3 := (Int.zpow_le_iff_le_log (b := 2) (by norm_num) ha (x := k)).1 (by exact_mod_cast h1)
  have h4 := (Int.lt_zpow_iff_log_lt (b := 2) (by norm_num) ha (x := k + 1)).1 (by exact_mod_cast h2)
  omega

theorem log_ltR {a : ℝ} {k : ℤ} (ha : 0 < a) (h2 : a < (2 : ℝ) ^ k) : Int.log 2 a < k :=
  (Int.lt_zpow_iff_log_lt (b := 2) (by norm_num) ha).1 (by exact_mod_cast h2)

theorem le_logR {a : ℝ} {k : ℤ} (ha : 0 < a) (h2 : (2 : ℝ) ^ k ≤ a) : k ≤ Int.log 2 a :=
  (Int.zpow_le_iff_le_log (b := 2) (by norm_num) ha).1 (by exact_mod_cast h2)

theorem log_scale {x : ℝ} (hx : x ≠ 0) (j : ℤ) : Int.log 2 |x * (2 : ℝ) ^ j| = Int.log 2 |x| + j := by
  have hp := r2 j
  apply log_eqR
  · rw [abs_mul, abs_of_pos hp, r2add]; exact mul_le_mul_of_nonneg_right (log_le hx) hp.le
  · rw [abs_mul, abs_of_pos hp, show Int.log 2 |x| + j + 1 = (Int.log 2 |x| + 1) + j by ring, r2add]
    exact mul_lt_mul_of_pos_right (lt_log x) hp

/-- scaling by a power of two commutes with rounding away from the subnormal numbers -/
theorem ru_scale {F : Fmt} {x : ℝ} {j : ℤ} (h1 : x = 0 ∨ F.emin ≤ Int.log 2 |x|) (h2 : x = 0 ∨ F.emin ≤ Int.log 2 |x| + j) :
    roundUnb F .RN (x * (2 : ℝ) ^ j) = roundUnb F .RN x * (2 : ℚ) ^ j := by
  by_cases hx : x = 0
  · subst hx; simp [roundUnb]
  · have h1 := h1.resolve_left hx
    have h2 := h2.resolve_left hx
    have hp := r2 j
    have hl : lastPlace F (x * (2 : ℝ) ^ j) = lastPlace F x + j := by
      unfold lastPlace; rw [log_scale hx]; omega
    have hx' : x * (2 : ℝ) ^ j ≠ 0 := mul_ne_zero hx hp.ne'
    have e : x * (2 : ℝ) ^ j / (2 : ℝ) ^ (lastPlace F x + j) = x / (2 : ℝ) ^ lastPlace F x := by
      rw [r2add]; field_simp
    simp only [roundUnb, hx, hx', if_false, hl]
    rw [e, Float.zadd]; ring

end Verif.Elem
