import Verif.Log.Core
import Mathlib.Analysis.SpecialFunctions.Log.Deriv
import Mathlib.Analysis.Complex.ExponentialBounds

/-! Lemmas on the constants, the seed and the reduced argument. -/

namespace Verif.Log

open Verif.Blocks

theorem Rep_mono {d p : ℕ} (h : d ≤ p) {x : ℚ} (hx : Rep d ⊥ x) : Rep p ⊥ x := by
  obtain ⟨m, e, hm, hq, he⟩ := hx
  exact ⟨m, e, hm.trans_le (pow_le_pow_right₀ (by norm_num) h), hq, he⟩

theorem rnReal_err (d : ℕ) (x : ℝ) : |(rnReal d x : ℝ) - x| ≤ (2 : ℝ) ^ (-(d : ℤ)) * |x| := by
  rcases eq_or_ne x 0 with rfl | hx
  · simp [rnReal]
  have hax : 0 < |x| := abs_pos.2 hx
  have hlow := Int.zpow_log_le_self (R := ℝ) (b := 2) (by norm_num) hax
  push_cast at hlow
  unfold rnReal
  generalize Int.log 2 |x| = e at *
  have hw : (0 : ℝ) < (2 : ℝ) ^ (e - d + 1) := zpow_pos (by norm_num) _
  have hr := abs_sub_round (x / (2 : ℝ) ^ (e - d + 1))
  generalize round (x / (2 : ℝ) ^ (e - d + 1)) = n at *
  have e1 : ((((n : ℤ) : ℚ) * (2 : ℚ) ^ (e - d + 1) : ℚ) : ℝ) - x = -((x / (2 : ℝ) ^ (e - d + 1) - n) * (2 : ℝ) ^ (e - d + 1)) := by
    push_cast
    rw [sub_mul, div_mul_cancel₀ _ hw.ne']; ring
  rw [e1, abs_neg, abs_mul, abs_of_pos hw]
  calc |x / (2 : ℝ) ^ (e - d + 1) - n| * (2 : ℝ) ^ (e - d + 1) ≤ 1 / 2 * (2 : ℝ) ^ (e - d + 1) := mul_le_mul_of_nonneg_right hr hw.le
    _ = (2 : ℝ) ^ (-(d : ℤ)) * (2 : ℝ) ^ e := by
      rw [← zpow_add₀ (by norm_num : (2 : ℝ) ≠ 0), show e - d + 1 = (-(d : ℤ) + e) + 1 by ring, zpow_add_one₀ (by norm_num : (2 : ℝ) ≠ 0)]
      ring
    _ ≤ _ := mul_le_mul_of_nonneg_left hlow (zpow_pos (by norm_num) _).le

theorem rnReal_rep {d : ℕ} (hd : 1 ≤ d) (x : ℝ) : Rep d ⊥ (rnReal d x) := by
  rcases eq_or_ne x 0 with rfl | hx
  · rw [show rnReal d 0 = 0 by simp [rnReal]]; exact Rep_zero d ⊥
  have hax : 0 < |x| := abs_pos.2 hx
  have hhigh := Int.lt_zpow_succ_log_self (R := ℝ) (b := 2) (by norm_num) |x|
  push_cast at hhigh
  unfold rnReal
  generalize Int.log 2 |x| = e at *
  have hw : (0 : ℝ) < (2 : ℝ) ^ (e - d + 1) := zpow_pos (by norm_num) _
  refine Rep_of_FI hd bot_le ⟨_, 0, ?_, by rw [pow_zero, mul_one]⟩
  have h1 : |x / (2 : ℝ) ^ (e - d + 1)| < 2 ^ d := by
    rw [abs_div, abs_of_pos hw, div_lt_iff₀ hw, ← zpow_natCast, ← zpow_add₀ (by norm_num : (2 : ℝ) ≠ 0)]
    rwa [show (d : ℤ) + (e - d + 1) = e + 1 by ring]
  have h2 := abs_lt.1 h1
  have h3 := abs_le.1 (abs_sub_round (x / (2 : ℝ) ^ (e - d + 1)))
  generalize round (x / (2 : ℝ) ^ (e - d + 1)) = n at *
  have h4 : (n : ℝ) < 2 ^ d + 1 := by linarith [h3.1]
  have h5 : -(2 ^ d + 1 : ℝ) < n := by linarith [h3.2]
  have h6 : n < 2 ^ d + 1 := by exact_mod_cast h4
  have h7 : -(2 ^ d + 1) < n := by exact_mod_cast h5
  exact abs_le.2 ⟨by linarith, by linarith⟩

theorem seed_int {i : ℕ} (h1 : 1 ≤ i) (h2 : i < 128) :
    ∃ N : ℕ, seedTab i = N / 512 ∧ 257 ≤ N ∧ N ≤ 508 ∧ 131072 ≤ 2 * N * (128 + i) + (128 + i) ∧ 2 * N * (128 + i) ≤ 131072 + (128 + i) := by
  refine ⟨_, by rw [seedTab, if_neg (by omega)], ?_, ?_, ?_, ?_⟩
  · rw [Nat.le_div_iff_mul_le (by omega)]; omega
  · apply Nat.le_of_lt_succ; rw [Nat.div_lt_iff_lt_mul (by omega)]; omega
  · have h := Nat.div_add_mod (131072 + (128 + i)) (2 * (128 + i))
    have h' := Nat.mod_lt (131072 + (128 + i)) (show 0 < 2 * (128 + i) by omega)
    generalize (131072 + (128 + i)) / (2 * (128 + i)) = q at *
    rw [show 2 * q * (128 + i) = 2 * (128 + i) * q by ring]; omega
  · have h := Nat.div_mul_le_self (131072 + (128 + i)) (2 * (128 + i))
    generalize (131072 + (128 + i)) / (2 * (128 + i)) = q at *
    rw [show 2 * q * (128 + i) = q * (2 * (128 + i)) by ring]; exact h

theorem seed_bounds {i : ℕ} (h1 : 1 ≤ i) (h2 : i < 128) : 257 / 512 ≤ seedTab i ∧ seedTab i ≤ 508 / 512 := by
  obtain ⟨N, e, a, b, -, -⟩ := seed_int h1 h2
  have a' : (257 : ℚ) ≤ N := by exact_mod_cast a
  have b' : (N : ℚ) ≤ 508 := by exact_mod_cast b
  rw [e]; constructor <;> linarith

/-- the table is an approximation of the inverse on the interval of its index -/
theorem seed_red {i : ℕ} (h1 : 1 ≤ i) (h2 : i < 128) {m : ℚ} (hm : 1 + (i : ℚ) / 128 ≤ m) (hm2 : m < 1 + ((i : ℚ) + 1) / 128) :
    |seedTab i * m - 1| ≤ 5 / 512 := by
  obtain ⟨N, e, a, b, c, d⟩ := seed_int h1 h2
  rw [e]
  have a' : (257 : ℚ) ≤ N := by exact_mod_cast a
  have b' : (N : ℚ) ≤ 508 := by exact_mod_cast b
  have c' : (131072 : ℚ) ≤ 2 * N * (128 + i) + (128 + i) := by exact_mod_cast c
  have d' : 2 * N * (128 + i) ≤ (131072 + (128 + i) : ℚ) := by exact_mod_cast d
  have i2 : (i : ℚ) ≤ 127 := by exact_mod_cast (by omega : i ≤ 127)
  have q1 : (N : ℚ) * (1 + (i : ℚ) / 128) ≤ N * m := mul_le_mul_of_nonneg_left hm (by linarith)
  have q2 : (N : ℚ) * m ≤ N * (1 + ((i : ℚ) + 1) / 128) := mul_le_mul_of_nonneg_left hm2.le (by linarith)
  rw [abs_le]; constructor <;> linarith

theorem index_spec {m : ℚ} (h1 : 1 ≤ m) (h2 : m < 2) :
    index m < 128 ∧ 1 + (index m : ℚ) / 128 ≤ m ∧ m < 1 + ((index m : ℚ) + 1) / 128 := by
  have h0 : 0 ≤ (m - 1) * 128 := by nlinarith
  have a := Nat.floor_le h0
  have b := Nat.lt_floor_add_one ((m - 1) * 128)
  refine ⟨?_, ?_, ?_⟩
  · unfold index; rw [Nat.floor_lt h0]; push_cast; linarith
  · unfold index; linarith
  · unfold index; linarith

theorem log_one {c : ℚ} (h1 : 1 ≤ c) (h2 : c < 2) : Int.log 2 c = 0 := by
  have := (Int.zpow_le_iff_le_log (R := ℚ) (b := 2) (by norm_num) (x := 0) (r := c) (by linarith)).1 (by simpa using h1)
  have := (Int.lt_zpow_iff_log_lt (R := ℚ) (b := 2) (by norm_num) (x := 1) (r := c) (by linarith)).1 (by simpa using h2)
  omega

theorem log_half {c : ℚ} (h1 : 1 / 2 ≤ c) (h2 : c < 1) : Int.log 2 c = -1 := by
  have := (Int.zpow_le_iff_le_log (R := ℚ) (b := 2) (by norm_num) (x := -1) (r := c) (by linarith)).1 (by norm_num; linarith)
  have := (Int.lt_zpow_iff_log_lt (R := ℚ) (b := 2) (by norm_num) (x := 0) (r := c) (by linarith)).1 (by simpa using h2)
  omega

/-- the conversion of `m` to binary32 does not change the index -/
def Coherent (m : ℚ) : Prop := roundNearest 24 ⊥ m < 2 ∧ index (roundNearest 24 ⊥ m) = index m

theorem coherent_of_rep {m : ℚ} (h2 : m < 2) (h : Rep 24 ⊥ m) : Coherent m := by
  unfold Coherent
  rw [rnd_exact (roundNearest_nearest (by norm_num) ⊥) h]
  exact ⟨h2, rfl⟩

theorem clear_seed {p i : ℕ} (hp : 11 ≤ p) (h1 : 1 ≤ i) (h2 : i < 128) : clearLow p (seedTab i) = seedTab i := by
  obtain ⟨b1, b2⟩ := seed_bounds h1 h2
  obtain ⟨N, e, -⟩ := seed_int h1 h2
  unfold clearLow
  rw [log_half (by linarith) (by linarith)]
  obtain ⟨q, rfl⟩ : ∃ q, p = q + 10 := ⟨p - 10, by omega⟩
  have hw : (2 : ℚ) ^ ((-1 : ℤ) - (q + 10 : ℕ) + 1) = 1 / (2 ^ q * 1024) := by
    rw [show (-1 : ℤ) - (q + 10 : ℕ) + 1 = -((q + 10 : ℕ) : ℤ) by ring, zpow_neg, zpow_natCast, pow_add]; norm_num
  simp only [hw]
  have hq : seedTab i / (1 / (2 ^ q * 1024)) = ((2 * (N * 2 ^ q) : ℤ) : ℚ) := by
    rw [e]; push_cast; field_simp; ring
  rw [hq, Int.floor_intCast, Int.mul_ediv_cancel_left _ (by norm_num), ← hq]
  field_simp

theorem round_ge_one {m : ℚ} (h1 : 1 ≤ m) : 1 ≤ roundNearest 24 ⊥ m := by
  by_contra h
  push Not at h
  have := (roundNearest_nearest (p := 24) (by norm_num) ⊥ m).2 1 ⟨1, 0, by norm_num, bot_le, by norm_num⟩
  rw [abs_of_pos (by linarith), abs_of_nonneg (by linarith)] at this
  linarith

theorem seed_coherent {m : ℚ} (h1 : 1 ≤ m) (hc : Coherent m) : seed m = seedTab (index m) := by
  unfold seed
  simp only
  rw [log_one (round_ge_one h1) hc.1]
  simp [hc.2]

theorem argRed_eq {p : ℕ} (hp : 11 ≤ p) {m : ℚ} (h1 : 1 ≤ m) (h2 : m < 2) (hc : Coherent m) : argRed p m = seedTab (index m) := by
  unfold argRed
  split_ifs with h
  · rw [h]; rfl
  · rw [seed_coherent h1 hc, clear_seed hp (by omega) (index_spec h1 h2).1]

/-- the reduced argument before rounding -/
theorem red_small {p : ℕ} (hp : 11 ≤ p) {m : ℚ} (h1 : 1 ≤ m) (h2 : m < 2) (hc : Coherent m) : |argRed p m * m - 1| ≤ 5 / 512 := by
  rw [argRed_eq hp h1 h2 hc]
  obtain ⟨a, b, c⟩ := index_spec h1 h2
  rcases Nat.eq_zero_or_pos (index m) with h | h
  · rw [h] at b c ⊢
    rw [show seedTab 0 = 1 from rfl, one_mul]
    push_cast at b c
    rw [abs_le]; constructor <;> linarith
  · exact seed_red h a b c

theorem log_lip {a b : ℝ} (ha : 15 / 16 ≤ a) (hb : 15 / 16 ≤ b) : |Real.log a - Real.log b| ≤ 16 / 15 * |a - b| := by
  have key : ∀ {a b : ℝ}, 15 / 16 ≤ a → 15 / 16 ≤ b → Real.log a - Real.log b ≤ 16 / 15 * |a - b| := by
    intro a b ha hb
    have hb0 : 0 < b := by linarith
    rw [← Real.log_div (by linarith) (by linarith)]
    have h := Real.log_le_sub_one_of_pos (show 0 < a / b by positivity)
    refine h.trans ?_
    rw [show a / b - 1 = (a - b) * (1 / b) by field_simp]
    have h1 : 1 / b ≤ 16 / 15 := by rw [div_le_div_iff₀ hb0 (by norm_num)]; linarith
    calc (a - b) * (1 / b) ≤ |a - b| * (1 / b) := mul_le_mul_of_nonneg_right (le_abs_self _) (by positivity)
      _ ≤ |a - b| * (16 / 15) := mul_le_mul_of_nonneg_left h1 (abs_nonneg _)
      _ = _ := by ring
  rw [abs_le]
  constructor
  · have := key hb ha
    rw [abs_sub_comm] at this; linarith
  · exact key ha hb

/-- size of the function approximated by the polynomial -/
theorem log_quot {r : ℝ} (h0 : r ≠ 0) (h : |r| ≤ 1 / 64) : |Real.log (1 + r) / r - 1| ≤ 2 * |r| := by
  have hr := abs_le.1 h
  have h1 := Real.log_le_sub_one_of_pos (show 0 < 1 + r by linarith)
  have h2 := Real.one_sub_inv_le_log_of_pos (show 0 < 1 + r by linarith)
  have hpos : 0 < |r| := abs_pos.2 h0
  have hne : 1 + r ≠ 0 := by linarith
  rw [show Real.log (1 + r) / r - 1 = (Real.log (1 + r) - r) / r by field_simp, abs_div, div_le_iff₀ hpos, mul_assoc, abs_mul_abs_self]
  have h3 : 1 - (1 + r)⁻¹ = r - r * r / (1 + r) := by field_simp; ring
  have h4 : r * r / (1 + r) ≤ 2 * (r * r) := by
    rw [div_le_iff₀ (by linarith)]; nlinarith [mul_self_nonneg r]
  have := mul_self_nonneg r
  rw [abs_le]; constructor <;> linarith

theorem sqrt2_bounds : (1.4142 : ℝ) < Real.sqrt 2 ∧ Real.sqrt 2 < 1.41422 := by
  constructor
  · exact Real.lt_sqrt_of_sq_lt (by norm_num)
  · rw [Real.sqrt_lt' (by norm_num)]; norm_num

theorem threshold {p : ℕ} (hp : 20 ≤ p) : (1.414 : ℝ) < rnReal p (Real.sqrt 2) ∧ (rnReal p (Real.sqrt 2) : ℝ) < 1.4143 := by
  have h := abs_le.1 (rnReal_err p (Real.sqrt 2))
  have hs := sqrt2_bounds
  rw [abs_of_pos (by linarith)] at h
  have hu : (2 : ℝ) ^ (-(p : ℤ)) ≤ 1 / 1048576 := by
    rw [zpow_neg, zpow_natCast, ← one_div]
    apply one_div_le_one_div_of_le (by norm_num)
    calc (1048576 : ℝ) = 2 ^ 20 := by norm_num
      _ ≤ 2 ^ p := pow_le_pow_right₀ (by norm_num) hp
  have hu' : (2 : ℝ) ^ (-(p : ℤ)) * Real.sqrt 2 ≤ 1 / 1048576 * 1.41422 :=
    mul_le_mul hu hs.2.le (by positivity) (by norm_num)
  constructor <;> linarith

theorem log_sqrt2 {m : ℝ} (h1 : 1 ≤ m) (h2 : m < 1.4143) : 0 ≤ Real.log m ∧ Real.log m ≤ 0.35 := by
  refine ⟨Real.log_nonneg h1, ?_⟩
  have h : Real.log (m * m) ≤ Real.log 2.0003 := Real.log_le_log (by nlinarith) (by nlinarith)
  rw [Real.log_mul (by linarith) (by linarith)] at h
  have h' : Real.log 2.0003 = Real.log 2 + Real.log 1.00015 := by
    rw [← Real.log_mul (by norm_num) (by norm_num)]; norm_num
  have h3 := Real.log_le_sub_one_of_pos (show (0 : ℝ) < 1.00015 by norm_num)
  have h4 := Real.log_two_lt_d9
  linarith

theorem log_sqrt2' {m : ℝ} (h1 : 1.414 < m) (h2 : m < 2) : 0 ≤ Real.log 2 - Real.log m ∧ Real.log 2 - Real.log m ≤ 0.35 := by
  refine ⟨by have := Real.log_le_log (show 0 < m by linarith) h2.le; linarith, ?_⟩
  have h : Real.log 1.999 ≤ Real.log (m * m) := Real.log_le_log (by norm_num) (by nlinarith)
  rw [Real.log_mul (by linarith) (by linarith)] at h
  have h' : Real.log 2 = Real.log 1.999 + Real.log (2 / 1.999) := by
    rw [← Real.log_mul (by norm_num) (by norm_num)]; norm_num
  have h3 := Real.log_le_sub_one_of_pos (show (0 : ℝ) < 2 / 1.999 by norm_num)
  have h4 := Real.log_two_lt_d9
  norm_num at h3
  linarith

end Verif.Log
