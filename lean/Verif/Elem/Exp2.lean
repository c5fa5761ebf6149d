import Verif.Elem.Exp2Model
import Verif.Elem.Near
import Mathlib.Analysis.Convex.SpecificFunctions.Basic

/-! # Lemmas on the generated `exp2` -/

namespace Verif.Elem

open Verif.Float (Fmt Val)
open Verif.Check

/-- the errors of the reconstruction, in the reals -/
theorem exp2_err {u m T y W D e A b p : ℝ} {κ : ℝ} (hu : 0 < u) (hu' : u ≤ 1 / 2048) (hm : 0 < m) (hy : 0 < y) (hT : T = y * W * D)
    (hW1 : W ≤ 209 / 200) (hW2 : 1 ≤ W * (209 / 200)) (hW0 : 0 < W) (hD : |D - 1| ≤ u / 2) (he : |e| ≤ u / 4) (hk0 : 0 ≤ κ) (hk1 : κ ≤ 1)
    (hA : |A - y| ≤ u * y + κ * (u * m)) (hp : p = W - 1 + e) (hb : |b| ≤ u * |A * p| ∨ |b| ≤ u * m) :
    |A + (A * p + b) - T| ≤ (277 / 100 + 105 / 100 * κ) * u * max T m := by
  set G := max T m with hG
  have hGT : T ≤ G := le_max_left _ _
  have hGm : m ≤ G := le_max_right _ _
  have hG0 : 0 < G := lt_of_lt_of_le hm hGm
  obtain ⟨d1, d2⟩ := abs_le.1 hD
  obtain ⟨e1, e2⟩ := abs_le.1 he
  set Y := y * W with hY
  have hY0 : 0 < Y := by positivity
  have hYT : Y ≤ 1001 / 1000 * G := by
    have : Y * (1 - u / 2) ≤ T := by rw [hT]; exact mul_le_mul_of_nonneg_left (by linarith) hY0.le
    nlinarith
  have hyY : y ≤ 209 / 200 * Y := by
    rw [hY]; nlinarith
  have hyG : y ≤ 10461 / 10000 * G := by linarith
  have huG : 0 < u * G := by positivity
  have hκm : κ * (u * m) ≤ κ * (u * G) := mul_le_mul_of_nonneg_left (mul_le_mul_of_nonneg_left hGm hu.le) hk0
  have hκG : κ * (u * G) ≤ u * G := by nlinarith
  have huy : u * y ≤ 10461 / 10000 * (u * G) := by nlinarith
  have huG2 : u * G ≤ G / 2048 := by nlinarith
  have hA' : |A| ≤ 105 / 100 * G := by
    have : |A| ≤ |A - y| + |y| := by
      have := abs_add_le (A - y) y; simpa using this
    rw [abs_of_pos hy] at this
    linarith
  have hpp : |p| ≤ 46 / 1000 := by
    rw [hp, abs_le]; constructor <;> nlinarith
  have hb' : |b| ≤ u * G := by
    rcases hb with h | h
    · rw [abs_mul] at h
      have : |A| * |p| ≤ (105 / 100 * G) * (46 / 1000) := mul_le_mul hA' hpp (abs_nonneg _) (by positivity)
      have h5 := mul_le_mul_of_nonneg_left this hu.le
      have ex : u * (105 / 100 * G * (46 / 1000)) = 483 / 10000 * (u * G) := by ring
      linarith
    · exact le_trans h (mul_le_mul_of_nonneg_left hGm hu.le)
  have key : A + (A * p + b) - T = (A - y) * (W + e) + y * e + b + Y * (1 - D) := by
    rw [hp, hT, hY]; ring
  have hWe : |W + e| ≤ W + u / 4 := by rw [abs_le]; constructor <;> linarith
  have t1 : |(A - y) * (W + e)| ≤ (1002 / 1000 + 1046 / 1000 * κ) * (u * G) := by
    rw [abs_mul]
    refine le_trans (mul_le_mul hA hWe (abs_nonneg _) (by positivity)) ?_
    have a1 : u * y * W ≤ 1001 / 1000 * (u * G) := by
      have : u * y * W = u * Y := by rw [hY]; ring
      rw [this]
      have := mul_le_mul_of_nonneg_left hYT hu.le
      linarith
    have a2 : u * y * (u / 4) ≤ 1 / 1000 * (u * G) := by
      have := mul_le_mul huy (show u / 4 ≤ 1 / 8192 by linarith) (by positivity) (by positivity)
      linarith
    have a3 : κ * (u * m) * (W + u / 4) ≤ κ * (u * G) * (1046 / 1000) := by
      apply mul_le_mul hκm (by linarith) (by positivity) (by positivity)
    have ex : (u * y + κ * (u * m)) * (W + u / 4) = u * y * W + u * y * (u / 4) + κ * (u * m) * (W + u / 4) := by ring
    rw [ex]
    have ey : (1002 / 1000 + 1046 / 1000 * κ) * (u * G) = 1002 / 1000 * (u * G) + κ * (u * G) * (1046 / 1000) := by ring
    rw [ey]
    linarith
  have t2 : |y * e| ≤ 262 / 1000 * (u * G) := by
    rw [abs_mul, abs_of_pos hy]
    have : y * |e| ≤ (10461 / 10000 * G) * (u / 4) := mul_le_mul hyG he (abs_nonneg _) (by positivity)
    have ex : (10461 / 10000 * G) * (u / 4) = 10461 / 40000 * (u * G) := by ring
    linarith
  have t3 : |Y * (1 - D)| ≤ 5005 / 10000 * (u * G) := by
    rw [abs_mul, abs_of_pos hY0, abs_sub_comm]
    have : Y * |D - 1| ≤ (1001 / 1000 * G) * (u / 2) := mul_le_mul hYT hD (abs_nonneg _) (by positivity)
    have ex : (1001 / 1000 * G) * (u / 2) = 1001 / 2000 * (u * G) := by ring
    linarith
  rw [key]
  have s1 := abs_add_le ((A - y) * (W + e) + y * e + b) (Y * (1 - D))
  have s2 := abs_add_le ((A - y) * (W + e) + y * e) b
  have s3 := abs_add_le ((A - y) * (W + e)) (y * e)
  have hkk : 0 ≤ κ * (u * G) := by positivity
  have : (277 / 100 + 105 / 100 * κ) * u * G = 277 / 100 * (u * G) + 105 / 100 * (κ * (u * G)) := by ring
  rw [this]
  linarith

/-- powers of two around the centre -/
theorem two_rpow_bounds {r : ℝ} (h : |r| ≤ 1 / 16) : (2 : ℝ) ^ r ≤ 209 / 200 ∧ 1 ≤ (2 : ℝ) ^ r * (209 / 200) := by
  obtain ⟨h1, h2⟩ := abs_le.1 h
  have key : (2 : ℝ) ^ ((1 : ℝ) / 16) ≤ 209 / 200 := by
    have : (2 : ℝ) ≤ (209 / 200 : ℝ) ^ ((16 : ℕ) : ℝ) := by rw [Real.rpow_natCast]; norm_num
    calc (2 : ℝ) ^ ((1 : ℝ) / 16) ≤ ((209 / 200 : ℝ) ^ ((16 : ℕ) : ℝ)) ^ ((1 : ℝ) / 16) := Real.rpow_le_rpow (by norm_num) this (by norm_num)
      _ = 209 / 200 := by rw [← Real.rpow_mul (by norm_num)]; norm_num
  constructor
  · exact le_trans (Real.rpow_le_rpow_of_exponent_le (by norm_num) h2) key
  · have a : (2 : ℝ) ^ (-r) ≤ 209 / 200 := le_trans (Real.rpow_le_rpow_of_exponent_le (by norm_num) (by linarith)) key
    have b : (2 : ℝ) ^ r * (2 : ℝ) ^ (-r) = 1 := by rw [← Real.rpow_add (by norm_num)]; simp
    have c : (0 : ℝ) < (2 : ℝ) ^ r := Real.rpow_pos_of_pos (by norm_num) _
    nlinarith

theorem two_rpow_small {d t : ℝ} (h : |d| ≤ t) (ht : t ≤ 1) : |(2 : ℝ) ^ d - 1| ≤ t := by
  have l1 : Real.log 2 ≤ 1 := by have := Real.log_two_lt_d9; linarith
  have l0 : 0 < Real.log 2 := Real.log_pos (by norm_num)
  obtain ⟨h1, h2⟩ := abs_le.1 h
  have e : (2 : ℝ) ^ d = Real.exp (Real.log 2 * d) := Real.rpow_def_of_pos (by norm_num) _
  have low : Real.log 2 * d + 1 ≤ (2 : ℝ) ^ d := by rw [e]; exact Real.add_one_le_exp _
  rw [abs_le]
  constructor
  · have : -t ≤ Real.log 2 * d := by
      rcases le_total 0 d with hd | hd <;> nlinarith
    linarith
  · rcases le_total 0 d with hd | hd
    · have := rpow_one_add_le_one_add_mul_self (s := 1) (by norm_num) hd (le_trans h2 ht)
      norm_num at this
      linarith
    · have : (2 : ℝ) ^ d ≤ 1 := Real.rpow_le_one_of_one_le_of_nonpos (by norm_num) hd
      have : 0 ≤ t := le_trans (abs_nonneg _) h
      linarith

/-- the real of a sum of two numbers of the format: a relative error only -/
theorem add_ru {F : Fmt} {a b : ℚ} (ha : Unbounded F a) (hb : Unbounded F b) :
    |(roundUnb F .RN ((a + b : ℚ) : ℝ) : ℝ) - (a + b : ℚ)| ≤ uu F * |((a + b : ℚ) : ℝ)| ∧
      (|a + b| ≤ (2 : ℚ) ^ (F.emin + 1) → roundUnb F .RN ((a + b : ℚ) : ℝ) = a + b) := by
  have ex : |a + b| ≤ (2 : ℚ) ^ (F.emin + 1) → roundUnb F .RN ((a + b : ℚ) : ℝ) = a + b := by
    intro h
    apply ru_exact
    obtain ⟨m, hm⟩ := unb_min_grid ha
    obtain ⟨n, hn⟩ := unb_min_grid hb
    have e : a + b = ((m + n : ℤ) : ℚ) * (2 : ℚ) ^ (F.emin - F.f) := by rw [hm, hn]; push_cast; ring
    rw [e] at h ⊢
    apply unb_of _ le_rfl
    rw [abs_mul, abs_of_pos (Float.zp _), show F.emin + 1 = ((F.f + 1 : ℕ) : ℤ) + (F.emin - F.f) by push_cast; ring, zpow_add₀ (by norm_num)] at h
    have := le_of_mul_le_mul_right h (Float.zp _)
    rw [zpow_natCast] at this
    exact_mod_cast this
  refine ⟨?_, ex⟩
  by_cases h : |a + b| ≤ (2 : ℚ) ^ (F.emin + 1)
  · rw [ex h, sub_self, abs_zero]; exact mul_nonneg (uu_pos F).le (abs_nonneg _)
  · have h := not_le.1 h
    rcases ru_rel F ((a + b : ℚ) : ℝ) with h1 | h1
    · exact h1
    · refine le_trans h1 ?_
      have h2 : (2 : ℝ) ^ (F.emin + 1) ≤ |((a + b : ℚ) : ℝ)| := by rw [r2cast]; exact_mod_cast h.le
      have h3 : (2 : ℝ) ^ F.emin ≤ (2 : ℝ) ^ (F.emin + 1) := r2le (by omega)
      have h4 : ee F = uu F * (2 : ℝ) ^ F.emin := by unfold ee uu; rw [← r2add]; congr 1; ring
      rw [h4]
      exact mul_le_mul_of_nonneg_left (le_trans h3 h2) (uu_pos F).le

theorem numOf_zeroS (s : Bool) : numOf (zeroS s) = 0 := by cases s <;> rfl
theorem fin_zeroS (F : Fmt) (s : Bool) : Fin' F (zeroS s) := by cases s <;> simp [zeroS, Fin', Fmt.Datum, isNaN, isInf]

theorem fin_num {F : Fmt} (he : 2 ≤ F.e) {v : ℚ} (h : Unbounded F v) (h1 : |v| ≤ Float.omega F) (h0 : v ≠ 0) : Fin' F (.num v) :=
  ⟨⟨(finite_iff he).2 ⟨h, h1⟩, h0⟩, rfl, rfl⟩

/-- an integer of the format -/
theorem fin_int {F : Fmt} (he : 2 ≤ F.e) {n : ℤ} (h : |n| ≤ 2 ^ (F.f + 1)) (h1 : |n| ≤ 2 * F.emax) (h0 : n ≠ 0) : Fin' F (.num (n : ℚ)) := by
  have hm := emax_pos he
  refine fin_num he (unb_int he h) ?_ (by exact_mod_cast h0)
  refine abs_le_omega_of he ?_
  have : (2 * F.emax : ℚ) ≤ (2 : ℚ) ^ F.emax := by
    obtain ⟨k, hk⟩ := Int.eq_ofNat_of_zero_le (by omega : 0 ≤ F.emax)
    rw [hk, zpow_natCast]
    have hk1 : 1 ≤ k := by omega
    have : 2 * k ≤ 2 ^ k := by
      clear hk h h1
      induction k with
      | zero => omega
      | succ j ih =>
        rcases Nat.eq_zero_or_pos j with rfl | hj
        · norm_num
        · have := ih hj; rw [pow_succ]; omega
    exact_mod_cast this
  refine le_trans ?_ this
  exact_mod_cast h1

theorem ffloor_fin {F : Fmt} (he : 2 ≤ F.e) {a : Val} (ha : Fin' F a) (h : |⌊numOf a⌋| ≤ 2 ^ (F.f + 1)) (h1 : |⌊numOf a⌋| ≤ 2 * F.emax) :
    Fin' F (ffloor a) ∧ numOf (ffloor a) = ⌊numOf a⌋ := by
  unfold ffloor
  rw [ha.2.1, ha.2.2]
  simp only [Bool.false_eq_true, if_false]
  by_cases h0 : ⌊numOf a⌋ = 0
  · rw [if_pos h0, h0]; exact ⟨fin_zeroS F _, by rw [numOf_zeroS]; simp⟩
  · rw [if_neg h0]; exact ⟨fin_int he h h1 h0, rfl⟩

theorem fnearest_fin {F : Fmt} (he : 2 ≤ F.e) {a : Val} (ha : Fin' F a) (h : |nearestZ a| ≤ 2 ^ (F.f + 1)) (h1 : |nearestZ a| ≤ 2 * F.emax) :
    Fin' F (fnearest a) ∧ numOf (fnearest a) = nearestZ a := by
  unfold fnearest
  rw [ha.2.1, ha.2.2]
  simp only [Bool.false_eq_true, if_false]
  by_cases h0 : nearestZ a = 0
  · rw [if_pos h0, h0]; exact ⟨fin_zeroS F _, by rw [numOf_zeroS]; simp⟩
  · rw [if_neg h0]; exact ⟨fin_int he h h1 h0, rfl⟩

theorem convC_fin {F : Fmt} {cv : Val → ℤ} {a : Val} (ha : Fin' F a) {n : ℤ} (hn : numOf a = n) (h : |n| < 2 ^ (F.e + F.f)) : convC F cv a = n := by
  obtain ⟨h1, h2⟩ := abs_lt.1 h
  have e : (if 0 ≤ numOf a then ⌊numOf a⌋ else ⌈numOf a⌉) = n := by rw [hn]; split_ifs <;> simp
  unfold convC isInfOrNaN
  rw [ha.2.1, ha.2.2]
  simp only [Bool.or_self, Bool.false_eq_true, if_false]
  rw [e, if_pos ⟨h1.le, h2⟩]

/-- the part of a positive number after the point is exact -/
theorem fract_unb {F : Fmt} {v : ℚ} (hv : Unbounded F v) (h0 : 0 ≤ v) : Unbounded F (v - ⌊v⌋) := by
  obtain ⟨m, E, hm, hE, rfl⟩ := hv
  have hp := Float.zp (E - F.f)
  have hm0 : 0 ≤ m := by
    by_contra hc
    have : (m : ℚ) < 0 := by exact_mod_cast not_le.1 hc
    nlinarith
  rcases le_total 0 (E - F.f) with h | h
  · obtain ⟨k, hk⟩ := Int.eq_ofNat_of_zero_le h
    have : (m : ℚ) * (2 : ℚ) ^ (E - F.f) = ((m * 2 ^ k : ℤ) : ℚ) := by rw [hk, zpow_natCast]; push_cast; rfl
    rw [this, Int.floor_intCast, sub_self]; exact unb_zero F
  · obtain ⟨k, hk⟩ := Int.eq_ofNat_of_zero_le (by omega : 0 ≤ -(E - F.f))
    have e1 : (2 : ℚ) ^ (E - F.f) * 2 ^ k = 1 := by rw [← zpow_natCast, ← hk, ← zpow_add₀ (by norm_num)]; simp
    set n := ⌊(m : ℚ) * (2 : ℚ) ^ (E - F.f)⌋ with hn
    have hn0 : 0 ≤ n := Int.floor_nonneg.2 h0
    have hle : (n : ℚ) ≤ m * (2 : ℚ) ^ (E - F.f) := Int.floor_le _
    have hle' : n * 2 ^ k ≤ m := by
      have : (n : ℚ) * 2 ^ k ≤ m := by
        calc (n : ℚ) * 2 ^ k ≤ m * (2 : ℚ) ^ (E - F.f) * 2 ^ k := mul_le_mul_of_nonneg_right hle (by positivity)
          _ = m := by rw [mul_assoc, e1, mul_one]
      exact_mod_cast this
    have h2k : (0 : ℤ) ≤ n * 2 ^ k := by positivity
    refine ⟨m - n * 2 ^ k, E, ?_, hE, ?_⟩
    · rw [abs_of_nonneg (by linarith)]; rw [abs_of_nonneg hm0] at hm; linarith
    · push_cast
      have : (n : ℚ) * 2 ^ k * (2 : ℚ) ^ (E - F.f) = n := by rw [mul_assoc, mul_comm ((2 : ℚ) ^ k), e1, mul_one]
      linarith [sub_mul (m : ℚ) (n * 2 ^ k) ((2 : ℚ) ^ (E - F.f))]

end Verif.Elem
