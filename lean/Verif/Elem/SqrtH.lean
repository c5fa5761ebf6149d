import Verif.Elem.SqrtCtx

/-! # The approximations of the square root and of half its inverse -/

namespace Verif.Elem

open Verif.Float (Fmt Val)
open Verif.Check

theorem am3 {a b c A B C : ℝ} (ha : |a| ≤ A) (hb : |b| ≤ B) (hc : |c| ≤ C) : |a * b * c| ≤ A * B * C := am (am ha hb) hc

theorem small_U {T : ℝ} (hT : 2 ^ 21 ≤ T) : 1 / T ≤ 1 / 1000000 ∧ (1 / T) ^ 2 ≤ 1 / 1000000 * (1 / T) ∧ (1 / T) ^ 3 ≤ 1 / 1000000 * (1 / T) ^ 2 := by
  have h0 : 0 < T := by linarith
  have h1 : 1 / T ≤ 1 / 1000000 := one_div_le_one_div_of_le (by norm_num) (by norm_num at hT; linarith)
  have h2 : 0 < 1 / T := by positivity
  refine ⟨h1, ?_, ?_⟩
  · rw [sq]; exact mul_le_mul_of_nonneg_right h1 h2.le
  · rw [pow_succ, mul_comm]; exact mul_le_mul_of_nonneg_right h1 (by positivity)

/-- the correction factor before its rounding: identity -/
theorem pre_id {s A p t m t6 d n : ℝ} (hA : A * s = 1 + p) (hm : m = 1 / 2 - (A * (s ^ 2 / 2) + t) * A) (h6 : t6 = m * (1 + d) + n) :
    2 * s * (A / 2 * (1 + t6)) - 1 = -(3 / 2) * p ^ 2 - p ^ 3 / 2 - (1 + p) * (t * A) + (1 + p) * (m * d + n) ∧ m = -p - p ^ 2 / 2 - t * A := by
  have hm' : m = -p - p ^ 2 / 2 - t * A := by
    rw [hm]; linear_combination (-(A * s + (1 + p)) / 2) * hA
  refine ⟨?_, hm'⟩
  rw [h6]
  have : 2 * s * (A / 2 * (1 + (m * (1 + d) + n))) = (A * s) * (1 + (m * (1 + d) + n)) := by ring
  rw [this, hA]
  rw [hm']; ring

set_option maxHeartbeats 1000000 in
/-- the correction factor before its rounding: bound -/
theorem pre_bound {T s A p t m t6 d n : ℝ} (hT : 2 ^ 21 ≤ T) (hs1 : T ≤ s) (hA : A * s = 1 + p) (hp : |p| ≤ 6 / T) (ht : |t| ≤ 1)
    (hm : m = 1 / 2 - (A * (s ^ 2 / 2) + t) * A) (h6 : t6 = m * (1 + d) + n) (hd : |d| ≤ 1 / T) (hn : |n| ≤ 1 / T ^ 2) :
    |2 * s * (A / 2 * (1 + t6)) - 1| ≤ |t| / s + 76 / T ^ 2 := by
  have hT0 : 0 < T := by linarith
  have hs0 : 0 < s := by linarith
  obtain ⟨h1, h2⟩ := pre_id hA hm h6
  obtain ⟨hU1, hU2, hU3⟩ := small_U hT
  set U := 1 / T with hU
  have hU0 : 0 < U := by positivity
  have hp' : |p| ≤ 6 * U := by rw [hU]; convert hp using 1; ring
  have e76 : 76 / T ^ 2 = 76 * U ^ 2 := by rw [hU]; field_simp
  have hn' : |n| ≤ U ^ 2 := by rw [hU]; convert hn using 1; field_simp
  have hsU : 1 / s ≤ U := one_div_le_one_div_of_le hT0 hs1
  have hs1' : 0 < 1 / s := by positivity
  have h1p : |1 + p| ≤ 1 + 6 * U := aa (le_of_eq abs_one) hp'
  have hAe : A = (1 + p) * (1 / s) := by field_simp; linarith
  have htA : |t * A| ≤ |t| * ((1 + 6 * U) * (1 / s)) := by
    rw [hAe]; exact am le_rfl (am h1p (by rw [abs_of_pos hs1']))
  have htA2 : |t * A| ≤ 1.001 * U := by
    refine le_trans htA ?_
    have : |t| * ((1 + 6 * U) * (1 / s)) ≤ 1 * ((1 + 6 * U) * U) := by
      apply mul_le_mul ht (mul_le_mul_of_nonneg_left hsU (by positivity)) (by positivity) (by norm_num)
    refine le_trans this ?_
    norm_num at hU1 hU2 ⊢
    linarith
  have hp2 : |p ^ 2| ≤ 36 * U ^ 2 := by
    have := am hp' hp'
    rw [sq]; linarith
  have hm' : |m| ≤ 7.01 * U := by
    rw [h2, show -p - p ^ 2 / 2 - t * A = (-p + -(p ^ 2 * (1 / 2))) + -(t * A) by ring]
    refine le_trans (aa (aa ((abs_neg _).trans_le hp') ((abs_neg _).trans_le (am hp2 (le_of_eq (abs_of_pos (by norm_num)))))) ((abs_neg _).trans_le htA2)) ?_
    norm_num at hU1 hU2 ⊢
    linarith
  rw [h1, e76, show -(3 / 2) * p ^ 2 - p ^ 3 / 2 - (1 + p) * (t * A) + (1 + p) * (m * d + n) =
    ((-(3 / 2 * p ^ 2) + -(p ^ 2 * p * (1 / 2))) + -((1 + p) * (t * A))) + (1 + p) * (m * d + n) by ring]
  have t1 : |-(3 / 2 * p ^ 2)| ≤ 3 / 2 * (36 * U ^ 2) := (abs_neg _).trans_le (am (le_of_eq (abs_of_pos (by norm_num))) hp2)
  have t2 : |-(p ^ 2 * p * (1 / 2))| ≤ 36 * U ^ 2 * (6 * U) * (1 / 2) := (abs_neg _).trans_le (am3 hp2 hp' (le_of_eq (abs_of_pos (by norm_num))))
  have t3 : |-((1 + p) * (t * A))| ≤ (1 + 6 * U) * (|t| * ((1 + 6 * U) * (1 / s))) := (abs_neg _).trans_le (am h1p htA)
  have t4 : |(1 + p) * (m * d + n)| ≤ (1 + 6 * U) * (7.01 * U * U + U ^ 2) := am h1p (aa (am hm' hd) hn')
  have t5 : (1 + 6 * U) * (|t| * ((1 + 6 * U) * (1 / s))) ≤ |t| / s + 13 * U ^ 2 := by
    have e : (1 + 6 * U) * (|t| * ((1 + 6 * U) * (1 / s))) = |t| / s + (12 * U + 36 * U ^ 2) * (|t| * (1 / s)) := by field_simp; ring
    rw [e]
    have : |t| * (1 / s) ≤ 1 * U := mul_le_mul ht hsU (by positivity) (by norm_num)
    have h3 : (12 * U + 36 * U ^ 2) * (|t| * (1 / s)) ≤ (12 * U + 36 * U ^ 2) * (1 * U) := mul_le_mul_of_nonneg_left this (by positivity)
    have h5 : 0 ≤ U ^ 2 := by positivity
    linarith
  have h5 : 0 ≤ U ^ 2 := by positivity
  refine le_trans (aa (aa (aa t1 t2) (le_trans t3 t5)) t4) ?_
  generalize |t| / s = z
  norm_num at hU3 ⊢
  linarith

set_option maxHeartbeats 1000000 in
/-- the rounded correction factor -/
theorem h_bounds {T s A p t m t6 d n H : ℝ} (hT : 2 ^ 21 ≤ T) (hs1 : T ≤ s) (hs2 : s ≤ 2 * T - 1) (hA : A * s = 1 + p) (hp : |p| ≤ 6 / T) (ht : |t| ≤ 1)
    (ht2 : A * (s ^ 2 / 2) ≤ T → |t| ≤ 1 / 2) (hm : m = 1 / 2 - (A * (s ^ 2 / 2) + t) * A) (h6 : t6 = m * (1 + d) + n) (hd : |d| ≤ 1 / T) (hn : |n| ≤ 1 / T ^ 2)
    (hH1 : |H - A / 2 * (1 + t6)| ≤ 1 / (2 * T ^ 2)) (hH2 : A / 2 * (1 + t6) ≤ 1 / (2 * T) → |H - A / 2 * (1 + t6)| ≤ 1 / (4 * T ^ 2)) :
    |2 * s * H - 1| ≤ 1.501 / T ∧ (1.2 * T ≤ s → A * (s ^ 2 / 2) ≤ T → |2 * s * H - 1| ≤ 1.251 / T) := by
  have hT0 : 0 < T := by linarith
  have hs0 : 0 < s := by linarith
  have hb := pre_bound hT hs1 hA hp ht hm h6 hd hn
  set P := A / 2 * (1 + t6) with hP
  obtain ⟨hU1, hU2, hU3⟩ := small_U hT
  set U := 1 / T with hU
  have hU0 : 0 < U := by positivity
  have hTU : T * U = 1 := by rw [hU]; field_simp
  have e76 : 76 / T ^ 2 = 76 * U ^ 2 := by rw [hU]; field_simp
  rw [e76] at hb
  have e1 : 1 / (2 * T ^ 2) = U ^ 2 / 2 := by rw [hU]; field_simp
  have e2 : 1 / (4 * T ^ 2) = U ^ 2 / 4 := by rw [hU]; field_simp
  have e3 : 1 / (2 * T) = U / 2 := by rw [hU]; field_simp
  rw [e1] at hH1
  rw [e2, e3] at hH2
  have hy : ∃ y, y = s * U := ⟨_, rfl⟩
  obtain ⟨y, hy⟩ := hy
  have hs : s = y * T := by rw [hy]; linear_combination -s * hTU
  have hy1 : 1 ≤ y := by rw [hy]; have := mul_le_mul_of_nonneg_right hs1 hU0.le; linarith
  have hy2 : y ≤ 2 := by rw [hy]; have := mul_le_mul_of_nonneg_right hs2 hU0.le; linarith
  -- rounding error relative to the inverse
  have hr : ∀ r, |H - P| ≤ r → |2 * s * H - 1| ≤ |t| / s + 76 * U ^ 2 + 2 * s * r := by
    intro r hr
    rw [show 2 * s * H - 1 = (2 * s * P - 1) + 2 * s * (H - P) by ring]
    exact aa hb (am (le_of_eq (abs_of_pos (by linarith))) hr)
  have hts : ∀ k, |t| ≤ k → |t| / s ≤ k * U / y := by
    intro k hk
    have e : k * U / y = k / s := by rw [hs, hU]; field_simp
    rw [e]
    exact div_le_div_of_nonneg_right hk hs0.le
  have e4 : 2 * s * (U ^ 2 / 4) = y * U / 2 := by rw [hy]; ring
  have e5 : 2 * s * (U ^ 2 / 2) = y * U := by rw [hy]; ring
  have e6 : 1.501 / T = 1.501 * U := by rw [hU]; field_simp
  have e7 : 1.251 / T = 1.251 * U := by rw [hU]; field_simp
  rw [e6, e7]
  -- 1/(2y) + y/2 ≤ 5/4
  have hconv : 1 / 2 * U / y + y * U / 2 ≤ 5 / 4 * U := by
    have : 1 / 2 * U / y ≤ U * (5 / 4 - y / 2) := by
      rw [div_le_iff₀ (by linarith)]
      have := mul_nonneg hU0.le (mul_nonneg (by linarith : 0 ≤ 2 - y) (by linarith : 0 ≤ y - 1 / 2))
      linarith
    linarith
  have main : A * (s ^ 2 / 2) ≤ T → P ≤ U / 2 → |2 * s * H - 1| ≤ 1.251 * U := by
    intro h1 h2
    have a1 := hr _ (hH2 h2)
    have a2 := hts _ (ht2 h1)
    rw [e4] at a1
    norm_num at hU2 ⊢; linarith
  have hPy : 2 * s * P ≤ 1 + |t| / s + 76 * U ^ 2 := by have := (abs_le.1 hb).2; linarith
  constructor
  · by_cases h1 : A * (s ^ 2 / 2) ≤ T
    · by_cases h2 : P ≤ U / 2
      · have := main h1 h2
        norm_num at this ⊢; linarith
      · have h2 := not_le.1 h2
        have a1 := hr _ hH1
        have a2 := hts _ (ht2 h1)
        rw [e5] at a1
        -- y is close to one
        have h3 : y ≤ 1 + 2 * U := by
          have : y < 2 * s * P := by
            have : 2 * s * (U / 2) < 2 * s * P := mul_lt_mul_of_pos_left h2 (by linarith)
            rw [hy]; linarith
          have h4 : 1 / 2 * U / y ≤ 1 / 2 * U := div_le_self (by linarith) hy1
          norm_num at hU2; linarith
        have h4 : 1 / 2 * U / y ≤ 1 / 2 * U := div_le_self (by linarith) hy1
        have h5 : y * U ≤ (1 + 2 * U) * U := mul_le_mul_of_nonneg_right h3 hU0.le
        norm_num at hU2 ⊢; linarith
    · have h1 := not_le.1 h1
      -- y is close to two
      have h2 : 2 - 13 * U ≤ y := by
        have e : A * (s ^ 2 / 2) = (1 + p) * s / 2 := by rw [← hA]; ring
        rw [e, hs] at h1
        have hp' : p ≤ 6 * U := by have := (abs_le.1 hp).2; rw [hU]; linarith [show 6 / T = 6 * (1 / T) by ring]
        have h3 : (1 + p) * (y * T) ≤ (1 + 6 * U) * (y * T) := mul_le_mul_of_nonneg_right (by linarith) (by positivity)
        have h4 : 2 * T < (1 + 6 * U) * y * T := by linarith
        have h5 : 2 < (1 + 6 * U) * y := lt_of_mul_lt_mul_right h4 hT0.le
        have h6 : U * y ≤ U * 2 := mul_le_mul_of_nonneg_left hy2 hU0.le
        norm_num; linarith
      have h3 : P ≤ U / 2 := by
        by_contra hc
        have hc := not_le.1 hc
        have : y < 2 * s * P := by
          have : 2 * s * (U / 2) < 2 * s * P := mul_lt_mul_of_pos_left hc (by linarith)
          rw [hy]; linarith
        have a2 := hts _ ht
        have h4 : 1 * U / y ≤ 1 * U := div_le_self (by linarith) hy1
        norm_num at hU2 hU1; linarith
      have a1 := hr _ (hH2 h3)
      have a2 := hts _ ht
      rw [e4] at a1
      have h4 : 1 * U / y ≤ 1 / 2 * U + 10 * U ^ 2 := by
        rw [div_le_iff₀ (by linarith)]
        norm_num at hU1 hU2
        have q1 : (2 - 13 * U) * (1 / 2 * U + 10 * U ^ 2) ≤ y * (1 / 2 * U + 10 * U ^ 2) := mul_le_mul_of_nonneg_right h2 (by positivity)
        norm_num at hU3
        have q2 : 0 ≤ U ^ 2 := by positivity
        linarith
      have h5 : y * U / 2 ≤ U := by have := mul_le_mul_of_nonneg_right hy2 hU0.le; linarith
      norm_num at hU2 ⊢; linarith
  · intro h1 h2
    refine main h2 ?_
    by_contra hc
    have hc := not_le.1 hc
    have : y < 2 * s * P := by
      have : 2 * s * (U / 2) < 2 * s * P := mul_lt_mul_of_pos_left hc (by linarith)
      rw [hy]; linarith
    have a2 := hts _ ht
    have h4 : 1 * U / y ≤ 1 * U := div_le_self (by linarith) hy1
    have h5 : 1.2 ≤ y := by
      rw [hs] at h1
      exact le_of_mul_le_mul_right h1 hT0
    norm_num at hU2 h5 hU1; linarith

theorem quad_k {k U : ℝ} (k1 : 3.4 ≤ k) (k2 : k ≤ 6) (h0 : 0 ≤ U) (h1 : U ≤ 1 / 1000000) :
    0 < 3 / 2 * k ^ 2 - 1 / 2 - 1 / 2 - k / 2 - 4 - k - 0.52 - 1 - U * (1 / 2 + 4 * k + k * (k + 0.52) + k) := by
  norm_num at k1 ⊢
  have q1 : k * k ≤ 6 * 6 := mul_le_mul k2 k2 (by linarith) (by norm_num)
  have q2 : 17 / 5 * k ≤ k * k := mul_le_mul_of_nonneg_right k1 (by linarith)
  have b1 : 1 / 2 + 4 * k + k * (k + 13 / 25) + k ≤ 100 := by linarith
  have b2 : U * (1 / 2 + 4 * k + k * (k + 13 / 25) + k) ≤ 1 / 1000000 * 100 := mul_le_mul h1 b1 (by nlinarith) (by norm_num)
  linarith

set_option maxHeartbeats 1000000 in
/-- the hard case: the radicand is the number below a power of four -/
theorem h_top {T s A p t m t6 d n : ℝ} (hT : 2 ^ 21 ≤ T) (hs1 : 2 * T - 1 - 1 / T ≤ s) (hs2 : s ≤ 2 * T) (hA : A * s = 1 + p) (hp : |p| ≤ 6 / T) (ht : |t| ≤ 1)
    (hm : m = 1 / 2 - (A * (s ^ 2 / 2) + t) * A) (h6 : t6 = m * (1 + d) + n) (hd : |d| ≤ 1 / T) (hn : |n| ≤ 1 / T ^ 2)
    (hAl : 1 / (2 * T) * (1 + 4 / T) ≤ A) : A / 2 * (1 + t6) < 1 / (4 * T) * (1 + 1 / T) := by
  have hT0 : 0 < T := by linarith
  obtain ⟨h1, h2⟩ := pre_id hA hm h6
  obtain ⟨hU1, hU2, hU3⟩ := small_U hT
  set U := 1 / T with hU
  have hU0 : 0 < U := by positivity
  have hTU : T * U = 1 := by rw [hU]; field_simp
  have hs0 : 0 < s := by linarith
  have hp' : |p| ≤ 6 * U := by rw [hU]; convert hp using 1; ring
  have hn' : |n| ≤ U ^ 2 := by rw [hU]; convert hn using 1; field_simp
  have eA : 1 / (2 * T) * (1 + 4 / T) = U / 2 * (1 + 4 * U) := by rw [hU]; field_simp
  have eR : 1 / (4 * T) * (1 + U) = U / 4 * (1 + U) := by rw [hU]; field_simp
  rw [eA] at hAl
  rw [eR]
  -- s in terms of U
  obtain ⟨y, hy⟩ : ∃ y, y = s * U := ⟨_, rfl⟩
  have hs : s = y * T := by rw [hy]; linear_combination -s * hTU
  have hy1 : 2 - U - U ^ 2 ≤ y := by
    rw [hy]
    have : (2 * T - 1 - U) * U ≤ s * U := mul_le_mul_of_nonneg_right hs1 hU0.le
    linarith
  have hy2 : y ≤ 2 := by rw [hy]; have := mul_le_mul_of_nonneg_right hs2 hU0.le; linarith
  have hpl : 3.4 * U ≤ p := by
    have h3 : U / 2 * (1 + 4 * U) * s ≤ A * s := mul_le_mul_of_nonneg_right hAl hs0.le
    have e : U / 2 * (1 + 4 * U) * s = y / 2 * (1 + 4 * U) := by rw [hy]; ring
    rw [e, hA] at h3
    have : (2 - U - U ^ 2) / 2 * (1 + 4 * U) ≤ y / 2 * (1 + 4 * U) := mul_le_mul_of_nonneg_right (by linarith) (by linarith)
    norm_num at hU1 hU2 hU3 ⊢
    linarith
  have hph := (abs_le.1 hp').2
  -- A
  have hAu : 0 ≤ A ∧ A ≤ U / 2 * (1 + 8 * U) := by
    have e : A * y = (1 + p) * U := by rw [hy, ← hA]; ring
    constructor
    · exact le_trans (by positivity) hAl
    · have hA0 : 0 ≤ A := le_trans (by positivity) hAl
      by_contra hc
      have hc := not_le.1 hc
      have h3 : U / 2 * (1 + 8 * U) * (2 - U - U ^ 2) < A * y := by
        refine lt_of_lt_of_le (mul_lt_mul_of_pos_right hc (by nlinarith)) (mul_le_mul_of_nonneg_left hy1 hA0)
      rw [e] at h3
      have h4 : (1 + 8 * U) * (2 - U - U ^ 2) / 2 * U < (1 + 6 * U) * U := by
        have : (1 + p) * U ≤ (1 + 6 * U) * U := mul_le_mul_of_nonneg_right (by linarith) hU0.le
        nlinarith
      have h5 := lt_of_mul_lt_mul_right h4 hU0.le
      norm_num at hU1 hU2 hU3
      have : 0 ≤ U ^ 2 := by positivity
      linarith
  obtain ⟨hA0, hAu⟩ := hAu
  have htA : -(t * A) ≤ U / 2 * (1 + 8 * U) := by
    have := (abs_le.1 ht).1
    nlinarith
  have htA2 : |t * A| ≤ 0.51 * U := by
    refine le_trans (am ht (le_of_eq (abs_of_nonneg hA0))) ?_
    norm_num at hU1 hU2 ⊢
    linarith
  have hmb : |m| ≤ p + 0.52 * U := by
    rw [h2, show -p - p ^ 2 / 2 - t * A = -(p * (1 + p / 2)) + -(t * A) by ring]
    have hp0 : 0 < p := by norm_num at hpl; linarith
    refine le_trans (aa ((abs_neg _).trans_le (le_of_eq (abs_of_pos (by positivity)))) ((abs_neg _).trans_le htA2)) ?_
    have : p * p ≤ 6 * U * (6 * U) := mul_le_mul hph hph hp0.le (by linarith)
    norm_num at hU1 hU2 ⊢
    linarith
  have hmd : |m * d + n| ≤ (p + 0.52 * U) * U + U ^ 2 := aa (am hmb hd) hn'
  have hmd' := (abs_le.1 hmd).2
  have hp0 : 0 < p := by norm_num at hpl; linarith
  have hkey : 2 * s * (A / 2 * (1 + t6)) < y / 2 * (1 + U) := by
    have h3 : 2 * s * (A / 2 * (1 + t6)) ≤ 1 - 3 / 2 * p ^ 2 + (1 + p) * (U / 2 * (1 + 8 * U)) + (1 + p) * ((p + 0.52 * U) * U + U ^ 2) := by
      have a1 : (1 + p) * -(t * A) ≤ (1 + p) * (U / 2 * (1 + 8 * U)) := mul_le_mul_of_nonneg_left htA (by linarith)
      have a2 : (1 + p) * (m * d + n) ≤ (1 + p) * ((p + 0.52 * U) * U + U ^ 2) := mul_le_mul_of_nonneg_left hmd' (by linarith)
      have a3 : 0 ≤ p ^ 3 := by positivity
      linarith
    have h4 : (2 - U - U ^ 2) / 2 * (1 + U) ≤ y / 2 * (1 + U) := mul_le_mul_of_nonneg_right (by linarith) (by linarith)
    refine lt_of_le_of_lt h3 (lt_of_lt_of_le ?_ h4)
    -- everything in U
    obtain ⟨k, hk⟩ : ∃ k, p = k * U := ⟨p / U, by field_simp⟩
    have k1 : 3.4 ≤ k := le_of_mul_le_mul_right (by rw [← hk]; exact hpl) hU0
    have k2 : k ≤ 6 := le_of_mul_le_mul_right (by rw [← hk]; exact hph) hU0
    have hU2 : 0 < U ^ 2 := by positivity
    rw [hk]
    have e : (2 - U - U ^ 2) / 2 * (1 + U) - (1 - 3 / 2 * (k * U) ^ 2 + (1 + k * U) * (U / 2 * (1 + 8 * U)) + (1 + k * U) * ((k * U + 0.52 * U) * U + U ^ 2)) =
        U ^ 2 * (3 / 2 * k ^ 2 - 1 / 2 - 1 / 2 - k / 2 - 4 - k - 0.52 - 1 - U * (1 / 2 + 4 * k + k * (k + 0.52) + k)) := by ring
    have h5 := quad_k k1 k2 hU0.le hU1
    have := mul_pos hU2 h5
    linarith
  have e8 : y / 2 * (1 + U) = 2 * s * (U / 4 * (1 + U)) := by rw [hy]; ring
  rw [e8] at hkey
  exact lt_of_mul_lt_mul_left hkey (by linarith)

end Verif.Elem
