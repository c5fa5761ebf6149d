import Verif.Log.Lemmas

/-! Error of the standard path of the logarithm. -/

namespace Verif.Log

open Verif.Blocks

theorem zp_le {a : ℕ} {p : ℕ} (h : a ≤ p) : (2 : ℝ) ^ (-(p : ℤ)) ≤ 1 / 2 ^ a := by
  rw [zpow_neg, zpow_natCast, ← one_div]
  exact one_div_le_one_div_of_le (by positivity) (pow_le_pow_right₀ (by norm_num) h)

theorem zp24 {p : ℕ} (h : 24 ≤ p) : (2 : ℝ) ^ (-(p : ℤ)) ≤ 1 / 16777216 := (zp_le h).trans (by norm_num)

theorem zp14 {p : ℕ} (h : 14 ≤ p) : (2 : ℝ) ^ (-(p : ℤ)) ≤ 1 / 16384 := (zp_le h).trans (by norm_num)

/-- entries of the tables of logarithms -/
theorem tab_err {p h : ℕ} (hp : 24 ≤ p) (hh : 14 ≤ h) (hhp : h < p) {tho : Bool} {i : ℕ} (hi : i < 128) (h0 : i = 0 → tho = false) :
    Rep p ⊥ (logTab p h tho i).1 ∧ |((logTab p h tho i).1 : ℝ)| ≤ 2 ∧ |((logTab p h tho i).2 : ℝ)| ≤ 2 * (2 : ℝ) ^ (-(h : ℤ)) ∧
      |((logTab p h tho i).1 : ℝ) + (logTab p h tho i).2 - Real.log ((if tho then 2 else 1) * seedTab i)| ≤
        (2 : ℝ) ^ (-(p : ℤ)) * (2 : ℝ) ^ (-(h : ℤ)) := by
  have hu := zp24 hp
  have hw := zp14 hh
  have hu0 : 0 < (2 : ℝ) ^ (-(p : ℤ)) := zpow_pos (by norm_num) _
  have hw0 : 0 < (2 : ℝ) ^ (-(h : ℤ)) := zpow_pos (by norm_num) _
  rcases Nat.eq_zero_or_pos i with rfl | h1
  · rw [h0 rfl]
    rw [show logTab p h false 0 = (0, 0) from rfl, show seedTab 0 = 1 from rfl]
    refine ⟨Rep_zero _ _, by simp, ?_, ?_⟩
    · simp only [Rat.cast_zero, abs_zero]; positivity
    · simp only [Rat.cast_zero, Rat.cast_one, Bool.false_eq_true, if_false, mul_one, Real.log_one, add_zero, sub_zero, abs_zero]; positivity
  · obtain ⟨b1, b2⟩ := seed_bounds h1 hi
    have b1' : (257 / 512 : ℝ) ≤ seedTab i := by have := (Rat.cast_le (K := ℝ)).2 b1; push_cast at this; linarith
    have b2' : (seedTab i : ℝ) ≤ 508 / 512 := by have := (Rat.cast_le (K := ℝ)).2 b2; push_cast at this; linarith
    have hE : logTab p h tho i = (rnReal h (Real.log ((if tho then 2 else 1) * seedTab i)),
      rnReal p (Real.log ((if tho then 2 else 1) * seedTab i) - rnReal h (Real.log ((if tho then 2 else 1) * seedTab i)))) := by
      unfold logTab; rw [if_neg (by omega)]
    have hx1 : (257 / 512 : ℝ) ≤ (if tho then 2 else 1) * seedTab i := by cases tho <;> simp <;> linarith
    have hx2 : (if tho then 2 else 1) * (seedTab i : ℝ) ≤ 1016 / 512 := by cases tho <;> simp <;> linarith
    rw [hE]
    generalize hx : (if tho then 2 else 1) * (seedTab i : ℝ) = x at *
    have l1 := Real.log_le_sub_one_of_pos (show 0 < x by linarith)
    have l2 := Real.one_sub_inv_le_log_of_pos (show 0 < x by linarith)
    have l3 : x⁻¹ ≤ 2 := by rw [inv_le_comm₀ (by linarith) (by norm_num)]; linarith
    have hv : |Real.log x| ≤ 1 := by rw [abs_le]; constructor <;> linarith
    generalize Real.log x = v at *
    have e1 := rnReal_err h v
    have e2 := rnReal_err p (v - rnReal h v)
    refine ⟨Rep_mono hhp.le (rnReal_rep (by omega) v), ?_, ?_, ?_⟩
    all_goals simp only
    all_goals
      generalize (rnReal h v : ℝ) = a at *
      generalize (rnReal p (v - a) : ℝ) = b at *
    all_goals
      have g1 : |v - a| ≤ (2 : ℝ) ^ (-(h : ℤ)) := by
        rw [abs_sub_comm]; refine e1.trans ?_
        exact mul_le_of_le_one_right hw0.le hv
    · have := abs_sub_abs_le_abs_sub a v
      rw [abs_sub_comm] at this; linarith
    · have := abs_sub_abs_le_abs_sub b (v - a)
      have g2 : (2 : ℝ) ^ (-(p : ℤ)) * |v - a| ≤ 1 * (2 : ℝ) ^ (-(h : ℤ)) :=
        mul_le_mul (by linarith) g1 (abs_nonneg _) (by norm_num)
      linarith
    · rw [show a + b - v = b - (v - a) by ring]
      exact e2.trans (mul_le_mul_of_nonneg_left g1 hu0.le)

/-- the two parts of `log 2` -/
theorem log2_err {p h : ℕ} (hp : 24 ≤ p) (hh : 14 ≤ h) :
    (0.69 : ℝ) < rnReal h (Real.log 2) ∧ (rnReal h (Real.log 2) : ℝ) < 0.7 ∧
      |(rnReal p (Real.log 2 - rnReal h (Real.log 2)) : ℝ)| ≤ (2 : ℝ) ^ (-(h : ℤ)) ∧
      |(rnReal h (Real.log 2) : ℝ) + rnReal p (Real.log 2 - rnReal h (Real.log 2)) - Real.log 2| ≤ (2 : ℝ) ^ (-(p : ℤ)) * (2 : ℝ) ^ (-(h : ℤ)) := by
  have hu := zp24 hp
  have hw := zp14 hh
  have hu0 : 0 < (2 : ℝ) ^ (-(p : ℤ)) := zpow_pos (by norm_num) _
  have hw0 : 0 < (2 : ℝ) ^ (-(h : ℤ)) := zpow_pos (by norm_num) _
  have l1 := Real.log_two_gt_d9
  have l2 := Real.log_two_lt_d9
  generalize Real.log 2 = v at *
  have e1 := rnReal_err h v
  have e2 := rnReal_err p (v - rnReal h v)
  generalize (rnReal h v : ℝ) = a at *
  generalize (rnReal p (v - a) : ℝ) = b at *
  rw [abs_of_pos (show 0 < v by linarith)] at e1
  have g0 : (2 : ℝ) ^ (-(h : ℤ)) * v ≤ (2 : ℝ) ^ (-(h : ℤ)) * 0.7 := mul_le_mul_of_nonneg_left (by linarith) hw0.le
  have g1 : |v - a| ≤ (2 : ℝ) ^ (-(h : ℤ)) * 0.7 := by rw [abs_sub_comm]; linarith
  have g3 := abs_le.1 g1
  have g2 : (2 : ℝ) ^ (-(p : ℤ)) * |v - a| ≤ (1 / 16777216) * ((2 : ℝ) ^ (-(h : ℤ)) * 0.7) :=
    mul_le_mul hu g1 (abs_nonneg _) (by norm_num)
  refine ⟨by linarith [g3.2], by linarith [g3.1], ?_, ?_⟩
  · have := abs_sub_abs_le_abs_sub b (v - a)
    linarith
  · rw [show a + b - v = b - (v - a) by ring]
    exact e2.trans (mul_le_mul_of_nonneg_left (by linarith) hu0.le)

theorem Rep_mul {p h : ℕ} {k : ℤ} {x : ℚ} (hx : Rep h ⊥ x) (hhp : h < p) (hk : |k| ≤ 2 ^ (p - h)) : Rep p ⊥ (k * x) := by
  obtain ⟨m, e, hm, hq, rfl⟩ := hx
  refine ⟨k * m, e, ?_, bot_le, by push_cast; ring⟩
  rw [abs_mul, show p = (p - h) + h by omega, pow_add]
  have : (p - h) + h - h = p - h := by omega
  calc |k| * |m| ≤ 2 ^ (p - h) * |m| := mul_le_mul_of_nonneg_right hk (abs_nonneg _)
    _ < 2 ^ (p - h) * 2 ^ h := mul_lt_mul_of_pos_left hm (by positivity)

/-- sum of the first terms against the logarithm -/
theorem poly_err {p : ℕ} {η : ℝ} {P : ℚ → ℚ} (hP : PolyOk p η P) (hη : η ≤ 1 / 64) {r : ℚ} (hr : |r| ≤ 1 / 64) :
    |((r + r * P r : ℚ) : ℝ) - Real.log (1 + r)| ≤ |(r : ℝ)| * η ∧ |((r + r * P r : ℚ) : ℝ)| ≤ 17 / 16 * |(r : ℝ)| := by
  rcases eq_or_ne r 0 with rfl | h0
  · simp
  have h0' : (r : ℝ) ≠ 0 := by exact_mod_cast h0
  have hr' : |(r : ℝ)| ≤ 1 / 64 := by have := (Rat.cast_le (K := ℝ)).2 hr; push_cast at this; linarith
  have h1 := hP.err r h0 hr
  have h2 := log_quot h0' hr'
  have hpos := abs_nonneg (r : ℝ)
  push_cast
  constructor
  · have e : (r : ℝ) + r * P r - Real.log (1 + r) = r * ((P r : ℝ) - (Real.log (1 + r) / r - 1)) := by field_simp; ring
    rw [e, abs_mul]
    exact mul_le_mul_of_nonneg_left h1 hpos
  · have e : (r : ℝ) + r * P r = r * (1 + P r) := by ring
    rw [e, abs_mul, mul_comm]
    refine mul_le_mul_of_nonneg_right ?_ hpos
    have := abs_add_le (1 : ℝ) (P r)
    have h3 := abs_sub_abs_le_abs_sub (P r : ℝ) (Real.log (1 + r) / r - 1)
    rw [abs_one] at this
    linarith

/-- The standard path for any reduced argument `A m`, with the entry of the tables for `T`. -/
theorem split_gen {p h : ℕ} (hp : 24 ≤ p) (hh : 14 ≤ h) (hhp : h < p) {rnd P : ℚ → ℚ} (hr : Nearest p ⊥ rnd) {η : ℝ} (hP : PolyOk p η P)
    (hη : η ≤ 1 / 64) {A m : ℚ} (hA : |A * m - 1| ≤ 5 / 512) {k : ℤ} (hk : |k| ≤ 2 ^ (p - h)) {th tl : ℚ} {v : ℝ} (t1 : Rep p ⊥ th)
    (t2 : |(th : ℝ)| ≤ 2) (t3 : |(tl : ℝ)| ≤ 2 * (2 : ℝ) ^ (-(h : ℤ)))
    (t4 : |(th : ℝ) + tl - v| ≤ (2 : ℝ) ^ (-(p : ℤ)) * (2 : ℝ) ^ (-(h : ℤ))) :
    |(combine rnd k (rnReal h (Real.log 2)) (rnReal p (Real.log 2 - rnReal h (Real.log 2))) (rnd (A * m - 1)) (P (rnd (A * m - 1))) th tl : ℝ) -
        (k * Real.log 2 + Real.log (A * m) - v)| ≤
      (2 : ℝ) ^ (-(p : ℤ)) * |k * Real.log 2 + Real.log (A * m) - v| + 1 / 64 * ((2 : ℝ) ^ (-(p : ℤ)) * (1 + |k| / 16) + η) := by
  obtain ⟨l1, l2, l3, l4⟩ := log2_err (p := p) hp hh
  have lr : Rep h ⊥ (rnReal h (Real.log 2)) := rnReal_rep (by omega) _
  generalize rnReal p (Real.log 2 - rnReal h (Real.log 2)) = ll at *
  generalize rnReal h (Real.log 2) = lh at *
  have hX := Rep_mul lr hhp hk
  have hred := (rnd_rel (by omega : 1 ≤ p) hr (A * m - 1)).1
  have rr : Rep p ⊥ (rnd (A * m - 1)) := (hr _).1
  have hA' : |(A : ℝ) * m - 1| ≤ 5 / 512 := by have := (Rat.cast_le (K := ℝ)).2 hA; push_cast at this; linarith
  generalize hred0 : rnd (A * m - 1) = red at *
  -- everything in reals
  obtain ⟨u, hu⟩ : ∃ u : ℚ, u = (2 : ℚ) ^ (-(p : ℤ)) := ⟨_, rfl⟩
  have huR : (2 : ℝ) ^ (-(p : ℤ)) = (u : ℝ) := by rw [hu]; push_cast; rfl
  have hu2 := zp24 hp
  have hu0 : (0 : ℝ) < u := by rw [← huR]; exact zpow_pos (by norm_num) _
  rw [huR] at t4 l4 hu2 ⊢
  rw [← hu] at hred
  have hred' : |(A : ℝ) * m - 1 - red| ≤ u * |(A : ℝ) * m - 1| := by exact_mod_cast hred
  obtain ⟨W, hW⟩ : ∃ W : ℝ, W = (2 : ℝ) ^ (-(h : ℤ)) := ⟨_, rfl⟩
  have hw2 := zp14 hh
  have hw0 : 0 < W := by rw [hW]; exact zpow_pos (by norm_num) _
  rw [← hW] at t3 t4 l3 l4 hw2
  have hur : (u : ℝ) * |(A : ℝ) * m - 1| ≤ u * (5 / 512) := mul_le_mul_of_nonneg_left hA' hu0.le
  have hrs : |(red : ℝ)| ≤ 1 / 100 := by
    have := abs_sub_abs_le_abs_sub (red : ℝ) ((A : ℝ) * m - 1)
    rw [abs_sub_comm (red : ℝ)] at this; linarith
  have hrsQ : |red| ≤ 1 / 64 := by
    have : ((|red| : ℚ) : ℝ) ≤ ((1 / 64 : ℚ) : ℝ) := by push_cast; linarith
    exact_mod_cast this
  obtain ⟨p1, p2⟩ := poly_err hP hη hrsQ
  have hη0 : 0 ≤ η := (abs_nonneg _).trans (hP.err (1 / 64) (by norm_num) (by norm_num))
  -- rounding errors
  have hkc : k = 0 ∨ 16 * |(k : ℚ) * ll| ≤ |(k : ℚ) * lh| ∧ 16 * |red + red * P red| ≤ |(k : ℚ) * lh| := by
    rcases eq_or_ne k 0 with h0 | h0
    · exact Or.inl h0
    right
    have hk1 : (1 : ℝ) ≤ |(k : ℝ)| := by exact_mod_cast Int.one_le_abs h0
    have q1 : |(k : ℝ) * ll| ≤ |(k : ℝ)| * (1 / 16384) := by
      rw [abs_mul]; exact mul_le_mul_of_nonneg_left (by linarith) (abs_nonneg _)
    have q2 : |(k : ℝ)| * 0.69 ≤ |(k : ℝ) * lh| := by
      rw [abs_mul, abs_of_pos (show (0 : ℝ) < lh by linarith)]; exact mul_le_mul_of_nonneg_left l1.le (abs_nonneg _)
    constructor
    · have : 16 * |(k : ℝ) * ll| ≤ |(k : ℝ) * lh| := by linarith
      exact_mod_cast this
    · have : 16 * |((red + red * P red : ℚ) : ℝ)| ≤ |(k : ℝ) * lh| := by linarith
      exact_mod_cast this
  have hc := combine_err (by omega : 11 ≤ p) hr hu (k := k) (lh := lh) (ll := ll) (tl := tl) rr (hP.rep red) t1 hX hkc
  have hcR : |(combine rnd k lh ll red (P red) th tl : ℝ) - (k * lh + k * ll + ((red + red * P red : ℚ) : ℝ) - th - tl)| ≤
      u * |k * lh + k * ll + ((red + red * P red : ℚ) : ℝ) - th - tl| + 6 * u * (|(k : ℝ) * ll| + |(tl : ℝ)|) +
        40 * u * u * (|(k : ℝ) * lh| + |(th : ℝ)| + |((red + red * P red : ℚ) : ℝ)|) := by exact_mod_cast hc
  generalize (combine rnd k lh ll red (P red) th tl : ℝ) = C at *
  generalize ((red + red * P red : ℚ) : ℝ) = M at *
  -- exact sum against the logarithm
  have b := abs_le.1 hA'
  have b' := abs_le.1 hrs
  have hlip := log_lip (a := 1 + (red : ℝ)) (b := (A : ℝ) * m) (by linarith) (by linarith)
  rw [show 1 + (red : ℝ) - A * m = -(A * m - 1 - red) by ring, abs_neg] at hlip
  generalize Real.log (1 + (red : ℝ)) = g at *
  generalize Real.log ((A : ℝ) * m) = g0 at *
  generalize Real.log 2 = l at *
  have hKn := abs_nonneg (k : ℝ)
  have n1 : |(k : ℝ) * ll| ≤ |(k : ℝ)| * W := by rw [abs_mul]; exact mul_le_mul_of_nonneg_left l3 hKn
  have n2 : |(k : ℝ) * lh| ≤ |(k : ℝ)| * 1 := by
    rw [abs_mul, abs_of_pos (show (0 : ℝ) < lh by linarith)]; exact mul_le_mul_of_nonneg_left (by linarith) hKn
  have n3 : |(k : ℝ) * (lh + ll - l)| ≤ |(k : ℝ)| * (u * W) := by rw [abs_mul]; exact mul_le_mul_of_nonneg_left l4 hKn
  have n4 : |(k : ℝ) * (lh + ll - l) + (M - g) + (g - g0) - (th + tl - v)| ≤
      |(k : ℝ)| * (u * W) + |(red : ℝ)| * η + 16 / 15 * (u * (5 / 512)) + u * W := by
    have a1 := abs_add_le ((k : ℝ) * (lh + ll - l) + (M - g) + (g - g0)) (-(th + tl - v))
    have a2 := abs_add_le ((k : ℝ) * (lh + ll - l) + (M - g)) (g - g0)
    have a3 := abs_add_le ((k : ℝ) * (lh + ll - l)) (M - g)
    rw [abs_neg, ← sub_eq_add_neg] at a1
    linarith
  obtain ⟨S, hS⟩ : ∃ S : ℝ, S = k * lh + k * ll + M - th - tl := ⟨_, rfl⟩
  rw [← hS] at hcR
  obtain ⟨L, hL⟩ : ∃ L : ℝ, L = k * l + g0 - v := ⟨_, rfl⟩
  rw [← hL]
  have hSL : (k : ℝ) * (lh + ll - l) + (M - g) + (g - g0) - (th + tl - v) = S - L := by rw [hS, hL]; ring
  rw [hSL] at n4
  have c1 : |S| ≤ |L| + |S - L| := by have := abs_sub_abs_le_abs_sub S L; linarith
  have c2 : (u : ℝ) * |S| ≤ u * |L| + u * |S - L| := by
    have := mul_le_mul_of_nonneg_left c1 hu0.le; linarith
  have c3 : (u : ℝ) * |S - L| ≤ 1 / 16777216 * |S - L| := mul_le_mul_of_nonneg_right hu2 (abs_nonneg _)
  have c4 := abs_add_le (C - S) (S - L)
  rw [sub_add_sub_cancel] at c4
  -- sizes of the small terms
  have d1 : |(k : ℝ)| * (u * W) ≤ |(k : ℝ)| * (u * (1 / 16384)) :=
    mul_le_mul_of_nonneg_left (mul_le_mul_of_nonneg_left hw2 hu0.le) hKn
  have d2 : (u : ℝ) * W ≤ u * (1 / 16384) := mul_le_mul_of_nonneg_left hw2 hu0.le
  have d3 : |(red : ℝ)| * η ≤ 1 / 100 * η := mul_le_mul_of_nonneg_right hrs hη0
  have d4 : (u : ℝ) * (|(k : ℝ) * ll| + |(tl : ℝ)|) ≤ u * (|(k : ℝ)| * (1 / 16384) + 2 * (1 / 16384)) := by
    refine mul_le_mul_of_nonneg_left ?_ hu0.le
    have : |(k : ℝ)| * W ≤ |(k : ℝ)| * (1 / 16384) := mul_le_mul_of_nonneg_left hw2 hKn
    linarith
  have d5 : (u : ℝ) * u * (|(k : ℝ) * lh| + |(th : ℝ)| + |M|) ≤ u * (1 / 16777216) * (|(k : ℝ)| + 3) := by
    refine mul_le_mul (mul_le_mul_of_nonneg_left hu2 hu0.le) (by linarith) (by positivity) (by positivity)
  have d6 : 0 ≤ (u : ℝ) * |(k : ℝ)| := by positivity
  have d7 : 0 ≤ |(red : ℝ)| * η := by positivity
  have hcast : ((|k| : ℤ) : ℝ) = |(k : ℝ)| := by push_cast; rfl
  rw [hcast]
  nlinarith only [hcR, n4, c2, c3, c4, d1, d2, d3, d4, d5, d6, d7, hu0, hη0]

theorem sig_range {x : ℚ} (hx : 0 < x) : 1 ≤ x * 2 ^ (-Int.log 2 x) ∧ x * 2 ^ (-Int.log 2 x) < 2 := by
  have h1 := Int.zpow_log_le_self (b := 2) (by norm_num) hx
  have h2 := Int.lt_zpow_succ_log_self (b := 2) (by norm_num) x
  push_cast at h1 h2
  generalize Int.log 2 x = e at *
  have hp : (0 : ℚ) < 2 ^ e := zpow_pos (by norm_num) _
  rw [zpow_add_one₀ (by norm_num)] at h2
  rw [zpow_neg, ← div_eq_mul_inv]
  exact ⟨by rwa [le_div_iff₀ hp, one_mul], by rw [div_lt_iff₀ hp]; linarith⟩

/-- The standard path when the conversion of the significand to binary32 keeps its index. -/
theorem reduced_err {p h : ℕ} (hp : 24 ≤ p) (hh : 14 ≤ h) (hhp : h < p) {rnd P : ℚ → ℚ} (hr : Nearest p ⊥ rnd) {η : ℝ} (hP : PolyOk p η P)
    (hη : η ≤ 1 / 64) {x : ℚ} (hx : 0 < x) (hc : Coherent (x * 2 ^ (-Int.log 2 x))) {corr : ℤ}
    (hk : |Int.log 2 x + corr| + 1 ≤ 2 ^ (p - h)) :
    |(reduced p h rnd P x corr : ℝ) - (Real.log x + corr * Real.log 2)| ≤
      2 * (2 : ℝ) ^ (-(p : ℤ)) * |Real.log x + corr * Real.log 2| + 1 / 64 * ((2 : ℝ) ^ (-(p : ℤ)) + η) := by
  obtain ⟨h1, h2⟩ := sig_range hx
  have hlx : Real.log x = Int.log 2 x * Real.log 2 + Real.log ((x * 2 ^ (-Int.log 2 x) : ℚ) : ℝ) := by
    have hx' : (0 : ℝ) < x := by exact_mod_cast hx
    push_cast
    rw [Real.log_mul hx'.ne' (zpow_pos (by norm_num) _).ne', Real.log_zpow]
    push_cast; ring
  rw [hlx]
  unfold reduced
  simp only
  generalize Int.log 2 x = e at *
  generalize x * 2 ^ (-e) = m at *
  obtain ⟨s1, s2⟩ := threshold (p := p) (by omega)
  have h1' : (1 : ℝ) ≤ m := by exact_mod_cast h1
  have h2' : (m : ℝ) < 2 := by exact_mod_cast h2
  obtain ⟨i1, i2, i3⟩ := index_spec h1 h2
  have hred := red_small (by omega : 11 ≤ p) h1 h2 hc
  have hAe := argRed_eq (by omega : 11 ≤ p) h1 h2 hc
  obtain ⟨tho, htho⟩ : ∃ tho, tho = decide (rnReal p (Real.sqrt 2) < m) := ⟨_, rfl⟩
  rw [← htho]
  have hi0 : index m = 0 → tho = false := by
    intro h0
    rw [htho]
    apply decide_eq_false
    intro hlt
    have hlt' : (rnReal p (Real.sqrt 2) : ℝ) < m := by exact_mod_cast hlt
    rw [h0] at i3
    have : (m : ℝ) < 129 / 128 := by have := (Rat.cast_lt (K := ℝ)).2 i3; push_cast at this; linarith
    linarith
  obtain ⟨t1, t2, t3, t4⟩ := tab_err hp hh hhp (tho := tho) i1 hi0
  have hkb : |e + corr + (if tho then 1 else 0)| ≤ 2 ^ (p - h) := by
    refine le_trans (abs_add_le _ _) (le_trans (add_le_add le_rfl ?_) hk)
    cases tho <;> simp
  have main := split_gen hp hh hhp hr hP hη hred hkb t1 t2 t3 t4
  have hA0 : (0 : ℝ) < seedTab (index m) := by
    rcases Nat.eq_zero_or_pos (index m) with h0 | h0
    · rw [h0, show seedTab 0 = 1 from rfl]; norm_num
    · have := (seed_bounds h0 i1).1
      have : (0 : ℚ) < seedTab (index m) := by linarith
      exact_mod_cast this
  have hL : ((e + corr + (if tho then 1 else 0) : ℤ) : ℝ) * Real.log 2 + Real.log ((argRed p m : ℝ) * m) -
      Real.log ((if tho then 2 else 1) * (seedTab (index m) : ℝ)) = e * Real.log 2 + Real.log m + corr * Real.log 2 := by
    rw [hAe, Real.log_mul hA0.ne' (by linarith), Real.log_mul (by cases tho <;> simp) hA0.ne']
    cases tho <;> simp <;> ring
  rw [hL] at main
  have hsmall : |Real.log m - (if tho then 1 else 0) * Real.log 2| ≤ 0.35 := by
    cases hb : tho
    · rw [hb] at htho
      have hn : ¬ rnReal p (Real.sqrt 2) < m := of_decide_eq_false htho.symm
      have hn' : (m : ℝ) ≤ rnReal p (Real.sqrt 2) := by exact_mod_cast not_lt.1 hn
      have := log_sqrt2 h1' (by linarith)
      simp only [Bool.false_eq_true, if_false, zero_mul, sub_zero]
      rw [abs_of_nonneg this.1]; exact this.2
    · rw [hb] at htho
      have hn : rnReal p (Real.sqrt 2) < m := of_decide_eq_true htho.symm
      have hn' : (rnReal p (Real.sqrt 2) : ℝ) < m := by exact_mod_cast hn
      have := log_sqrt2' (m := m) (by linarith) h2'
      simp only [if_true, one_mul]
      rw [abs_sub_comm, abs_of_nonneg this.1]; exact this.2
  have hcastk : ((e + corr + (if tho then 1 else 0) : ℤ) : ℝ) = e + corr + (if tho then 1 else 0) := by cases tho <;> simp
  obtain ⟨K, hK⟩ : ∃ K : ℤ, K = e + corr + (if tho then 1 else 0) := ⟨_, rfl⟩
  rw [← hK] at main hcastk
  obtain ⟨L, hLd⟩ : ∃ L : ℝ, L = e * Real.log 2 + Real.log m + corr * Real.log 2 := ⟨_, rfl⟩
  have hLK : L = K * Real.log 2 + (Real.log m - (if tho then 1 else 0) * Real.log 2) := by rw [hcastk, hLd]; ring
  rw [← hLd] at main ⊢
  have hK3 : |(K : ℝ)| ≤ 3 * |L| := by
    rcases eq_or_ne K 0 with h0 | h0
    · rw [h0]; simp
    have hk1 : (1 : ℝ) ≤ |(K : ℝ)| := by exact_mod_cast Int.one_le_abs h0
    have l1 := Real.log_two_gt_d9
    have a1 := abs_sub_abs_le_abs_sub ((K : ℝ) * Real.log 2) (-(Real.log m - (if tho then 1 else 0) * Real.log 2))
    rw [sub_neg_eq_add, ← hLK, abs_neg, abs_mul, abs_of_pos (show (0 : ℝ) < Real.log 2 by linarith)] at a1
    have a2 : |(K : ℝ)| * 0.693 ≤ |(K : ℝ)| * Real.log 2 := mul_le_mul_of_nonneg_left (by linarith) (abs_nonneg _)
    linarith
  have hsp : split p h rnd P m K tho = combine rnd K (rnReal h (Real.log 2)) (rnReal p (Real.log 2 - rnReal h (Real.log 2)))
      (rnd (argRed p m * m - 1)) (P (rnd (argRed p m * m - 1))) (logTab p h tho (index m)).1 (logTab p h tho (index m)).2 := rfl
  have hKK : e + corr + (if tho = true then 1 else 0) = K := hK.symm
  rw [hKK, hsp]
  refine main.trans ?_
  have hcast : ((|K| : ℤ) : ℝ) = |(K : ℝ)| := by push_cast; rfl
  rw [hcast]
  have hu0 : 0 < (2 : ℝ) ^ (-(p : ℤ)) := zpow_pos (by norm_num) _
  have := mul_le_mul_of_nonneg_left hK3 hu0.le
  have := mul_nonneg hu0.le (abs_nonneg L)
  linarith

end Verif.Log
