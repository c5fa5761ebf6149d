import Verif.Log.Model
import Verif.Blocks.Bounds

/-! Rounding errors of the reconstruction of the logarithm. -/

namespace Verif.Log

open Verif.Blocks

theorem fast_rep {p : ℕ} {rnd : ℚ → ℚ} (hr : Nearest p ⊥ rnd) (a b : ℚ) :
    Rep p ⊥ (fastTwoSum rnd a b).1 ∧ Rep p ⊥ (fastTwoSum rnd a b).2 := ⟨(hr _).1, (hr _).1⟩

theorem two_rep {p : ℕ} {rnd : ℚ → ℚ} (hr : Nearest p ⊥ rnd) (a b : ℚ) :
    Rep p ⊥ (twoSum rnd a b).1 ∧ Rep p ⊥ (twoSum rnd a b).2 := ⟨(hr _).1, (hr _).1⟩

/-- head of the sum of two pairs, whatever cancels -/
theorem head222 {p : ℕ} (hp : 11 ≤ p) {rnd : ℚ → ℚ} (hr : Nearest p ⊥ rnd) {u : ℚ} (hu : u = (2 : ℚ) ^ (-(p : ℤ))) (hu1 : u ≤ 1 / 2048)
    {xh xl yh yl : ℚ} (h1 : Rep p ⊥ xh) (h2 : Rep p ⊥ yh) :
    ∃ w, (add222 rnd xh xl yh yl).1 = rnd w ∧
      |w - (xh + xl + (yh + yl))| ≤ u * (5 / 2 * |xl + yl| + 2 * u * |xh + yh|) ∧
      (2 * |xl + yl| ≤ |xh + yh| → (add222 rnd xh xl yh yl).1 + (add222 rnd xh xl yh yl).2 = w) := by
  have hp1 : 1 ≤ p := by omega
  have hu0 : 0 < u := hu ▸ zpow2_pos _
  obtain ⟨a1, a2, a3⟩ := C46_twosum (by omega : 3 ≤ p) hr h1 h2
  have b1 := (rnd_rel hp1 hr (xh + yh)).1
  have b2 := (rnd_rel hp1 hr (xl + yl)).1
  have b3 := (rnd_rel hp1 hr ((twoSum rnd xh yh).2 + rnd (xl + yl))).1
  rw [← hu] at b1 b2 b3
  rw [← a1] at b1
  have hE : add222 rnd xh xl yh yl = fastTwoSum rnd (twoSum rnd xh yh).1 (rnd ((twoSum rnd xh yh).2 + rnd (xl + yl))) := rfl
  rw [hE]
  generalize hv1 : (twoSum rnd xh yh).1 = v1 at *
  generalize hv2 : (twoSum rnd xh yh).2 = v2 at *
  generalize hv3 : rnd (xl + yl) = v3 at *
  generalize hv4 : rnd (v2 + v3) = v4 at *
  have hv2a : |v2| ≤ u * |xh + yh| := by rwa [show xh + yh - v1 = v2 by linarith] at b1
  have hv3a : |v3| ≤ (1 + u) * |xl + yl| := by
    have := abs_sub_abs_le_abs_sub v3 (xl + yl)
    rw [abs_sub_comm] at this; linarith
  have hs : |v2 + v3| ≤ |v2| + |v3| := abs_add_le _ _
  have A := abs_nonneg (xl + yl)
  have B := abs_nonneg (xh + yh)
  refine ⟨v1 + v4, rfl, ?_, ?_⟩
  · have e : v1 + v4 - (xh + xl + (yh + yl)) = (v4 - (v2 + v3)) + (v3 - (xl + yl)) := by linarith
    rw [e]
    have := abs_add_le (v4 - (v2 + v3)) (v3 - (xl + yl))
    rw [abs_sub_comm] at b2 b3
    have c1 : u * |v2 + v3| ≤ u * (u * |xh + yh| + (1 + u) * |xl + yl|) := mul_le_mul_of_nonneg_left (by linarith) hu0.le
    have c2 : u * (u * |xl + yl|) ≤ u * (1 / 2 * |xl + yl|) :=
      mul_le_mul_of_nonneg_left (mul_le_mul_of_nonneg_right (by linarith) A) hu0.le
    have c3 : 0 ≤ u * (u * |xh + yh|) := by positivity
    linarith
  · intro hle
    have hv4a : |v4| ≤ (1 + u) * |v2 + v3| := by
      have := abs_sub_abs_le_abs_sub v4 (v2 + v3)
      rw [abs_sub_comm] at this; linarith
    have hv1a : (1 - u) * |xh + yh| ≤ |v1| := by
      have := abs_sub_abs_le_abs_sub (xh + yh) v1
      rw [show xh + yh - v1 = v2 by linarith] at this; linarith
    refine (C46_fasttwosum hp1 hr (hv1 ▸ (two_rep hr _ _).1) (hv4 ▸ (hr _).1) (Or.inl ?_)).2.2
    have c1 : u * |xh + yh| ≤ 1 / 2048 * |xh + yh| := mul_le_mul_of_nonneg_right hu1 B
    have c2 : u * |xl + yl| ≤ 1 / 2048 * |xl + yl| := mul_le_mul_of_nonneg_right hu1 A
    have c3 : |v2 + v3| ≤ 3 / 4 * |xh + yh| := by linarith
    have c4 : u * |v2 + v3| ≤ 1 / 2048 * |v2 + v3| := mul_le_mul_of_nonneg_right hu1 (abs_nonneg _)
    linarith

/-- the product and the sum of the first two terms of the logarithm of the reduced argument -/
theorem first_terms {p : ℕ} (hp : 11 ≤ p) {rnd : ℚ → ℚ} (hr : Nearest p ⊥ rnd) {u : ℚ} (hu : u = (2 : ℚ) ^ (-(p : ℤ))) (hu1 : u ≤ 1 / 2048)
    {red P : ℚ} (h1 : Rep p ⊥ red) (h2 : Rep p ⊥ P) :
    ∃ a b, add212 rnd red (mul211 rnd red P).1 (mul211 rnd red P).2 = (a, b) ∧ Rep p ⊥ a ∧ Rep p ⊥ b ∧ rnd (a + b) = a ∧
      |a + b - (red + red * P)| ≤ 8 * u * u * |red + red * P| ∧ |b| ≤ 2 * u * |red + red * P| ∧ |a| ≤ 2 * |red + red * P| := by
  have hp1 : 1 ≤ p := by omega
  have hu0 : 0 < u := hu ▸ zpow2_pos _
  obtain ⟨c1, c2⟩ := C65_fma2111_partial (by omega : 3 ≤ p) hr h1 h2 h1
  have hE : mpFma2111 rnd red P red = add212 rnd red (mul211 rnd red P).1 (mul211 rnd red P).2 := rfl
  rw [hE] at c1 c2
  have hR := fast_rep hr (twoSum rnd red (mul211 rnd red P).1).1 (rnd ((twoSum rnd red (mul211 rnd red P).1).2 + (mul211 rnd red P).2))
  have hF : fastTwoSum rnd (twoSum rnd red (mul211 rnd red P).1).1 (rnd ((twoSum rnd red (mul211 rnd red P).1).2 + (mul211 rnd red P).2)) =
    add212 rnd red (mul211 rnd red P).1 (mul211 rnd red P).2 := rfl
  rw [hF] at hR
  generalize hab : add212 rnd red (mul211 rnd red P).1 (mul211 rnd red P).2 = ab at *
  obtain ⟨a, b⟩ := ab
  have hl : localAdd221 p = 8 * (u * u) := by
    unfold localAdd221
    rw [hu, ← zpow_add₀ (by norm_num : (2 : ℚ) ≠ 0), show -((p : ℤ) * 2 - 3) = 3 + (-(p : ℤ) + -(p : ℤ)) by ring,
      zpow_add₀ (by norm_num : (2 : ℚ) ≠ 0)]
    norm_num
  unfold Approx at c1
  rw [hl, show red * P + red = red + red * P by ring] at c1
  simp only at c1 c2 hR
  generalize red + red * P = M at *
  have hM := abs_nonneg M
  have hsq : u * u * |M| ≤ 1 / 2048 * 1 / 2048 * |M| := by
    refine mul_le_mul_of_nonneg_right ?_ hM
    have := mul_le_mul hu1 hu1 hu0.le (by norm_num); linarith
  have hab1 : |a + b| ≤ 9 / 8 * |M| := by
    have := abs_sub_abs_le_abs_sub (a + b) M
    linarith
  have hb : |b| ≤ u * |a + b| := by
    have := (rnd_rel hp1 hr (a + b)).1
    rw [c2, ← hu] at this
    rwa [show a + b - a = b by ring] at this
  have hb' : u * |a + b| ≤ u * (9 / 8 * |M|) := mul_le_mul_of_nonneg_left hab1 hu0.le
  have hb2 : u * |M| ≤ 1 / 2048 * |M| := mul_le_mul_of_nonneg_right hu1 hM
  have hb3 : 0 ≤ u * |M| := by positivity
  refine ⟨a, b, rfl, hR.1, hR.2, c2, by linarith, by linarith, ?_⟩
  have := abs_sub_abs_le_abs_sub a (-b)
  rw [abs_neg, sub_neg_eq_add] at this
  linarith

/-- rounding errors of the reconstruction -/
theorem combine_err {p : ℕ} (hp : 11 ≤ p) {rnd : ℚ → ℚ} (hr : Nearest p ⊥ rnd) {u : ℚ} (hu : u = (2 : ℚ) ^ (-(p : ℤ)))
    {k : ℤ} {lh ll red P th tl : ℚ} (h1 : Rep p ⊥ red) (h2 : Rep p ⊥ P) (h3 : Rep p ⊥ th) (h5 : Rep p ⊥ (k * lh))
    (hk : k = 0 ∨ 16 * |k * ll| ≤ |k * lh| ∧ 16 * |red + red * P| ≤ |k * lh|) :
    |combine rnd k lh ll red P th tl - (k * lh + k * ll + (red + red * P) - th - tl)| ≤
      u * |k * lh + k * ll + (red + red * P) - th - tl| + 6 * u * (|k * ll| + |tl|) +
        40 * u * u * (|k * lh| + |th| + |red + red * P|) := by
  have hp1 : 1 ≤ p := by omega
  have hu0 : 0 < u := hu ▸ zpow2_pos _
  have hu1 : u ≤ 1 / 2048 := by
    rw [hu, zpow_neg, zpow_natCast, ← one_div]
    apply one_div_le_one_div_of_le (by norm_num)
    calc (2048 : ℚ) = 2 ^ 11 := by norm_num
      _ ≤ 2 ^ p := pow_le_pow_right₀ (by norm_num) hp
  obtain ⟨a, b, hab, ra, rb, hn, e1, e2, e3⟩ := first_terms hp hr hu hu1 h1 h2
  have hM := abs_nonneg (red + red * P)
  have hX := abs_nonneg (k * lh)
  have hL := abs_nonneg (k * ll)
  have hth := abs_nonneg th
  have htl := abs_nonneg tl
  -- first sum: a pair of value `w` whose head is its rounding
  have key : ∃ w rh rl, add222 rnd (rnd (k * lh)) (rnd (k * ll)) a b = (rh, rl) ∧ rh = rnd w ∧ rh + rl = w ∧
      |w - (k * lh + k * ll + (red + red * P))| ≤ 4 * u * |k * ll| + u * u * (2 * |k * lh| + 18 * |red + red * P|) ∧
      |w| ≤ 2 * (|k * lh| + |red + red * P|) := by
    have hsq : u * u * |red + red * P| ≤ 1 / 2048 * 1 / 2048 * |red + red * P| := by
      refine mul_le_mul_of_nonneg_right ?_ hM
      have := mul_le_mul hu1 hu1 hu0.le (by norm_num); linarith
    rcases hk with rfl | ⟨hk1, hk2⟩
    · have z : rnd 0 = 0 := rnd_exact hr (Rep_zero p ⊥)
      have q1 := C46_twosum (by omega : 3 ≤ p) hr (Rep_zero p ⊥) ra
      have q2 : (twoSum rnd 0 a).1 = a := by rw [q1.1, zero_add, rnd_exact hr ra]
      have q3 : (twoSum rnd 0 a).2 = 0 := by have := q1.2.2; rw [q2] at this; linarith
      have hE : add222 rnd (rnd ((0 : ℤ) * lh)) (rnd ((0 : ℤ) * ll)) a b = fastTwoSum rnd a b := by
        rw [Int.cast_zero, zero_mul, zero_mul, z]
        show fastTwoSum rnd (twoSum rnd 0 a).1 (rnd ((twoSum rnd 0 a).2 + rnd (0 + b))) = _
        rw [q2, q3, zero_add, zero_add, rnd_exact hr rb, rnd_exact hr rb]
      have hle : |b| ≤ |a| ∨ a = 0 := by
        by_cases ha : a = 0
        · exact Or.inr ha
        · left
          have := (rnd_rel hp1 hr (a + b)).2
          rw [hn, ← hu, show a + b - a = b by ring] at this
          have h' : u * |a| ≤ 1 / 2048 * |a| := mul_le_mul_of_nonneg_right hu1 (abs_nonneg _)
          have := abs_nonneg a; linarith
      obtain ⟨f1, -, f3⟩ := C46_fasttwosum hp1 hr ra rb hle
      refine ⟨a + b, _, _, hE.trans rfl, f1, f3, ?_, ?_⟩
      · rw [Int.cast_zero, zero_mul, zero_mul, zero_add, zero_add, abs_zero]
        have : 0 ≤ u * u * |red + red * P| := by positivity
        linarith
      · have := abs_sub_abs_le_abs_sub (a + b) (red + red * P)
        linarith
    · rw [rnd_exact hr h5]
      obtain ⟨w, w1, w2, w3⟩ := head222 hp hr hu hu1 (xl := rnd (k * ll)) (yl := b) h5 ra
      have hY := (rnd_rel hp1 hr (k * ll)).1
      rw [← hu] at hY
      generalize rnd (k * ll) = Y at *
      have hYa : |Y| ≤ |k * ll| + u * |k * ll| := by
        have := abs_sub_abs_le_abs_sub Y (k * ll)
        rw [abs_sub_comm] at this; linarith
      have g1 : |Y + b| ≤ |Y| + |b| := abs_add_le _ _
      have g2 : |k * lh + a| ≤ |k * lh| + |a| := abs_add_le _ _
      have g3 : |k * lh| - |a| ≤ |k * lh + a| := by
        have := abs_sub_abs_le_abs_sub (k * lh) (-a)
        rwa [abs_neg, sub_neg_eq_add] at this
      have g4 : u * |k * ll| ≤ 1 / 2048 * |k * ll| := mul_le_mul_of_nonneg_right hu1 hL
      have g5 : u * |red + red * P| ≤ 1 / 2048 * |red + red * P| := mul_le_mul_of_nonneg_right hu1 hM
      have h2' : 2 * |Y + b| ≤ |k * lh + a| := by linarith
      refine ⟨w, _, _, rfl, w1, w3 h2', ?_, ?_⟩
      · have hb := abs_add_le (w - (k * lh + Y + (a + b))) ((Y - k * ll) + (a + b - (red + red * P)))
        have hb' := abs_add_le (Y - k * ll) (a + b - (red + red * P))
        rw [abs_sub_comm] at hY
        rw [show w - (k * lh + Y + (a + b)) + ((Y - k * ll) + (a + b - (red + red * P))) =
          w - (k * lh + k * ll + (red + red * P)) by ring] at hb
        have m1 : u * |Y + b| ≤ u * (|k * ll| + 1 / 2048 * |k * ll| + 2 * u * |red + red * P|) :=
          mul_le_mul_of_nonneg_left (by linarith) hu0.le
        have m2 : u * u * |k * lh + a| ≤ u * u * (|k * lh| + 2 * |red + red * P|) :=
          mul_le_mul_of_nonneg_left (by linarith) (by positivity)
        have m3 : 0 ≤ u * |k * ll| := by positivity
        have m4 : 0 ≤ u * u * |red + red * P| := by positivity
        linarith
      · have hb := abs_sub_abs_le_abs_sub w (k * lh + Y + (a + b))
        have g6 : |k * lh + Y + (a + b)| ≤ |k * lh| + |Y| + |a + b| := by
          have := abs_add_le (k * lh + Y) (a + b)
          have := abs_add_le (k * lh) Y
          linarith
        have g7 : |a + b| ≤ 9 / 8 * |red + red * P| := by
          have := abs_sub_abs_le_abs_sub (a + b) (red + red * P)
          linarith
        have m1 : u * |Y + b| ≤ 1 / 2048 * (|Y| + |b|) :=
          (mul_le_mul_of_nonneg_left g1 hu0.le).trans (mul_le_mul_of_nonneg_right hu1 (by positivity))
        have m2 : u * u * |k * lh + a| ≤ 1 / 2048 * (|k * lh| + |a|) := by
          refine mul_le_mul (by nlinarith) g2 (abs_nonneg _) (by norm_num)
        linarith
  obtain ⟨w, rh, rl, hE, hrh, hrl, k1, k2⟩ := key
  have hC : combine rnd k lh ll red P th tl = (add222 rnd (-th) (-tl) rh rl).1 := by
    unfold combine
    simp only
    rw [hab]
    simp only
    rw [hE]
  rw [hC]
  obtain ⟨z, z1, z2, -⟩ := head222 hp hr hu hu1 (xl := -tl) (yl := rl) (Rep_neg h3) (hrh ▸ (hr _).1 : Rep p ⊥ rh)
  rw [z1]
  have r1 := (rnd_rel hp1 hr w).1
  rw [← hu, ← hrh, show w - rh = rl by linarith] at r1
  have hW : u * |w| ≤ u * (2 * (|k * lh| + |red + red * P|)) := mul_le_mul_of_nonneg_left k2 hu0.le
  have hWs : u * |w| ≤ 1 / 2048 * |w| := mul_le_mul_of_nonneg_right hu1 (abs_nonneg _)
  have r2 : |rh| ≤ 3 * (|k * lh| + |red + red * P|) := by
    have := abs_sub_abs_le_abs_sub rh (-rl)
    rw [abs_neg, sub_neg_eq_add, hrl] at this
    linarith
  have r3 : |-tl + rl| ≤ |tl| + |rl| := (abs_add_le _ _).trans (by rw [abs_neg])
  have r4 : |-th + rh| ≤ |th| + |rh| := (abs_add_le _ _).trans (by rw [abs_neg])
  have s1 : u * |-tl + rl| ≤ u * (|tl| + u * (2 * (|k * lh| + |red + red * P|))) := mul_le_mul_of_nonneg_left (by linarith) hu0.le
  have s2 : u * u * |-th + rh| ≤ u * u * (|th| + 3 * (|k * lh| + |red + red * P|)) := mul_le_mul_of_nonneg_left (by linarith) (by positivity)
  have hz : |z - (k * lh + k * ll + (red + red * P) - th - tl)| ≤
      4 * u * |k * ll| + 5 / 2 * u * |tl| + u * u * (13 * |k * lh| + 29 * |red + red * P| + 2 * |th|) := by
    have := abs_add_le (z - (-th + -tl + (rh + rl))) (w - (k * lh + k * ll + (red + red * P)))
    rw [show z - (-th + -tl + (rh + rl)) + (w - (k * lh + k * ll + (red + red * P))) =
      z - (k * lh + k * ll + (red + red * P) - th - tl) by rw [← hrl]; ring] at this
    linarith
  generalize k * lh + k * ll + (red + red * P) - th - tl = S at *
  have f1 := (rnd_rel hp1 hr z).1
  rw [← hu] at f1
  have f2 : |z| ≤ |S| + |z - S| := by
    have := abs_sub_abs_le_abs_sub z S; linarith
  have f3 : u * |z| ≤ u * |S| + u * |z - S| := by
    have := mul_le_mul_of_nonneg_left f2 hu0.le; linarith
  have f4 : u * |z - S| ≤ 1 / 2048 * |z - S| := mul_le_mul_of_nonneg_right hu1 (abs_nonneg _)
  have f5 := abs_add_le (rnd z - z) (z - S)
  rw [sub_add_sub_cancel, abs_sub_comm (rnd z) z] at f5
  have p1 : 0 ≤ u * |k * ll| := by positivity
  have p2 : 0 ≤ u * |tl| := by positivity
  have p3 : 0 ≤ u * u * |k * lh| := by positivity
  have p4 : 0 ≤ u * u * |red + red * P| := by positivity
  have p5 : 0 ≤ u * u * |th| := by positivity
  linarith

end Verif.Log
