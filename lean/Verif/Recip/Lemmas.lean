import Verif.Recip.Model
import Verif.Vhdl.Theorems
import Mathlib.Tactic.Linarith
import Mathlib.Tactic.FieldSimp
import Mathlib.Tactic.NormNum

/-! # The error of the approximation of the reciprocal -/

namespace Verif.Recip

open Verif.Vhdl Verif.Fixed

theorem p2 (k : ℤ) : (0 : ℚ) < (2 : ℚ) ^ k := zpow_pos (by norm_num) k

theorem cut_le (k : ℤ) (x : ℚ) : cut k x ≤ x := by
  unfold cut
  have h := Int.floor_le (x * (2 : ℚ) ^ k)
  have h2 := mul_le_mul_of_nonneg_right h (p2 (-k)).le
  rwa [mul_assoc, ← zpow_add₀ (by norm_num), add_neg_cancel, zpow_zero, mul_one] at h2

theorem lt_cut (k : ℤ) (x : ℚ) : x < cut k x + (2 : ℚ) ^ (-k) := by
  unfold cut
  have h := Int.lt_floor_add_one (x * (2 : ℚ) ^ k)
  have h2 := mul_lt_mul_of_pos_right h (p2 (-k))
  rw [mul_assoc, ← zpow_add₀ (by norm_num), add_neg_cancel, zpow_zero, mul_one] at h2
  linarith

theorem cut_grid (k : ℤ) (x : ℚ) : OnGrid k (cut k x) := ⟨_, rfl⟩

theorem cut_exact {k j : ℤ} (hk : j ≤ k) {x : ℚ} (h : OnGrid j x) : cut k x = x := by
  obtain ⟨n, rfl⟩ := h
  have e : (n : ℚ) * (2 : ℚ) ^ (-j) * (2 : ℚ) ^ k = ((n * 2 ^ (k - j).toNat : ℤ) : ℚ) := by
    push_cast
    rw [mul_assoc, ← zpow_add₀ (by norm_num), ← zpow_natCast, Int.toNat_of_nonneg (by omega)]
    congr 2
    ring
  unfold cut
  rw [e, Int.floor_intCast, ← e, mul_assoc, ← zpow_add₀ (by norm_num), add_neg_cancel, zpow_zero, mul_one]

theorem grid_mul {i j : ℤ} {x y : ℚ} (hx : OnGrid i x) (hy : OnGrid j y) : OnGrid (i + j) (x * y) := by
  obtain ⟨n, rfl⟩ := hx
  obtain ⟨m, rfl⟩ := hy
  refine ⟨n * m, ?_⟩
  rw [neg_add, zpow_add₀ (by norm_num)]
  push_cast
  ring

theorem grid_one_sub {i : ℤ} (hi : 0 ≤ i) {x : ℚ} (hx : OnGrid i x) : OnGrid i (1 - x) := by
  obtain ⟨n, rfl⟩ := hx
  refine ⟨2 ^ i.toNat - n, ?_⟩
  push_cast
  rw [sub_mul, ← zpow_natCast, Int.toNat_of_nonneg hi, ← zpow_add₀ (by norm_num), add_neg_cancel, zpow_zero]

theorem holds_cut (i f : ℤ) (x : ℚ) (h1 : -(2 : ℚ) ^ (i - 1) ≤ cut f x) (h2 : cut f x < (2 : ℚ) ^ (i - 1)) : (fx i f).Holds (cut f x) :=
  ⟨cut_grid f x, by simp only [fx, if_true]; exact ⟨h1, h2⟩⟩

theorem stands_grid {f : Fmt} {v : Vec} {x : ℚ} (h : Stands f v x) : OnGrid f.frac x := ⟨v.num f.signed, h.2.symm⟩

theorem one_stands (f : ℤ) (hf : 0 < f) : Stands (fx 2 f) (one (fx 2 f)) 1 := by
  have e : (2 + f).toNat = f.toNat + 2 := by omega
  have hlt : 2 ^ f.toNat < 2 ^ (f.toNat + 2) := Nat.pow_lt_pow_right (by norm_num) (by omega)
  have hv : (one (fx 2 f)) = ⟨f.toNat + 2, 2 ^ f.toNat⟩ := by simp only [one, fx, e, Nat.mod_eq_of_lt hlt]
  rw [hv]
  refine ⟨⟨?_, by simp, hlt⟩, ?_⟩
  · simp only [fx]; push_cast; omega
  · have h2 : 2 * 2 ^ f.toNat < 2 ^ (f.toNat + 2) := by rw [pow_add]; have := Nat.two_pow_pos f.toNat; omega
    simp only [value, fx, Vec.num, if_true, Vec.sgn, if_pos h2]
    push_cast
    rw [← zpow_natCast, Int.toNat_of_nonneg hf.le, ← zpow_add₀ (by norm_num), add_neg_cancel, zpow_zero]

/-- one iteration computes the rounded operations, when their results fit -/
theorem nr_spec {mF aF uF ei eF tF nF : ℤ} {mv av : Vec} {m a p e t : ℚ} (hm : Stands (fx 2 mF) mv m) (ha : Stands (fx 2 aF) av a)
    (hmF : 0 < mF) (haF : 0 < aF) (huF : 0 < uF) (htF : 0 < tF) (hnF : 0 < nF) (hei : 0 < ei + eF) (hei' : 0 < ei + uF)
    (hea : 0 < eF + aF)
    (hp : p = cut uF (m * a)) (hp1 : -2 ≤ p) (hp2 : p < 2)
    (he : e = cut eF (1 - p)) (he1 : -(2 : ℚ) ^ (ei - 1) ≤ e) (he2 : e < (2 : ℚ) ^ (ei - 1))
    (ht : t = cut tF (e * a)) (ht1 : -2 ≤ t) (ht2 : t < 2)
    (hn1 : -2 ≤ cut nF (a + t)) (hn2 : cut nF (a + t) < 2) :
    ∃ r, nr (fx 2 mF) (fx 2 aF) (fx 2 uF) (fx ei eF) (fx 2 tF) (fx 2 nF) mv av = some r ∧ Stands (fx 2 nF) r (cut nF (a + t)) := by
  have two : (2 : ℚ) ^ ((2 : ℤ) - 1) = 2 := by norm_num
  obtain ⟨r1, a1, s1⟩ := C116_mul_partial (fx 2 mF) (fx 2 aF) (fx 2 uF) mv av hm.1 ha.1 (by simp only [fx]; omega) (by simp only [fx]; omega)
    (Or.inr (Or.inr (Or.inl rfl))) (by
      rw [hm.2, ha.2]
      exact holds_cut 2 uF _ (by rw [two]; change -2 ≤ cut uF (m * a); rw [← hp]; exact hp1) (by rw [two, ← hp]; exact hp2))
  rw [hm.2, ha.2] at s1
  replace s1 : Stands (fx 2 uF) r1 p := by rw [hp]; exact s1
  have o1 := one_stands uF huF
  obtain ⟨r2, a2, s2⟩ := C116_addsub_partial true (fx 2 uF) (fx 2 uF) (fx ei eF) (one (fx 2 uF)) r1 o1.1 s1.1 (by simp only [fx]; omega)
    (by simp only [fx, max_self]; omega) (Or.inr (Or.inr (Or.inl ⟨rfl, rfl⟩))) (by
      rw [o1.2, s1.2, pm, if_pos rfl]
      exact holds_cut ei eF _ (by rw [← he]; exact he1) (by rw [← he]; exact he2))
  rw [o1.2, s1.2, pm, if_pos rfl] at s2
  replace s2 : Stands (fx ei eF) r2 e := by rw [he]; exact s2
  obtain ⟨r3, a3, s3⟩ := C116_mul_partial (fx ei eF) (fx 2 aF) (fx 2 tF) r2 av s2.1 ha.1 (by simp only [fx]; omega) (by simp only [fx]; omega)
    (Or.inr (Or.inr (Or.inl rfl))) (by
      rw [s2.2, ha.2]
      exact holds_cut 2 tF _ (by rw [two]; change -2 ≤ cut tF (e * a); rw [← ht]; exact ht1) (by rw [two, ← ht]; exact ht2))
  rw [s2.2, ha.2] at s3
  replace s3 : Stands (fx 2 tF) r3 t := by rw [ht]; exact s3
  obtain ⟨r4, a4, s4⟩ := C116_addsub_partial false (fx 2 aF) (fx 2 tF) (fx 2 nF) av r3 ha.1 s3.1 (by simp only [fx]; omega)
    (by simp only [fx]; have := le_max_left aF tF; omega) (Or.inr (Or.inr (Or.inl ⟨rfl, rfl⟩))) (by
      rw [ha.2, s3.2, pm, if_neg (by decide)]
      exact holds_cut 2 nF _ (by rw [two]; exact hn1) (by rw [two]; exact hn2))
  rw [ha.2, s3.2, pm, if_neg (by decide)] at s4
  refine ⟨r4, ?_, s4⟩
  unfold nr
  rw [a1, Option.bind_some, a2, Option.bind_some, a3, Option.bind_some, a4]

/-! ## The four iterations -/

/-- first iteration -/
theorem step1 {m8 a0 p e t a1 : ℚ} (hm1 : 1 ≤ m8) (hm2 : m8 < 2) (ha : |a0 * m8 - 1| ≤ m8 / 256) (hg : p = m8 * a0)
    (he : e = 1 - p) (ht : t = cut 24 (e * a0)) (h1 : a1 = cut 16 (a0 + t)) :
    -2 ≤ p ∧ p < 2 ∧ -(2 : ℚ) ^ ((-3 : ℤ) - 1) ≤ e ∧ e < (2 : ℚ) ^ ((-3 : ℤ) - 1) ∧ -2 ≤ t ∧ t < 2 ∧ -2 ≤ a1 ∧ a1 < 2 ∧
      1 - 1 / 2 ^ 13 < m8 * a1 ∧ m8 * a1 ≤ 1 := by
  have t1 := cut_le 24 (e * a0)
  have t2 := lt_cut 24 (e * a0)
  have c1 := cut_le 16 (a0 + t)
  have c2 := lt_cut 16 (a0 + t)
  rw [← ht] at t1 t2
  rw [← h1] at c1 c2
  norm_num at t2 c2
  have hA := abs_le.1 ha
  have ha0 : 0 < a0 := by nlinarith
  have ha1 : a0 ≤ 257 / 256 := by nlinarith
  have e1 : -(1 / 128) ≤ e := by rw [he, hg]; nlinarith
  have e2 : e ≤ 1 / 128 := by rw [he, hg]; nlinarith
  have ee : e * e ≤ 1 / 2 ^ 14 := by nlinarith
  have k1 : m8 * (a0 + e * a0) = 1 - e * e := by rw [he, hg]; ring
  have ea1 : e * a0 ≤ 1 / 64 := by nlinarith
  have ea2 : -(1 / 64) ≤ e * a0 := by nlinarith
  have l1 : m8 * a1 ≤ 1 - e * e := by rw [← k1]; exact mul_le_mul_of_nonneg_left (by linarith) (by linarith)
  have l2 : m8 * (a0 + e * a0 - a1) ≤ m8 * (1 / 65536 + 1 / 16777216) := mul_le_mul_of_nonneg_left (by linarith) (by linarith)
  refine ⟨by nlinarith, by nlinarith, by norm_num; linarith, by norm_num; linarith, by linarith, by linarith, by linarith, by linarith, ?_, by nlinarith⟩
  nlinarith

/-- second iteration -/
theorem step2 {m8 m16 m a1 p e t a2 : ℚ} (hm1 : 1 ≤ m8) (hm : m8 ≤ m16) (hm' : m16 < m8 + 1 / 256) (hm2 : m16 < 2) (hmm : m16 ≤ m) (hmm' : m < m16 + 1 / 2 ^ 16)
    (h1 : 1 - 1 / 2 ^ 13 < m8 * a1) (h2 : m8 * a1 ≤ 1) (hp : p = cut 24 (m16 * a1))
    (he : e = 1 - p) (ht : t = cut 24 (e * a1)) (h3 : a2 = a1 + t) :
    -2 ≤ p ∧ p < 2 ∧ -(2 : ℚ) ^ ((-6 : ℤ) - 1) ≤ e ∧ e < (2 : ℚ) ^ ((-6 : ℤ) - 1) ∧ -2 ≤ t ∧ t < 2 ∧ -2 ≤ a2 ∧ a2 < 2 ∧
      -(5 / 2 ^ 18) ≤ 1 - m * a2 ∧ 1 - m * a2 ≤ 5 / 2 ^ 18 ∧ 0 < a2 ∧ a2 ≤ 1 + 1 / 2 ^ 10 := by
  have p1 := cut_le 24 (m16 * a1)
  have p2 := lt_cut 24 (m16 * a1)
  have t1 := cut_le 24 (e * a1)
  have t2 := lt_cut 24 (e * a1)
  rw [← hp] at p1 p2
  rw [← ht] at t1 t2
  norm_num at p2 t2
  have ha0 : 0 < a1 := by
    by_contra hc
    have : m8 * a1 ≤ 0 := mul_nonpos_of_nonneg_of_nonpos (by linarith) (by linarith)
    norm_num at h1
    linarith
  have ha1 : a1 ≤ 1 := by nlinarith
  obtain ⟨d, hd⟩ : ∃ d, d = 1 - m16 * a1 := ⟨_, rfl⟩
  have d1 : -(1 / 256) ≤ d := by
    have : (m16 - m8) * a1 ≤ 1 / 256 * 1 := mul_le_mul (by linarith) ha1 ha0.le (by norm_num)
    rw [hd]; nlinarith
  have d2 : d ≤ 1 / 2 ^ 13 := by
    have : 0 ≤ (m16 - m8) * a1 := mul_nonneg (by linarith) ha0.le
    rw [hd]; nlinarith
  have dd : d * d ≤ 1 / 2 ^ 16 := by norm_num at d2 ⊢; nlinarith
  have e1 : d ≤ e := by rw [hd, he]; linarith
  have e2 : e ≤ d + 1 / 16777216 := by rw [hd, he]; linarith
  have k1 : m16 * (a1 + d * a1) = 1 - d * d := by rw [hd]; ring
  have ea1 : d * a1 ≤ e * a1 := mul_le_mul_of_nonneg_right e1 ha0.le
  have ea2 : e * a1 ≤ d * a1 + 1 / 16777216 := by nlinarith
  have l1 : m16 * a2 ≤ 1 - d * d + m16 * (1 / 16777216) := by
    rw [← k1, ← mul_add]; exact mul_le_mul_of_nonneg_left (by linarith) (by linarith)
  have l2 : 1 - d * d - m16 * (1 / 16777216) ≤ m16 * a2 := by
    rw [← k1, ← mul_sub]; exact mul_le_mul_of_nonneg_left (by linarith) (by linarith)
  norm_num at d2 dd
  have da1 : -(1 / 256) ≤ d * a1 := by nlinarith
  have da2 : d * a1 ≤ 1 / 8192 := by nlinarith
  have ha2 : 0 < a2 := by
    by_contra hc
    have : m16 * a2 ≤ 0 := mul_nonpos_of_nonneg_of_nonpos (by linarith) (by linarith)
    nlinarith
  have ha2' : a2 ≤ 1 + 1 / 2 ^ 10 := by norm_num; linarith
  have q1 : 0 ≤ (m - m16) * a2 := mul_nonneg (by linarith) ha2.le
  have q2 : (m - m16) * a2 ≤ 1 / 2 ^ 16 * (1 + 1 / 2 ^ 10) := mul_le_mul (by linarith) ha2' ha2.le (by norm_num)
  have q3 := mul_self_nonneg d
  norm_num at q2
  refine ⟨by linarith, by linarith, by norm_num; linarith, by norm_num; linarith, by linarith, by linarith, by linarith, by linarith, ?_, ?_, ha2, ha2'⟩
  · norm_num; nlinarith
  · norm_num; nlinarith

/-- third iteration -/
theorem step3 {m a2 p e t a3 : ℚ} (hm1 : 1 ≤ m) (hm2 : m < 2) (h1 : -(5 / 2 ^ 18) ≤ 1 - m * a2) (h2 : 1 - m * a2 ≤ 5 / 2 ^ 18) (ha0 : 0 < a2)
    (ha1 : a2 ≤ 1 + 1 / 2 ^ 10) (hp : p = m * a2)
    (he : e = cut 39 (1 - p)) (ht : t = cut 39 (e * a2)) (h3 : a3 = cut 24 (a2 + t)) :
    -2 ≤ p ∧ p < 2 ∧ -(2 : ℚ) ^ ((-12 : ℤ) - 1) ≤ e ∧ e < (2 : ℚ) ^ ((-12 : ℤ) - 1) ∧ -2 ≤ t ∧ t < 2 ∧ -2 ≤ a3 ∧ a3 < 2 ∧
      0 ≤ 1 - m * a3 ∧ 1 - m * a3 ≤ m * (1 / 2 ^ 24 + 1 / 2 ^ 31) := by
  have e1 := cut_le 39 (1 - p)
  have e2 := lt_cut 39 (1 - p)
  have t1 := cut_le 39 (e * a2)
  have t2 := lt_cut 39 (e * a2)
  have c1 := cut_le 24 (a2 + t)
  have c2 := lt_cut 24 (a2 + t)
  rw [← he] at e1 e2
  rw [← ht] at t1 t2
  rw [← h3] at c1 c2
  obtain ⟨d, hd⟩ : ∃ d, d = 1 - m * a2 := ⟨_, rfl⟩
  rw [hp, ← hd] at e1 e2
  rw [← hd] at h1 h2
  norm_num at e2 t2 c2 h1 h2 ha1
  have dd : d * d ≤ 25 / 2 ^ 36 := by norm_num; nlinarith
  have d0 := mul_self_nonneg d
  have k1 : m * (a2 + d * a2) = 1 - d * d := by rw [hd]; ring
  have ea1 : e * a2 ≤ d * a2 := mul_le_mul_of_nonneg_right e1 ha0.le
  have ea2 : d * a2 - 1 / 2 ^ 38 ≤ e * a2 := by
    have : (d - e) * a2 ≤ 1 / 549755813888 * (1025 / 1024) := mul_le_mul (by linarith) (by linarith) ha0.le (by norm_num)
    norm_num at this ⊢
    linarith
  have l1 : m * a3 ≤ 1 - d * d := by rw [← k1]; exact mul_le_mul_of_nonneg_left (by linarith) (by linarith)
  have l2 : m * (a2 + d * a2 - a3) ≤ m * (1 / 2 ^ 24 + 1 / 2 ^ 37) := mul_le_mul_of_nonneg_left (by norm_num at ea2 ⊢; linarith) (by linarith)
  have da1 : d * a2 ≤ 1 / 1024 := by nlinarith
  have da2 : -(1 / 1024) ≤ d * a2 := by nlinarith
  norm_num at ea2 dd l2
  refine ⟨by rw [hp]; linarith, by rw [hp]; linarith, by norm_num; linarith, by norm_num; linarith, by linarith, by linarith, by linarith, by linarith, by linarith, ?_⟩
  norm_num
  nlinarith

/-- last iteration -/
theorem step4 {m a3 p e t r : ℚ} (hm1 : 1 ≤ m) (hm2 : m < 2) (h1 : 0 ≤ 1 - m * a3) (h2 : 1 - m * a3 ≤ m * (1 / 2 ^ 24 + 1 / 2 ^ 31)) (hp : p = m * a3)
    (he : e = 1 - p) (ht : t = cut 48 (e * a3)) (h3 : r = a3 + t) :
    -2 ≤ p ∧ p < 2 ∧ -(2 : ℚ) ^ ((-19 : ℤ) - 1) ≤ e ∧ e < (2 : ℚ) ^ ((-19 : ℤ) - 1) ∧ -2 ≤ t ∧ t < 2 ∧ -2 ≤ r ∧ r < 2 ∧
      m * r ≤ 1 ∧ 1 < m * (r + 4 / 2 ^ 48) := by
  have t1 := cut_le 48 (e * a3)
  have t2 := lt_cut 48 (e * a3)
  rw [← ht] at t1 t2
  rw [← hp, ← he] at h1 h2
  norm_num at t2 h2
  have h2' : e ≤ 1 / 2 ^ 22 := by norm_num; nlinarith
  norm_num at h2'
  have k1 : m * (a3 + e * a3) = 1 - e * e := by rw [he, hp]; ring
  have ha0 : 0 < a3 := by
    by_contra hc
    have : m * a3 ≤ 0 := mul_nonpos_of_nonneg_of_nonpos (by linarith) (by linarith)
    rw [he, hp] at h2'
    linarith
  have ha1 : a3 ≤ 1 := by
    rw [he, hp] at h1
    nlinarith
  have ea1 : 0 ≤ e * a3 := mul_nonneg h1 ha0.le
  have ea2 : e * a3 ≤ 1 / 1024 := by nlinarith
  have l1 : m * r ≤ 1 - e * e := by rw [← k1]; exact mul_le_mul_of_nonneg_left (by linarith) (by linarith)
  have l2 : m * (a3 + e * a3 - r) ≤ m * (1 / 281474976710656) := mul_le_mul_of_nonneg_left (by linarith) (by linarith)
  have ee : e * e ≤ m * (5 / 2 * (1 / 281474976710656)) := by
    have : e * e ≤ (m * (129 / 2147483648)) * (m * (129 / 2147483648)) := mul_self_le_mul_self h1 (by linarith)
    nlinarith
  refine ⟨by linarith, by linarith, by norm_num; linarith, by norm_num; linarith, by linarith, by linarith, by linarith, by linarith, by nlinarith, ?_⟩
  norm_num
  nlinarith

end Verif.Recip
