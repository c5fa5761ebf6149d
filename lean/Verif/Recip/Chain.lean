import Verif.Recip.Lemmas

/-! # The four iterations, for significands of 24 bits -/

namespace Verif.Recip

open Verif.Vhdl Verif.Fixed

theorem nat_stands (f n : ℕ) (h : n < 2 ^ (f + 1)) : Stands (fx 2 f) ⟨f + 2, n⟩ (n * (2 : ℚ) ^ (-(f : ℤ))) := by
  have h2 : 2 * n < 2 ^ (f + 2) := by rw [pow_succ]; omega
  refine ⟨⟨?_, by simp, by change n < 2 ^ (f + 2); omega⟩, ?_⟩
  · simp only [fx]; push_cast; omega
  · simp only [value, fx, Vec.num, if_true, Vec.sgn, if_pos h2]
    push_cast
    rfl

theorem sel_eq (n M lo w : ℕ) {l h : ℤ} (hl : l = lo) (hh : h = lo + w - 1) (hw : 0 < w) (hn : lo + w ≤ n) :
    sel ⟨n, M⟩ l h = some ⟨w, M / 2 ^ lo % 2 ^ w⟩ := by
  have e1 : l.toNat = lo := by omega
  have e2 : (h - l + 1).toNat = w := by omega
  simp only [sel, e1, e2]
  rw [if_pos (by omega)]

/-- the chain, with names for the formats -/
theorem approx_gen (tab : ℕ → ℕ) (p M : ℕ) {idx s0 s1 t0 m0 m1 m2 : Vec} {A B C D E F G H : Fixed.Fmt}
    (h1 : sel ⟨p, M⟩ ((p : ℤ) - 2 - 8 + 1) ((p : ℤ) - 2) = some idx) (h2 : sel ⟨p, M⟩ ((p : ℤ) - 1 - 8) ((p : ℤ) - 1) = some s0)
    (h3 : sel ⟨p, M⟩ ((p : ℤ) - 1 - 16) ((p : ℤ) - 1) = some s1)
    (ht : (⟨10, tab idx.val % 2 ^ 10⟩ : Vec) = t0) (hm0 : zext s0 1 = m0) (hm1 : zext s1 1 = m1) (hm2 : zext ⟨p, M⟩ 1 = m2)
    (hA : fx 2 ((p : ℤ) - 1) = A) (hB : fx 2 (2 * (p : ℤ) - 1) = B) (hC : fx (-12) (16 + (p : ℤ) - 1) = C) (hD : fx 2 (16 + (p : ℤ) - 1) = D)
    (hE : fx 2 (p : ℤ) = E) (hF : fx 2 (2 * (p : ℤ)) = F) (hG : fx (-((4 * p / 5 : ℕ) : ℤ)) (2 * p) = G) (hH : fx 2 24 = H) : approx tab p M =
    (nr (fx 2 8) (fx 2 8) (fx 2 16) (fx (-3) 16) H (fx 2 16) m0 t0).bind fun a1 =>
    (nr (fx 2 16) (fx 2 16) H (fx (-6) 24) H H m1 a1).bind fun a2 =>
    (nr A H B C D E m2 a2).bind fun a3 => nr A E F G F F m2 a3 := by
  subst ht hm0 hm1 hm2 hA hB hC hD hE hF hG hH
  unfold approx
  simp only []
  rw [h1, Option.bind_some, h2, Option.bind_some, h3, Option.bind_some]

/-- the chain for significands of 24 bits -/
theorem approx24 (tab : ℕ → ℕ) (M : ℕ) (h1 : 2 ^ 23 ≤ M) (h2 : M < 2 ^ 24) : approx tab 24 M =
    (nr (fx 2 8) (fx 2 8) (fx 2 16) (fx (-3) 16) (fx 2 24) (fx 2 16) ⟨10, M / 2 ^ 15⟩ ⟨10, tab (M / 2 ^ 15 - 256) % 2 ^ 10⟩).bind fun a1 =>
    (nr (fx 2 16) (fx 2 16) (fx 2 24) (fx (-6) 24) (fx 2 24) (fx 2 24) ⟨18, M / 2 ^ 7⟩ a1).bind fun a2 =>
    (nr (fx 2 23) (fx 2 24) (fx 2 47) (fx (-12) 39) (fx 2 39) (fx 2 24) ⟨25, M⟩ a2).bind fun a3 =>
    nr (fx 2 23) (fx 2 24) (fx 2 48) (fx (-19) 48) (fx 2 48) (fx 2 48) ⟨25, M⟩ a3 := by
  have k1 : M / 2 ^ 15 % 2 ^ 8 = M / 2 ^ 15 - 256 := by norm_num at h1 h2 ⊢; omega
  have k2 : M / 2 ^ 15 % 2 ^ 9 = M / 2 ^ 15 := by norm_num at h1 h2 ⊢; omega
  have k3 : M / 2 ^ 7 % 2 ^ 17 = M / 2 ^ 7 := by norm_num at h1 h2 ⊢; omega
  refine approx_gen tab 24 M (sel_eq 24 M 15 8 (by norm_num) (by norm_num) (by norm_num) (by norm_num))
    (sel_eq 24 M 15 9 (by norm_num) (by norm_num) (by norm_num) (by norm_num))
    (sel_eq 24 M 7 17 (by norm_num) (by norm_num) (by norm_num) (by norm_num)) ?_ ?_ ?_ rfl ?_ ?_ ?_ ?_ ?_ ?_ ?_ rfl
  · rw [k1]
  · rw [zext, k2]
  · rw [zext, k3]
  all_goals norm_num [fx]

theorem approx_spec {tab : ℕ → ℕ} (ht : GoodTable tab) {M : ℕ} (h1 : 2 ^ 23 ≤ M) (h2 : M < 2 ^ 24) :
    ∃ r, approx tab 24 M = some r ∧ M * r.val ≤ 2 ^ 71 ∧ 2 ^ 71 < M * (r.val + 4) := by
  obtain ⟨i, hi⟩ : ∃ i, i = M / 2 ^ 15 - 256 := ⟨_, rfl⟩
  have hi2 : i < 256 ∧ M / 2 ^ 15 = 256 + i := by norm_num at h1 h2 ⊢; omega
  have hT := abs_le.1 (ht i hi2.1)
  have hTn : tab i < 2 ^ 9 := by
    have : (tab i : ℤ) * 256 ≤ 256 + 2 ^ 16 + (256 + 255) := by nlinarith [hT.2, hi2.1, Int.natCast_nonneg (tab i), Int.natCast_nonneg i]
    norm_num at this ⊢
    omega
  obtain ⟨m, hm⟩ : ∃ m : ℚ, m = M * (2 : ℚ) ^ (-((23 : ℕ) : ℤ)) := ⟨_, rfl⟩
  obtain ⟨m16, hm16⟩ : ∃ m : ℚ, m = (M / 2 ^ 7 : ℕ) * (2 : ℚ) ^ (-((16 : ℕ) : ℤ)) := ⟨_, rfl⟩
  obtain ⟨m8, hm8⟩ : ∃ m : ℚ, m = (M / 2 ^ 15 : ℕ) * (2 : ℚ) ^ (-((8 : ℕ) : ℤ)) := ⟨_, rfl⟩
  obtain ⟨a0, ha0⟩ : ∃ a : ℚ, a = (tab i) * (2 : ℚ) ^ (-((8 : ℕ) : ℤ)) := ⟨_, rfl⟩
  have sM : Stands (fx 2 23) ⟨25, M⟩ _ := nat_stands 23 M h2
  have s16 : Stands (fx 2 16) ⟨18, M / 2 ^ 7⟩ _ := nat_stands 16 (M / 2 ^ 7) (by norm_num at h2 ⊢; omega)
  have s8 : Stands (fx 2 8) ⟨10, M / 2 ^ 15⟩ _ := nat_stands 8 (M / 2 ^ 15) (by norm_num at h2 ⊢; omega)
  have s0 : Stands (fx 2 8) ⟨10, tab i⟩ _ := nat_stands 8 (tab i) hTn
  rw [← hm] at sM
  rw [← hm16] at s16
  rw [← hm8] at s8
  rw [← ha0] at s0
  have q1 : ((M / 2 ^ 15 : ℕ) : ℚ) * 256 ≤ (M / 2 ^ 7 : ℕ) := by exact_mod_cast (by omega : (M / 2 ^ 15) * 256 ≤ M / 2 ^ 7)
  have q2 : ((M / 2 ^ 7 : ℕ) : ℚ) + 1 ≤ ((M / 2 ^ 15 : ℕ) + 1) * 256 := by exact_mod_cast (by omega : M / 2 ^ 7 + 1 ≤ (M / 2 ^ 15 + 1) * 256)
  have q3 : ((M / 2 ^ 7 : ℕ) : ℚ) * 128 ≤ M := by exact_mod_cast (by omega : (M / 2 ^ 7) * 128 ≤ M)
  have q4 : (M : ℚ) + 1 ≤ ((M / 2 ^ 7 : ℕ) + 1) * 128 := by exact_mod_cast (by omega : M + 1 ≤ (M / 2 ^ 7 + 1) * 128)
  have q5 : ((M / 2 ^ 15 : ℕ) : ℚ) = 256 + i := by rw [hi2.2]; push_cast; rfl
  have q6 : (M : ℚ) < 2 ^ 24 := by exact_mod_cast h2
  have q7 : (2 : ℚ) ^ 23 ≤ M := by exact_mod_cast h1
  have hi0 : (0 : ℚ) ≤ i := Nat.cast_nonneg i
  have hi1 : (i : ℚ) + 1 ≤ 256 := by exact_mod_cast hi2.1
  have pw : (2 : ℚ) ^ (-((23 : ℕ) : ℤ)) = 1 / 8388608 ∧ (2 : ℚ) ^ (-((16 : ℕ) : ℤ)) = 1 / 65536 ∧ (2 : ℚ) ^ (-((8 : ℕ) : ℤ)) = 1 / 256 := by norm_num
  rw [pw.1] at hm
  rw [pw.2.1] at hm16
  rw [pw.2.2] at hm8 ha0
  norm_num only at q6 q7
  have b1 : 1 ≤ m8 := by rw [hm8]; linarith
  have b2 : m8 < 2 := by rw [hm8]; linarith
  have b3 : m8 ≤ m16 := by rw [hm8, hm16]; linarith
  have b4 : m16 < m8 + 1 / 256 := by rw [hm8, hm16]; linarith
  have b5 : m16 ≤ m := by rw [hm, hm16]; linarith
  have b6 : m < m16 + 1 / 2 ^ 16 := by rw [hm, hm16]; norm_num; linarith
  have b7 : m < 2 := by rw [hm]; linarith
  have b8 : |a0 * m8 - 1| ≤ m8 / 256 := by
    have t1 : ((tab i : ℚ)) * (256 + i) - 2 ^ 16 ≤ 256 + i := by exact_mod_cast hT.2
    have t2 : -(256 + (i : ℚ)) ≤ ((tab i : ℚ)) * (256 + i) - 2 ^ 16 := by exact_mod_cast hT.1
    norm_num at t1 t2
    have e : a0 * m8 - 1 = ((tab i : ℚ) * (256 + i) - 65536) / 65536 := by rw [ha0, hm8, q5]; ring
    have e2 : m8 / 256 = (256 + i) / 65536 := by rw [hm8, q5]; ring
    rw [e, e2, abs_le]
    constructor <;> linarith
  rw [approx24 tab M h1 h2, ← hi, Nat.mod_eq_of_lt (by norm_num at hTn ⊢; omega)]
  -- first iteration
  obtain ⟨r1, x1, z1⟩ : ∃ r, nr (fx 2 8) (fx 2 8) (fx 2 16) (fx (-3) 16) (fx 2 24) (fx 2 16) ⟨10, M / 2 ^ 15⟩ ⟨10, tab i⟩ = some r ∧
      ∃ a1, Stands (fx 2 16) r a1 ∧ 1 - 1 / 2 ^ 13 < m8 * a1 ∧ m8 * a1 ≤ 1 := by
    have g1 : OnGrid 16 (m8 * a0) := grid_mul (stands_grid s8) (stands_grid s0)
    have hp : m8 * a0 = cut 16 (m8 * a0) := (cut_exact le_rfl g1).symm
    have he : 1 - m8 * a0 = cut 16 (1 - m8 * a0) := (cut_exact le_rfl (grid_one_sub (by norm_num) g1)).symm
    obtain ⟨c1, c2, c3, c4, c5, c6, c7, c8, c9, c10⟩ := step1 b1 b2 b8 rfl rfl rfl rfl
    obtain ⟨r, y1, y2⟩ := nr_spec (mF := 8) (aF := 8) (uF := 16) (ei := -3) (eF := 16) (tF := 24) (nF := 16) s8 s0 (by norm_num) (by norm_num) (by norm_num) (by norm_num)
      (by norm_num) (by norm_num) (by norm_num) (by norm_num) hp c1 c2 he c3 c4 rfl c5 c6 c7 c8
    exact ⟨r, y1, _, y2, c9, c10⟩
  obtain ⟨a1, z1, l1, l2⟩ := z1
  rw [x1, Option.bind_some]
  -- second iteration
  obtain ⟨r2, x2, z2⟩ : ∃ r, nr (fx 2 16) (fx 2 16) (fx 2 24) (fx (-6) 24) (fx 2 24) (fx 2 24) ⟨18, M / 2 ^ 7⟩ r1 = some r ∧
      ∃ a2, Stands (fx 2 24) r a2 ∧ -(5 / 2 ^ 18) ≤ 1 - m * a2 ∧ 1 - m * a2 ≤ 5 / 2 ^ 18 ∧ 0 < a2 ∧ a2 ≤ 1 + 1 / 2 ^ 10 := by
    have he : 1 - cut 24 (m16 * a1) = cut 24 (1 - cut 24 (m16 * a1)) := (cut_exact le_rfl (grid_one_sub (by norm_num) (cut_grid 24 _))).symm
    obtain ⟨c1, c2, c3, c4, c5, c6, c7, c8, c9, c10, c11, c12⟩ := step2 (m := m) b1 b3 b4 (by linarith) b5 b6 l1 l2 rfl rfl rfl rfl
    have hn : cut 24 (a1 + cut 24 ((1 - cut 24 (m16 * a1)) * a1)) = a1 + cut 24 ((1 - cut 24 (m16 * a1)) * a1) := by
      obtain ⟨n1, w1⟩ := stands_grid z1
      obtain ⟨n2, w2⟩ := cut_grid 24 ((1 - cut 24 (m16 * a1)) * a1)
      refine cut_exact (le_refl (24 : ℤ)) ⟨n1 * 2 ^ 8 + n2, ?_⟩
      rw [w2]
      nth_rewrite 1 [w1]
      simp only [fx]
      push_cast
      rw [add_mul]
      congr 1
      norm_num
      ring
    obtain ⟨r, y1, y2⟩ := nr_spec (mF := 16) (aF := 16) (uF := 24) (ei := -6) (eF := 24) (tF := 24) (nF := 24) s16 z1 (by norm_num) (by norm_num) (by norm_num) (by norm_num)
      (by norm_num) (by norm_num) (by norm_num) (by norm_num) rfl c1 c2 he c3 c4 rfl c5 c6 (by rw [hn]; exact c7) (by rw [hn]; exact c8)
    rw [hn] at y2
    exact ⟨r, y1, _, y2, c9, c10, c11, c12⟩
  obtain ⟨a2, z2, l3, l4, l5, l6⟩ := z2
  rw [x2, Option.bind_some]
  -- third iteration
  obtain ⟨r3, x3, z3⟩ : ∃ r, nr (fx 2 23) (fx 2 24) (fx 2 47) (fx (-12) 39) (fx 2 39) (fx 2 24) ⟨25, M⟩ r2 = some r ∧
      ∃ a3, Stands (fx 2 24) r a3 ∧ 0 ≤ 1 - m * a3 ∧ 1 - m * a3 ≤ m * (1 / 2 ^ 24 + 1 / 2 ^ 31) := by
    have g1 : OnGrid 47 (m * a2) := grid_mul (stands_grid sM) (stands_grid z2)
    have hp : m * a2 = cut 47 (m * a2) := (cut_exact le_rfl g1).symm
    obtain ⟨c1, c2, c3, c4, c5, c6, c7, c8, c9, c10⟩ := step3 (b1.trans (b3.trans b5)) b7 l3 l4 l5 l6 rfl rfl rfl rfl
    obtain ⟨r, y1, y2⟩ := nr_spec (mF := 23) (aF := 24) (uF := 47) (ei := -12) (eF := 39) (tF := 39) (nF := 24) sM z2 (by norm_num) (by norm_num) (by norm_num) (by norm_num)
      (by norm_num) (by norm_num) (by norm_num) (by norm_num) hp c1 c2 rfl c3 c4 rfl c5 c6 c7 c8
    exact ⟨r, y1, _, y2, c9, c10⟩
  obtain ⟨a3, z3, l7, l8⟩ := z3
  rw [x3, Option.bind_some]
  -- last iteration
  have g1 : OnGrid 47 (m * a3) := grid_mul (stands_grid sM) (stands_grid z3)
  have hp : m * a3 = cut 48 (m * a3) := (cut_exact (by norm_num) g1).symm
  have he : 1 - m * a3 = cut 48 (1 - m * a3) := (cut_exact (by norm_num) (grid_one_sub (by norm_num) g1)).symm
  obtain ⟨c1, c2, c3, c4, c5, c6, c7, c8, c9, c10⟩ := step4 (b1.trans (b3.trans b5)) b7 l7 l8 rfl rfl rfl rfl
  have hn : cut 48 (a3 + cut 48 ((1 - m * a3) * a3)) = a3 + cut 48 ((1 - m * a3) * a3) := by
    obtain ⟨n1, w1⟩ := stands_grid z3
    obtain ⟨n2, w2⟩ := cut_grid 48 ((1 - m * a3) * a3)
    refine cut_exact (le_refl (48 : ℤ)) ⟨n1 * 2 ^ 24 + n2, ?_⟩
    rw [w2]
    nth_rewrite 1 [w1]
    simp only [fx]
    push_cast
    rw [add_mul]
    congr 1
    norm_num
    ring
  obtain ⟨r, y1, y2⟩ := nr_spec (mF := 23) (aF := 24) (uF := 48) (ei := -19) (eF := 48) (tF := 48) (nF := 48) sM z3 (by norm_num) (by norm_num) (by norm_num) (by norm_num)
    (by norm_num) (by norm_num) (by norm_num) (by norm_num) hp c1 c2 he c3 c4 rfl c5 c6 (by rw [hn]; exact c7) (by rw [hn]; exact c8)
  rw [hn] at y2
  refine ⟨r, y1, ?_⟩
  obtain ⟨v, hv⟩ : ∃ v, v = a3 + cut 48 ((1 - m * a3) * a3) := ⟨_, rfl⟩
  rw [← hv] at y2 c9 c10
  have hsz : r.size = 50 := by have := y2.1.1; simp only [fx] at this; omega
  have hr := y2.2
  simp only [value, fx, Vec.num, if_true, Vec.sgn, hsz] at hr
  have hpos : 0 < v := by
    by_contra hc
    have : m * (v + 4 / 2 ^ 48) ≤ m * (4 / 2 ^ 48) := mul_le_mul_of_nonneg_left (by linarith) (by linarith)
    norm_num at this c10
    linarith
  by_cases hb : 2 * r.val < 2 ^ 50
  · rw [if_pos hb] at hr
    norm_num at hr
    rw [← hr, hm] at c9 c10
    norm_num at c9 c10
    constructor
    · have : (M : ℚ) * r.val ≤ 2 ^ 71 := by norm_num; linarith
      exact_mod_cast this
    · have : (2 : ℚ) ^ 71 < M * (r.val + 4) := by norm_num; linarith
      exact_mod_cast this
  · exfalso
    rw [if_neg hb] at hr
    have hlt := y2.1.2.2
    rw [hsz] at hlt
    have hneg : (((r.val : ℤ) - 2 ^ 50 : ℤ) : ℚ) ≤ 0 := by exact_mod_cast (by omega : (r.val : ℤ) - 2 ^ 50 ≤ 0)
    have := mul_nonpos_of_nonpos_of_nonneg hneg (p2 (-48)).le
    rw [hr] at this
    linarith

end Verif.Recip
