import Verif.Blocks.Exist

/-! C46: error-free sums and products; C64: the other blocks declared exact. -/

namespace Verif.Blocks

/-- TwoSum is error-free for all operands of every format with at least 3 significant bits, any
smallest exponent and any rounding to nearest. -/
theorem C46_twosum {p : ℕ} (hp : 3 ≤ p) {q : WithBot ℤ} {rnd : ℚ → ℚ} (hr : Nearest p q rnd)
    {x y : ℚ} (hx : Rep p q x) (hy : Rep p q y) :
    ErrorFreeSum p q rnd x y (twoSum rnd x y) := by
  have hp1 : 1 ≤ p := by omega
  obtain ⟨e0, a, b, hq, ha, hb, rfl, rfl⟩ := common_unit hx hy
  obtain ⟨r, hr', hrr⟩ := lift hp1 hr hq
  have h := two_sum hp hr' ha hb
  have e1 : rnd ((a:ℚ) * 2 ^ e0 + b * 2 ^ e0) = (r (a + b) : ℚ) * 2 ^ e0 := by
    rw [← hrr]; congr 1; push_cast; ring
  have es : ∀ u v : ℤ, rnd ((u:ℚ) * 2 ^ e0 - v * 2 ^ e0) = (r (u - v) : ℚ) * 2 ^ e0 := by
    intro u v; rw [← hrr]; congr 1; push_cast; ring
  have ea : ∀ u v : ℤ, rnd ((u:ℚ) * 2 ^ e0 + v * 2 ^ e0) = (r (u + v) : ℚ) * 2 ^ e0 := by
    intro u v; rw [← hrr]; congr 1; push_cast; ring
  dsimp only at h
  have e2 : (twoSum rnd ((a:ℚ) * 2 ^ e0) (b * 2 ^ e0)).2
      = ((a + b - r (a + b) : ℤ) : ℚ) * 2 ^ e0 := by
    unfold twoSum
    dsimp only
    rw [ea, es, es, es, es, ea, h]
  refine ⟨rfl, ?_, ?_⟩
  · rw [e2]; exact Rep_of_FI hp1 hq (err_FI hp1 hr' ha hb)
  · rw [e2]
    show rnd _ + _ = _
    rw [e1]; push_cast; ring

/-- FastTwoSum is error-free when the first operand is the larger one (or is zero). -/
theorem C46_fasttwosum {p : ℕ} (hp : 1 ≤ p) {q : WithBot ℤ} {rnd : ℚ → ℚ}
    (hr : Nearest p q rnd) {x y : ℚ} (hx : Rep p q x) (hy : Rep p q y)
    (hxy : |y| ≤ |x| ∨ x = 0) :
    ErrorFreeSum p q rnd x y (fastTwoSum rnd x y) := by
  rcases hxy with hxy | rfl
  · obtain ⟨e0, a, b, hq, ha, hb, rfl, rfl⟩ := common_unit hx hy
    obtain ⟨r, hr', hrr⟩ := lift hp hr hq
    have h := fast_two_sum hp hr' ha hb (abs_le_scale.1 hxy)
    have es : ∀ u v : ℤ, rnd ((u:ℚ) * 2 ^ e0 - v * 2 ^ e0) = (r (u - v) : ℚ) * 2 ^ e0 := by
      intro u v; rw [← hrr]; congr 1; push_cast; ring
    have ea : ∀ u v : ℤ, rnd ((u:ℚ) * 2 ^ e0 + v * 2 ^ e0) = (r (u + v) : ℚ) * 2 ^ e0 := by
      intro u v; rw [← hrr]; congr 1; push_cast; ring
    have e2 : (fastTwoSum rnd ((a:ℚ) * 2 ^ e0) (b * 2 ^ e0)).2
        = ((a + b - r (a + b) : ℤ) : ℚ) * 2 ^ e0 := by
      unfold fastTwoSum
      dsimp only
      rw [ea, es, es, h]
    refine ⟨rfl, ?_, ?_⟩
    · rw [e2]; exact Rep_of_FI hp hq (err_FI hp hr' ha hb)
    · rw [e2]
      show rnd _ + _ = _
      rw [ea]; push_cast; ring
  · have h1 : fastTwoSum rnd 0 y = (y, 0) := by
      unfold fastTwoSum
      dsimp only
      rw [zero_add, rnd_exact hr hy, sub_zero, rnd_exact hr hy, sub_self,
        rnd_exact hr (Rep_zero p q)]
    rw [h1]
    exact ⟨by rw [zero_add, rnd_exact hr hy], Rep_zero p q, by ring⟩

/-- The precondition of FastTwoSum is needed: with 3 significant bits and the operands swapped
the pair does not sum to the exact sum. -/
theorem C46_fasttwosum_needs_order :
    ∃ (rnd : ℚ → ℚ) (x y : ℚ), Nearest 3 ⊥ rnd ∧ Rep 3 ⊥ x ∧ Rep 3 ⊥ y ∧
      (fastTwoSum rnd x y).1 + (fastTwoSum rnd x y).2 ≠ x + y := by
  refine ⟨roundNearest 3 ⊥, 7, 28, roundNearest_nearest (by norm_num) _,
    ⟨7, 0, by norm_num, bot_le, by norm_num⟩, ⟨7, 2, by norm_num, bot_le, by norm_num⟩, ?_⟩
  decide +kernel

/-- concrete binary64 operands whose sum is not representable -/
example : Rep 53 (((-1074 : ℤ)) : WithBot ℤ) 1 ∧ Rep 53 ((-1074 : ℤ) : WithBot ℤ) (2 ^ (-60 : ℤ))
    ∧ |(2 : ℚ) ^ (-60 : ℤ)| ≤ |(1 : ℚ)| ∧
    twoSum (roundNearest 53 ((-1074 : ℤ) : WithBot ℤ)) 1 (2 ^ (-60 : ℤ)) = (1, 2 ^ (-60 : ℤ)) :=
  ⟨⟨1, 0, by norm_num, by decide, by norm_num⟩, ⟨1, -60, by norm_num, by decide, by norm_num⟩,
    by norm_num, by decide +kernel⟩

example : Nearest 53 ((-1074 : ℤ) : WithBot ℤ) (roundNearest 53 ((-1074 : ℤ) : WithBot ℤ)) :=
  roundNearest_nearest (by norm_num) _

/-! Products -/

theorem mul_err {p : ℕ} (hp : 1 ≤ p) {q : WithBot ℤ} {rnd : ℚ → ℚ} (hr : Nearest p q rnd)
    {m n e f : ℤ} (hm : |m| < 2 ^ p) (hn : |n| < 2 ^ p) (hq : q ≤ ((e + f : ℤ) : WithBot ℤ)) :
    Rep p q ((m * 2 ^ e : ℚ) * (n * 2 ^ f) - rnd ((m * 2 ^ e : ℚ) * (n * 2 ^ f))) := by
  obtain ⟨r, hr', hrr⟩ := lift hp hr hq
  have h1 : (m * 2 ^ e : ℚ) * (n * 2 ^ f) = ((m * n : ℤ) : ℚ) * 2 ^ (e + f) := by
    rw [zpow_add₀ (by norm_num)]; push_cast; ring
  rw [h1, hrr, ← sub_mul]
  rw [show ((m * n : ℤ) : ℚ) - (r (m * n) : ℚ) = ((m * n - r (m * n) : ℤ) : ℚ) by push_cast; ring]
  refine Rep_of_FI hp hq ?_
  by_cases hne : r (m * n) = m * n
  · rw [hne, sub_self]; exact ⟨0, 0, by simp, by simp⟩
  · obtain ⟨h, g1, -, -, g4, -⟩ := inexact hp hr' hne
    refine FI_of_dvd (k := 0) (by simp) (g4.trans ?_)
    have h2 : |m * n| < 2 ^ (p + p) := by
      rw [abs_mul, pow_add]
      exact mul_lt_mul'' hm hn (abs_nonneg _) (abs_nonneg _)
    have h3 : p + h < p + p := (pow_lt_pow_iff_right₀ (by norm_num : (1:ℤ) < 2)).1
      (g1.trans_lt h2)
    exact pow_le_pow_right₀ (by norm_num) (by omega)

/-- The two-limb product with FMS is error-free when the product of the operands' last places
stays in the format (no underflow of the error term). -/
theorem C64_mul211_partial {p : ℕ} (hp : 1 ≤ p) {q : WithBot ℤ} {rnd : ℚ → ℚ} (hr : Nearest p q rnd)
    {m n e f : ℤ} (hm : |m| < 2 ^ p) (hn : |n| < 2 ^ p) (hq : q ≤ ((e + f : ℤ) : WithBot ℤ)) :
    ErrorFreeProd p q rnd (m * 2 ^ e) (n * 2 ^ f) (mul211 rnd (m * 2 ^ e) (n * 2 ^ f)) := by
  have h := mul_err hp hr hm hn hq
  have e2 := rnd_exact hr h
  refine ⟨rfl, ?_, ?_⟩
  · show Rep p q (rnd _)
    rw [e2]; exact h
  · show rnd _ + rnd (_ - rnd _) = _
    rw [e2]; ring

/-- Same with unbounded exponents: no condition at all. -/
theorem C64_mul211_unbounded {p : ℕ} (hp : 1 ≤ p) {rnd : ℚ → ℚ} (hr : Nearest p ⊥ rnd)
    {x y : ℚ} (hx : Rep p ⊥ x) (hy : Rep p ⊥ y) :
    ErrorFreeProd p ⊥ rnd x y (mul211 rnd x y) := by
  obtain ⟨m, e, hm, -, rfl⟩ := hx
  obtain ⟨n, f, hn, -, rfl⟩ := hy
  exact C64_mul211_partial hp hr hm hn bot_le

example : mul211 (roundNearest 53 ((-1074 : ℤ) : WithBot ℤ)) (1 + 2 ^ (-30 : ℤ)) (1 + 2 ^ (-30 : ℤ))
    = (1 + 2 ^ (-29 : ℤ), 2 ^ (-60 : ℤ)) := by decide +kernel

/-- Without room for the error term the declared exactness fails (product of two small binary64
numbers, whose error term underflows). -/
theorem C64_mul211_underflow_wrong :
    ∃ x y : ℚ, Rep 53 ((-1074 : ℤ) : WithBot ℤ) x ∧ Rep 53 ((-1074 : ℤ) : WithBot ℤ) y ∧
      let r := mul211 (roundNearest 53 ((-1074 : ℤ) : WithBot ℤ)) x y
      r.1 + r.2 ≠ x * y := by
  refine ⟨(2 ^ 30 + 1) * 2 ^ (-560 : ℤ), (2 ^ 30 + 1) * 2 ^ (-560 : ℤ),
    ⟨2 ^ 30 + 1, -560, by norm_num, by decide, by norm_num⟩,
    ⟨2 ^ 30 + 1, -560, by norm_num, by decide, by norm_num⟩, ?_⟩
  decide +kernel

/-! Normalization and three-limb additions declared exact -/

/-- `Normalize_33` preserves the exact sum of its three limbs, and its first two limbs are an
error-free sum (the head is the rounding of head plus what follows exactly or the pair is
already exact). -/
theorem C64_normalize33 {p : ℕ} (hp : 3 ≤ p) {q : WithBot ℤ} {rnd : ℚ → ℚ}
    (hr : Nearest p q rnd) {xh xm xl : ℚ} (hh : Rep p q xh) (hm : Rep p q xm) (hl : Rep p q xl) :
    let r := normalize33 rnd xh xm xl
    r.1 + r.2.1 + r.2.2 = xh + xm + xl ∧ Rep p q r.1 ∧ Rep p q r.2.1 ∧ Rep p q r.2.2 ∧
      rnd (r.2.1 + r.2.2) = r.2.1 := by
  intro r
  obtain ⟨a1, a2, a3⟩ := C46_twosum hp hr hm hl
  have ra : Rep p q (add211 rnd xm xl).1 := by
    show Rep p q (twoSum rnd xm xl).1
    rw [a1]; exact (hr _).1
  obtain ⟨b1, b2, b3⟩ := C46_twosum hp hr hh ra
  obtain ⟨c1, c2, c3⟩ := C46_twosum hp hr b2 a2
  have rb : Rep p q r.1 := by
    show Rep p q (twoSum rnd xh (add211 rnd xm xl).1).1
    rw [b1]; exact (hr _).1
  have rc : Rep p q r.2.1 := by
    show Rep p q (twoSum rnd _ _).1
    unfold add211 at *
    rw [c1]; exact (hr _).1
  refine ⟨?_, rb, rc, c2, ?_⟩
  · have c3' : r.2.1 + r.2.2 = (twoSum rnd xh (add211 rnd xm xl).1).2 + (twoSum rnd xm xl).2 := c3
    have b3' : r.1 + (twoSum rnd xh (add211 rnd xm xl).1).2
        = xh + (twoSum rnd xm xl).1 := b3
    linarith
  · have c3' : r.2.1 + r.2.2 = (twoSum rnd xh (add211 rnd xm xl).1).2 + (twoSum rnd xm xl).2 := c3
    have c1' : r.2.1 = rnd ((twoSum rnd xh (add211 rnd xm xl).1).2 + (twoSum rnd xm xl).2) := c1
    rw [c3', c1']

/-- `MP_Add321` is exact under its documented condition (here only `|y| ≤ |xh|` is needed). -/
theorem C64_add321 {p : ℕ} (hp : 3 ≤ p) {q : WithBot ℤ} {rnd : ℚ → ℚ} (hr : Nearest p q rnd)
    {xh xl y : ℚ} (hh : Rep p q xh) (hl : Rep p q xl) (hy : Rep p q y) (hle : |y| ≤ |xh|) :
    let r := add321 rnd xh xl y
    r.1 + r.2.1 + r.2.2 = xh + xl + y := by
  intro r
  obtain ⟨a1, a2, a3⟩ := C46_fasttwosum (by omega) hr hh hy (Or.inl hle)
  obtain ⟨b1, b2, b3⟩ := C46_twosum hp hr a2 hl
  have b3' : r.2.1 + r.2.2 = (fastTwoSum rnd xh y).2 + xl := b3
  have a3' : r.1 + (fastTwoSum rnd xh y).2 = xh + y := a3
  linarith

example : let r := normalize33 (roundNearest 53 ⊥) 1 1 (2 ^ (-70 : ℤ))
    r = (2, 2 ^ (-70 : ℤ), 0) := by decide +kernel

example : let r := add321 (roundNearest 53 ⊥) 1 (2 ^ (-60 : ℤ)) (2 ^ (-55 : ℤ))
    r.1 + r.2.1 + r.2.2 = 1 + 2 ^ (-60 : ℤ) + 2 ^ (-55 : ℤ) := by decide +kernel

/-- `MP_Add321_v2`, declared with the same zero error, is not exact on binary64 operands that
satisfy its documented condition: it returns the input's low limb instead of the computed one. -/
theorem C64_add321v2_wrong :
    ∃ xh xl y : ℚ, Rep 53 ⊥ xh ∧ Rep 53 ⊥ xl ∧ Rep 53 ⊥ y ∧ |xh| < 2 ^ (-2 : ℤ) * |y| ∧
      |xl| ≤ 2 ^ (-53 : ℤ) * |xh| ∧
      let r := add321v2 (roundNearest 53 ⊥) xh xl y
      r.1 + r.2.1 + r.2.2 ≠ xh + xl + y := by
  refine ⟨2 ^ (-10 : ℤ) + 2 ^ (-62 : ℤ), 2 ^ (-63 : ℤ), 1,
    ⟨2 ^ 52 + 1, -62, by norm_num, bot_le, by norm_num⟩, ⟨1, -63, by norm_num, bot_le, by norm_num⟩,
    ⟨1, 0, by norm_num, bot_le, by norm_num⟩, by rw [abs_of_pos] <;> norm_num,
    by rw [abs_of_pos, abs_of_pos] <;> norm_num, ?_⟩
  decide +kernel

theorem le_absSup {l h x : ℚ} (h1 : l ≤ x) (h2 : x ≤ h) : |x| ≤ absSup l h := by
  unfold absSup
  rcases le_total 0 x with h0 | h0
  · rw [abs_of_nonneg h0]
    exact h2.trans ((le_abs_self h).trans (le_max_right _ _))
  · rw [abs_of_nonpos h0]
    exact (by linarith [neg_le_abs l] : -x ≤ |l|).trans (le_max_left _ _)

theorem absInf_le {l h x : ℚ} (h1 : l ≤ x) (h2 : x ≤ h) : absInf l h ≤ |x| := by
  unfold absInf
  split
  · exact abs_nonneg _
  · rename_i hc
    rcases le_or_gt l 0 with hl | hl
    · have hh : h < 0 := lt_of_not_ge fun hh => hc ⟨hl, hh⟩
      rw [abs_of_nonpos (by linarith : x ≤ 0)]
      exact (min_le_right _ _).trans (by rw [abs_of_neg hh]; linarith)
    · rw [abs_of_nonneg (by linarith : 0 ≤ x)]
      exact (min_le_left _ _).trans (by rw [abs_of_pos hl]; linarith)

/-- Whenever the fast exact sum (or its commuted version) is selected from the operands' ranges,
it is error-free for all operands in those ranges. -/
theorem C64_fast_selected {p : ℕ} (hp : 1 ≤ p) {q : WithBot ℤ} {rnd : ℚ → ℚ}
    (hr : Nearest p q rnd) {lx hx ly hy x y : ℚ} {r : ℚ × ℚ} (rx : Rep p q x) (ry : Rep p q y)
    (x1 : lx ≤ x) (x2 : x ≤ hx) (y1 : ly ≤ y) (y2 : y ≤ hy)
    (h : add211Fast rnd lx hx ly hy x y = some r ∨ add211FastRev rnd lx hx ly hy x y = some r) :
    ErrorFreeSum p q rnd x y r := by
  have key : ∀ {lx hx ly hy x y : ℚ}, Rep p q x → Rep p q y → lx ≤ x → x ≤ hx → ly ≤ y → y ≤ hy →
      add211Fast rnd lx hx ly hy x y = some r → ErrorFreeSum p q rnd x y r := by
    intro lx hx ly hy x y rx ry x1 x2 y1 y2 h
    unfold add211Fast at h
    split at h
    · rename_i hc
      simp only [Option.some.injEq] at h
      subst h
      refine C46_fasttwosum hp hr rx ry (Or.inl ?_)
      unfold isIntervalGt isIntervalLt at hc
      rw [decide_eq_true_eq, div_one, one_mul] at hc
      exact (le_absSup y1 y2).trans (hc.le.trans (absInf_le x1 x2))
    · cases h
  rcases h with h | h
  · exact key rx ry x1 x2 y1 y2 h
  · have := key ry rx y1 y2 x1 x2 h
    unfold ErrorFreeSum at *
    rwa [add_comm x y]

example : add211Fast (roundNearest 53 ⊥) 4 8 (-1) 2 5 (1/1024) = some (5 + 1/1024, 0) := by
  decide +kernel

end Verif.Blocks
