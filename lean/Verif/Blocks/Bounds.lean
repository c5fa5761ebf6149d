import Verif.Blocks.Exact
import Mathlib.Tactic.LinearCombination

/-! C47: declared relative errors; C65: fused multiply-adds on limbs. -/

namespace Verif.Blocks

/-! ### Propagation of input errors -/

theorem prop_mul {ex ey x x' y y' : ℚ} (hx : Approx ex x x') (hy : Approx ey y y') :
    Approx (globalMul211 ex ey) (x * y) (x' * y') := by
  unfold Approx globalMul211 at *
  have h : x' * y' - x * y = (x' - x) * (y' - y) + (x' - x) * y + x * (y' - y) := by ring
  have h1 : |(x' - x) * (y' - y)| ≤ (ex * |x|) * (ey * |y|) := by
    rw [abs_mul]
    exact mul_le_mul hx hy (abs_nonneg _) ((abs_nonneg _).trans hx)
  have h2 : |(x' - x) * y| ≤ ex * |x| * |y| := by
    rw [abs_mul]; exact mul_le_mul_of_nonneg_right hx (abs_nonneg _)
  have h3 : |x * (y' - y)| ≤ |x| * (ey * |y|) := by
    rw [abs_mul]; exact mul_le_mul_of_nonneg_left hy (abs_nonneg _)
  rw [h, abs_mul x y]
  calc |(x' - x) * (y' - y) + (x' - x) * y + x * (y' - y)|
      ≤ |(x' - x) * (y' - y)| + |(x' - x) * y| + |x * (y' - y)| :=
        (abs_add_le _ _).trans (add_le_add (abs_add_le _ _) le_rfl)
    _ ≤ _ := by linarith

theorem prop_add {ex ey x x' y y' : ℚ} (hs : |x + y| = |x| + |y|) (hx : Approx ex x x')
    (hy : Approx ey y y') : Approx (max ex ey) (x + y) (x' + y') := by
  unfold Approx at *
  have h1 := abs_add_le (x' - x) (y' - y)
  have h2 : ex * |x| ≤ max ex ey * |x| := mul_le_mul_of_nonneg_right (le_max_left _ _) (abs_nonneg _)
  have h3 : ey * |y| ≤ max ex ey * |y| := mul_le_mul_of_nonneg_right (le_max_right _ _) (abs_nonneg _)
  rw [hs, mul_add, show x' + y' - (x + y) = x' - x + (y' - y) by ring]
  linarith

theorem prop_op {e0 e1 v v' z : ℚ} (h0 : Approx e0 v v') (h1 : Approx e1 v' z) (he : 0 ≤ e1) :
    Approx (e1 + e0 + e1 * e0) v z := by
  unfold Approx at *
  have h2 : |v'| ≤ |v| + e0 * |v| := by
    have := abs_add_le v (v' - v)
    rw [add_sub_cancel] at this
    linarith
  have h3 : e1 * |v'| ≤ e1 * (|v| + e0 * |v|) := mul_le_mul_of_nonneg_left h2 he
  have h4 := abs_add_le (z - v') (v' - v)
  rw [sub_add_sub_cancel] at h4
  linarith

/-- **C47**, product without rounding (`MB_Mul211`): the declared global error bounds the
propagated error for all operands and input errors. -/
theorem C47_mul211 {ex ey x x' y y' : ℚ} {p : ℕ} (hp : 1 ≤ p) {rnd : ℚ → ℚ}
    (hr : Nearest p ⊥ rnd) (hx' : Rep p ⊥ x') (hy' : Rep p ⊥ y')
    (hx : Approx ex x x') (hy : Approx ey y y') :
    Approx (globalMul211 ex ey) (x * y)
      ((mul211 rnd x' y').1 + (mul211 rnd x' y').2) := by
  rw [(C64_mul211_unbounded hp hr hx' hy').2.2]
  exact prop_mul hx hy

/-- **C47**, exact sum (`MB_Add211`): bound valid when the exact operands do not cancel. -/
theorem C47_add211_partial {ex ey x x' y y' : ℚ} {p : ℕ} (hp : 3 ≤ p) {q : WithBot ℤ}
    {rnd : ℚ → ℚ} (hr : Nearest p q rnd) (hx' : Rep p q x') (hy' : Rep p q y')
    (hs : |x + y| = |x| + |y|) (hx : Approx ex x x') (hy : Approx ey y y') :
    Approx (globalAdd211 ex ey) (x + y) ((twoSum rnd x' y').1 + (twoSum rnd x' y').2) := by
  rw [(C46_twosum hp hr hx' hy').2.2]
  exact prop_add hs hx hy

/-- With cancellation the declared bound is not an upper bound, however large it is. -/
theorem C47_add_cancellation_wrong (K : ℚ) :
    ∃ ex ey x x' y y' : ℚ, 0 ≤ ex ∧ 0 ≤ ey ∧ ex ≤ 1 / 8 ∧ ey ≤ 1 / 8 ∧ Approx ex x x' ∧
      Approx ey y y' ∧ x + y ≠ 0 ∧
      ¬ Approx (K * globalAdd211 ex ey) (x + y) (x' + y') := by
  -- x = 1, x' = 9/8, y = y' = -1 + d with d small
  obtain ⟨d, hd0, hd1⟩ : ∃ d : ℚ, 0 < d ∧ K * d < 1 := by
    refine ⟨1 / (|K| + 1), by positivity, ?_⟩
    have h0 : (0:ℚ) < |K| + 1 := by positivity
    rw [mul_one_div, div_lt_one h0]
    linarith [le_abs_self K]
  refine ⟨1/8, 0, 1, 9/8, -1 + d, -1 + d, by norm_num, le_refl _, le_refl _, by norm_num, ?_, ?_,
    by linarith, ?_⟩
  · unfold Approx; norm_num
  · unfold Approx; rw [sub_self, abs_zero, zero_mul]
  · unfold Approx globalAdd211
    rw [show (9/8 + (-1 + d) - (1 + (-1 + d)) : ℚ) = 1/8 by ring,
      show (1 + (-1 + d) : ℚ) = d by ring, abs_of_pos hd0, abs_of_pos (by norm_num : (0:ℚ) < 1/8),
      max_eq_left (by norm_num : (0:ℚ) ≤ 1/8)]
    linarith

/-! ### Rounding -/

theorem rnd_rel {p : ℕ} (hp : 1 ≤ p) {rnd : ℚ → ℚ} (hr : Nearest p ⊥ rnd) (x : ℚ) :
    |x - rnd x| ≤ (2:ℚ) ^ (-(p:ℤ)) * |x| ∧ |x - rnd x| ≤ (2:ℚ) ^ (-(p:ℤ)) * |rnd x| := by
  rcases eq_or_ne x 0 with rfl | hx0
  · rw [rnd_exact hr (Rep_zero p ⊥)]; simp
  have hax : 0 < |x| := abs_pos.2 hx0
  have hlow := Int.zpow_log_le_self (b := 2) (by norm_num) hax
  push_cast at hlow
  set L := Int.log 2 |x| with hL
  have h1 : |x - rnd x| ≤ (2:ℚ) ^ (-(p:ℤ)) * (2:ℚ) ^ L := by
    refine ((hr x).2 _ ((roundNearest_nearest hp ⊥ x).1)).trans ?_
    show |x - (round (x / (2:ℚ) ^ (L - p + 1)) : ℤ) * (2:ℚ) ^ (L - p + 1)| ≤ _
    set E := L - p + 1 with hE
    have hpos := zpow2_pos E
    have h2 : x - (round (x / (2:ℚ) ^ E) : ℤ) * (2:ℚ) ^ E
        = (x / (2:ℚ) ^ E - (round (x / (2:ℚ) ^ E) : ℤ)) * (2:ℚ) ^ E := by field_simp
    rw [h2, abs_mul, abs_of_pos hpos]
    have h3 := mul_le_mul_of_nonneg_right (abs_sub_round (x / (2:ℚ) ^ E)) hpos.le
    refine h3.trans (le_of_eq ?_)
    rw [← zpow_add₀ (by norm_num), show E = (-(p:ℤ) + L) + 1 by omega, zpow_add₀ (by norm_num : (2:ℚ) ≠ 0) _ 1]
    rw [zpow_one]; ring
  have hu := zpow2_pos (-(p:ℤ))
  refine ⟨h1.trans (mul_le_mul_of_nonneg_left hlow hu.le),
    h1.trans (mul_le_mul_of_nonneg_left ?_ hu.le)⟩
  have hrep : Rep p ⊥ ((2:ℚ) ^ L) := ⟨1, L, by
    rw [abs_one]; exact one_lt_pow₀ (by norm_num) (by omega), bot_le, by simp⟩
  by_contra hc
  push Not at hc
  obtain ⟨hc1, hc2⟩ := abs_lt.1 hc
  rcases le_total 0 x with h | h
  · rw [abs_of_nonneg h] at hlow
    have := (hr x).2 _ hrep
    rw [abs_of_nonneg (by linarith : 0 ≤ x - 2 ^ L), abs_of_nonneg (by linarith : 0 ≤ x - rnd x)]
      at this
    linarith
  · rw [abs_of_nonpos h] at hlow
    have := (hr x).2 _ (Rep_neg hrep)
    rw [abs_of_nonpos (by linarith : x - -2 ^ L ≤ 0), abs_of_nonpos (by linarith : x - rnd x ≤ 0)]
      at this
    linarith

theorem local111_pos (p : ℕ) : 0 < local111 p := zpow2_pos _

/-- **C47**, local error of the one-limb blocks (`Op111`): `2^-p` bounds one rounding. -/
theorem C47_local111 {p : ℕ} (hp : 1 ≤ p) {rnd : ℚ → ℚ} (hr : Nearest p ⊥ rnd) (v : ℚ) :
    Approx (local111 p) v (rnd v) := by
  unfold Approx
  rw [abs_sub_comm]; exact (rnd_rel hp hr v).1

/-- **C47**, one-limb sum (`MB_Add111`), operands that do not cancel. -/
theorem C47_add111_partial {ex ey x x' y y' : ℚ} {p : ℕ} (hp : 1 ≤ p) {rnd : ℚ → ℚ}
    (hr : Nearest p ⊥ rnd) (hs : |x + y| = |x| + |y|) (hx : Approx ex x x') (hy : Approx ey y y') :
    Approx (globalMax (local111 p) ex ey) (x + y) (rnd (x' + y')) :=
  prop_op (prop_add hs hx hy) (C47_local111 hp hr _) (local111_pos p).le

/-- **C47**, one-limb product (`MB_Mul111`): the true propagated error is the declared one plus
second-order terms, which the declared bound drops. -/
theorem C47_mul111_partial {ex ey x x' y y' : ℚ} {p : ℕ} (hp : 1 ≤ p) {rnd : ℚ → ℚ}
    (hr : Nearest p ⊥ rnd) (hx : Approx ex x x') (hy : Approx ey y y') :
    Approx (globalMul111 p ex ey + (ex * ey + local111 p * (ex + ey + ex * ey))) (x * y)
      (rnd (x' * y')) := by
  have := prop_op (prop_mul hx hy) (C47_local111 hp hr (x' * y')) (local111_pos p).le
  convert this using 1
  unfold globalMul111 globalMul211; ring

/-- The declared error of `MB_Mul111` is not an upper bound (binary64 operands). -/
theorem C47_mul111_wrong :
    ∃ (rnd : ℚ → ℚ) (ex ey x x' y y' : ℚ), Nearest 53 ⊥ rnd ∧ Rep 53 ⊥ x' ∧ Rep 53 ⊥ y' ∧
      Approx ex x x' ∧ Approx ey y y' ∧
      ¬ Approx (globalMul111 53 ex ey) (x * y) (rnd (x' * y')) := by
  refine ⟨roundNearest 53 ⊥, 2 ^ (-10:ℤ), 2 ^ (-10:ℤ), 1, 1 + 2 ^ (-10:ℤ), 1, 1 + 2 ^ (-10:ℤ),
    roundNearest_nearest (by norm_num) _, ⟨2 ^ 10 + 1, -10, by norm_num, bot_le, by norm_num⟩,
    ⟨2 ^ 10 + 1, -10, by norm_num, bot_le, by norm_num⟩, ?_, ?_, ?_⟩
  · unfold Approx; decide +kernel
  · unfold Approx; decide +kernel
  · unfold Approx; decide +kernel

/-- `MB_Mul222` (and `Mul122`, `Mul121`) declare the *maximum* of the input errors for a product:
not an upper bound, even in exact arithmetic. -/
theorem C47_mul222_wrong :
    ∃ ex ey x x' y y' : ℚ, Approx ex x x' ∧ Approx ey y y' ∧
      ¬ Approx (globalMax (localMul222 53) ex ey) (x * y) (x' * y') := by
  refine ⟨2 ^ (-10:ℤ), 2 ^ (-10:ℤ), 1, 1 + 2 ^ (-10:ℤ), 1, 1 + 2 ^ (-10:ℤ), ?_, ?_, ?_⟩ <;>
    unfold Approx <;> decide +kernel

/-! ### Two-limb additions -/

theorem three_units {p : ℕ} {q : WithBot ℤ} {x y z : ℚ} (hx : Rep p q x) (hy : Rep p q y)
    (hz : Rep p q z) : ∃ (e0 : ℤ) (a b c : ℤ), q ≤ (e0 : WithBot ℤ) ∧ FI p a ∧ FI p b ∧ FI p c ∧
      x = (a : ℚ) * (2:ℚ) ^ e0 ∧ y = (b : ℚ) * (2:ℚ) ^ e0 ∧ z = (c : ℚ) * (2:ℚ) ^ e0 := by
  obtain ⟨m, e, hm, he, rfl⟩ := hx
  obtain ⟨n, f, hn, hf, rfl⟩ := hy
  obtain ⟨o, g, ho, hg, rfl⟩ := hz
  have hmin : q ≤ ((min e (min f g) : ℤ) : WithBot ℤ) := by
    rcases min_choice e (min f g) with h | h <;> rw [h]
    · assumption
    · rcases min_choice f g with h | h <;> rw [h] <;> assumption
  obtain ⟨a, ha, ha2⟩ := FI_of_Rep hm (show min e (min f g) ≤ e by omega)
  obtain ⟨b, hb, hb2⟩ := FI_of_Rep hn (show min e (min f g) ≤ f by omega)
  obtain ⟨c, hc, hc2⟩ := FI_of_Rep ho (show min e (min f g) ≤ g by omega)
  exact ⟨_, a, b, c, hmin, ha, hb, hc, ha2, hb2, hc2⟩

theorem limb_int {p : ℕ} {h l : ℤ} {e0 : ℤ}
    (hl : |(l:ℚ) * 2 ^ e0| ≤ (2:ℚ) ^ (-(p:ℤ)) * |(h:ℚ) * 2 ^ e0|) : 2 ^ p * |l| ≤ |h| := by
  rw [abs_mul, abs_mul, abs_of_pos (zpow2_pos e0), ← mul_assoc] at hl
  have h1 := le_of_mul_le_mul_right hl (zpow2_pos e0)
  have h2 : (2:ℚ) ^ p * |(l:ℚ)| ≤ |(h:ℚ)| := by
    have := mul_le_mul_of_nonneg_left h1 (by positivity : (0:ℚ) ≤ 2 ^ p)
    rw [← mul_assoc, zpow_neg, zpow_natCast, mul_inv_cancel₀ (by positivity), one_mul] at this
    exact this
  exact_mod_cast h2

theorem scale_err {p : ℕ} {K : ℤ} {w v e0 : ℤ} {k : ℤ} (hk : (K:ℚ) = (2:ℚ) ^ k)
    (h : 2 ^ p * (2 ^ p * |w|) ≤ K * |v|) :
    |(w:ℚ) * 2 ^ e0| ≤ (2:ℚ) ^ (-((p:ℤ) * 2 - k)) * |(v:ℚ) * 2 ^ e0| := by
  rw [abs_mul, abs_mul, abs_of_pos (zpow2_pos e0), ← mul_assoc]
  refine mul_le_mul_of_nonneg_right ?_ (zpow2_pos e0).le
  have h' : (2:ℚ) ^ p * ((2:ℚ) ^ p * |(w:ℚ)|) ≤ (2:ℚ) ^ k * |(v:ℚ)| := by
    rw [← hk]; exact_mod_cast h
  have e1 : (2:ℚ) ^ (-((p:ℤ) * 2 - k)) = (2:ℚ) ^ k / (2 ^ p * 2 ^ p) := by
    rw [show -((p:ℤ) * 2 - k) = k - ((p:ℤ) + p) by ring, zpow_sub₀ (by norm_num),
      zpow_add₀ (by norm_num), zpow_natCast]
  rw [e1, div_mul_eq_mul_div, le_div_iff₀ (by positivity)]
  linarith

/-- **C47**, `Add212`/`Add221`: for all non-overlapping limbs and all single-limb operands, of any
sign and with any cancellation, the declared local error `2^-(2p-3)` is an upper bound, and the
result is a pair whose head is the rounding of the pair. -/
theorem C47_add212 {p : ℕ} (hp : 3 ≤ p) {q : WithBot ℤ} {rnd : ℚ → ℚ} (hr : Nearest p q rnd)
    {x yh yl : ℚ} (hx : Rep p q x) (hy : Limbs2 p q yh yl) :
    let r := add212 rnd x yh yl
    Approx (localAdd221 p) (x + (yh + yl)) (r.1 + r.2) ∧ rnd (r.1 + r.2) = r.1 := by
  intro r
  have hp1 : 1 ≤ p := by omega
  obtain ⟨hyh, hyl, hl⟩ := hy
  obtain ⟨t1, t2, t3⟩ := C46_twosum hp hr hx hyh
  obtain ⟨e0, a, b, c, hq, ha, hb, hc, rfl, rfl, rfl⟩ := three_units hx hyh hyl
  obtain ⟨ri, hri, hrr⟩ := lift hp1 hr hq
  have hcore := core212 hp hri ha hb hc (limb_int hl)
  dsimp only at hcore
  set s := ri (a + b) with hs
  have es : (twoSum rnd ((a:ℚ) * 2 ^ e0) (b * 2 ^ e0)).1 = (s:ℚ) * 2 ^ e0 := by
    rw [t1, ← hrr]; congr 1; push_cast; ring
  have ee : (twoSum rnd ((a:ℚ) * 2 ^ e0) (b * 2 ^ e0)).2 = ((a + b - s : ℤ):ℚ) * 2 ^ e0 := by
    rw [es] at t3; push_cast; linarith
  set w := a + b - s + c with hw
  have ew : rnd ((twoSum rnd ((a:ℚ) * 2 ^ e0) (b * 2 ^ e0)).2 + (c:ℚ) * 2 ^ e0)
      = (ri w : ℚ) * 2 ^ e0 := by
    rw [ee, ← hrr w, hw, ← add_mul]; push_cast; rfl
  have er : r = fastTwoSum rnd ((s:ℚ) * 2 ^ e0) ((ri w : ℚ) * 2 ^ e0) := by
    show fastTwoSum rnd _ _ = _
    rw [es, ew]
  have hF := C46_fasttwosum hp1 hr (Rep_of_FI hp1 hq (hri (a + b)).1)
    (Rep_of_FI hp1 hq (hri w).1) (by
      rcases hcore.1 with h | h
      · left; exact abs_le_scale.2 h
      · right; rw [← hs, h]; simp)
  rw [← hs, ← er] at hF
  obtain ⟨f1, -, f3⟩ := hF
  refine ⟨?_, by rw [f3, f1]⟩
  rw [f3]
  unfold Approx localAdd221
  have h2 := scale_err (p := p) (K := 8) (w := w - ri w) (v := a + b + c) (e0 := e0) (k := 3)
    (by norm_num) hcore.2
  rw [← abs_neg] at h2
  convert h2 using 2
  · rw [hw]; push_cast; ring
  · congr 1; push_cast; ring

theorem C47_add221 {p : ℕ} (hp : 3 ≤ p) {q : WithBot ℤ} {rnd : ℚ → ℚ} (hr : Nearest p q rnd)
    {xh xl y : ℚ} (hy : Rep p q y) (hx : Limbs2 p q xh xl) :
    let r := add221 rnd xh xl y
    Approx (localAdd221 p) ((xh + xl) + y) (r.1 + r.2) ∧ rnd (r.1 + r.2) = r.1 := by
  have h := C47_add212 hp hr hy hx
  rw [add_comm] at h
  exact h

example : Limbs2 53 ⊥ 1 (2 ^ (-60 : ℤ)) ∧ Rep 53 ⊥ (-1 + 2 ^ (-53 : ℤ)) :=
  ⟨⟨⟨1, 0, by norm_num, bot_le, by norm_num⟩, ⟨1, -60, by norm_num, bot_le, by norm_num⟩,
    by rw [abs_of_pos, abs_of_pos] <;> norm_num⟩, ⟨-2 ^ 53 + 1, -53, by norm_num, bot_le, by norm_num⟩⟩

/-- **C47**, `Add222`, heads of the same sign: the declared local error `2^-(2p-6)` is an upper
bound (`6 * 2^-2p` is one). -/
theorem C47_add222_partial {p : ℕ} (hp : 3 ≤ p) {q : WithBot ℤ} {rnd : ℚ → ℚ}
    (hr : Nearest p q rnd) {xh xl yh yl : ℚ} (hx : Limbs2 p q xh xl) (hy : Limbs2 p q yh yl)
    (hs : |xh + yh| = |xh| + |yh|) :
    let r := add222 rnd xh xl yh yl
    Approx (localAdd222 p) ((xh + xl) + (yh + yl)) (r.1 + r.2) ∧ rnd (r.1 + r.2) = r.1 := by
  intro r
  have hp1 : 1 ≤ p := by omega
  obtain ⟨hxh, hxl, hlx⟩ := hx
  obtain ⟨hyh, hyl, hly⟩ := hy
  obtain ⟨t1, t2, t3⟩ := C46_twosum hp hr hxh hyh
  have units : ∃ (e0 : ℤ) (a b c d : ℤ), q ≤ (e0 : WithBot ℤ) ∧ FI p a ∧ FI p b ∧ FI p c ∧ FI p d ∧
      xh = (a : ℚ) * (2:ℚ) ^ e0 ∧ xl = (b : ℚ) * (2:ℚ) ^ e0 ∧ yh = (c : ℚ) * (2:ℚ) ^ e0 ∧
      yl = (d : ℚ) * (2:ℚ) ^ e0 := by
    obtain ⟨m, e, hm, he, rfl⟩ := hxh
    obtain ⟨n, f, hn, hf, rfl⟩ := hxl
    obtain ⟨o, g, ho, hg, rfl⟩ := hyh
    obtain ⟨u, h, hu, hh, rfl⟩ := hyl
    have hmin : q ≤ ((min (min e f) (min g h) : ℤ) : WithBot ℤ) := by
      rcases min_choice (min e f) (min g h) with h1 | h1 <;> rw [h1]
      · rcases min_choice e f with h1 | h1 <;> rw [h1] <;> assumption
      · rcases min_choice g h with h1 | h1 <;> rw [h1] <;> assumption
    obtain ⟨a, ha, ha2⟩ := FI_of_Rep hm (show min (min e f) (min g h) ≤ e by omega)
    obtain ⟨b, hb, hb2⟩ := FI_of_Rep hn (show min (min e f) (min g h) ≤ f by omega)
    obtain ⟨c, hc, hc2⟩ := FI_of_Rep ho (show min (min e f) (min g h) ≤ g by omega)
    obtain ⟨d, hd, hd2⟩ := FI_of_Rep hu (show min (min e f) (min g h) ≤ h by omega)
    exact ⟨_, a, b, c, d, hmin, ha, hb, hc, hd, ha2, hb2, hc2, hd2⟩
  obtain ⟨e0, a, b, c, d, hq, ha, hb, hc, hd, rfl, rfl, rfl, rfl⟩ := units
  obtain ⟨ri, hri, hrr⟩ := lift hp1 hr hq
  have hsum : |a + c| = |a| + |c| := by
    rw [← add_mul, abs_mul, abs_mul, abs_mul, ← add_mul] at hs
    have := mul_right_cancel₀ (abs_ne_zero.2 (zpow2_pos e0).ne') hs
    exact_mod_cast this
  have hcore := core222 hp hri hsum (limb_int hlx) (limb_int hly)
  dsimp only at hcore
  set s := ri (a + c) with hs'
  have es : (twoSum rnd ((a:ℚ) * 2 ^ e0) (c * 2 ^ e0)).1 = (s:ℚ) * 2 ^ e0 := by
    rw [t1, ← hrr]; congr 1; push_cast; ring
  have ee : (twoSum rnd ((a:ℚ) * 2 ^ e0) (c * 2 ^ e0)).2 = ((a + c - s : ℤ):ℚ) * 2 ^ e0 := by
    rw [es] at t3; push_cast; linarith
  have e3 : rnd ((b:ℚ) * 2 ^ e0 + (d:ℚ) * 2 ^ e0) = (ri (b + d) : ℚ) * 2 ^ e0 := by
    rw [← hrr]; congr 1; push_cast; ring
  set w := a + c - s + ri (b + d) with hw
  have ew : rnd ((twoSum rnd ((a:ℚ) * 2 ^ e0) (c * 2 ^ e0)).2 + (ri (b + d) : ℚ) * 2 ^ e0)
      = (ri w : ℚ) * 2 ^ e0 := by
    rw [ee, ← hrr w, hw, ← add_mul]; push_cast; rfl
  have er : r = fastTwoSum rnd ((s:ℚ) * 2 ^ e0) ((ri w : ℚ) * 2 ^ e0) := by
    show fastTwoSum rnd _ _ = _
    rw [es, e3, ew]
  have hF := C46_fasttwosum hp1 hr (Rep_of_FI hp1 hq (hri (a + c)).1)
    (Rep_of_FI hp1 hq (hri w).1) (Or.inl (abs_le_scale.2 hcore.1))
  rw [← hs', ← er] at hF
  obtain ⟨f1, -, f3⟩ := hF
  refine ⟨?_, by rw [f3, f1]⟩
  rw [f3]
  unfold Approx localAdd222
  have hle : 2 ^ p * (2 ^ p * |s + ri w - (a + b + c + d)|) ≤ 64 * |a + b + c + d| :=
    hcore.2.trans (by have := abs_nonneg (a + b + c + d); linarith)
  have h2 := scale_err (p := p) (K := 64) (e0 := e0) (k := 6) (by norm_num) hle
  convert h2 using 2
  · push_cast; ring
  · congr 1; push_cast; ring

example : Limbs2 53 ⊥ 3 (2 ^ (-60 : ℤ)) ∧ Limbs2 53 ⊥ 1 (-2 ^ (-60 : ℤ)) ∧
    |(3 : ℚ) + 1| = |(3:ℚ)| + |(1:ℚ)| :=
  ⟨⟨⟨3, 0, by norm_num, bot_le, by norm_num⟩, ⟨1, -60, by norm_num, bot_le, by norm_num⟩,
    by rw [abs_of_pos, abs_of_pos] <;> norm_num⟩,
   ⟨⟨1, 0, by norm_num, bot_le, by norm_num⟩, ⟨-1, -60, by norm_num, bot_le, by norm_num⟩,
    by rw [abs_neg, abs_of_pos, abs_of_pos] <;> norm_num⟩, by norm_num⟩

/-- With heads of opposite signs the declared local error of `Add222` is not an upper bound, on
binary64 operands accepted by its input check. -/
theorem C47_add222_cancellation_wrong :
    ∃ xh xl yh yl : ℚ, Limbs2 53 ⊥ xh xl ∧ Limbs2 53 ⊥ yh yl ∧ xh + xl + (yh + yl) ≠ 0 ∧
      let r := add222 (roundNearest 53 ⊥) xh xl yh yl
      ¬ Approx (localAdd222 53) (xh + xl + (yh + yl)) (r.1 + r.2) := by
  refine ⟨1, -2 ^ (-53 : ℤ), -1 + 2 ^ (-53 : ℤ), -2 ^ (-107 : ℤ),
    ⟨⟨1, 0, by norm_num, bot_le, by norm_num⟩, ⟨-1, -53, by norm_num, bot_le, by norm_num⟩,
      by decide +kernel⟩,
    ⟨⟨-2 ^ 53 + 1, -53, by norm_num, bot_le, by norm_num⟩,
      ⟨-1, -107, by norm_num, bot_le, by norm_num⟩, by decide +kernel⟩, by decide +kernel, ?_⟩
  unfold Approx; decide +kernel

/-! ### Two-limb products -/

theorem u_le {p : ℕ} (hp : 3 ≤ p) : (2:ℚ) ^ (-(p:ℤ)) ≤ 1 / 8 := by
  have : (2:ℚ) ^ (-(p:ℤ)) ≤ 2 ^ (-3 : ℤ) := zpow_le_zpow_right₀ (by norm_num) (by omega)
  norm_num at this ⊢
  exact this

theorem u_sq (p : ℕ) : (2:ℚ) ^ (-((p:ℤ) + p - 4)) = 16 * ((2:ℚ) ^ (-(p:ℤ)) * (2:ℚ) ^ (-(p:ℤ))) := by
  rw [show -((p:ℤ) + p - 4) = 4 + (-(p:ℤ) + -(p:ℤ)) by ring, zpow_add₀ (by norm_num),
    zpow_add₀ (by norm_num)]
  norm_num

/-- **C47**, `Mul212`/`Mul221` without underflow: the declared local error `2^-(2p-4)` is an upper
bound for all non-overlapping limbs. -/
theorem C47_mul212 {p : ℕ} (hp : 3 ≤ p) {rnd : ℚ → ℚ} (hr : Nearest p ⊥ rnd)
    {x yh yl : ℚ} (hx : Rep p ⊥ x) (hy : Limbs2 p ⊥ yh yl) :
    let r := mul212 rnd x yh yl
    Approx (localMul221 p) (x * (yh + yl)) (r.1 + r.2) ∧ rnd (r.1 + r.2) = r.1 := by
  intro r
  have hp1 : 1 ≤ p := by omega
  obtain ⟨hyh, hyl, hl⟩ := hy
  obtain ⟨m1, m2, m3⟩ := C64_mul211_unbounded hp1 hr hx hyh
  have hu8 := u_le hp
  have hu0 := zpow2_pos (-(p:ℤ))
  set u := (2:ℚ) ^ (-(p:ℤ)) with hu
  set P := |x * yh| with hP
  have hP0 : 0 ≤ P := abs_nonneg _
  set t1 := (mul211 rnd x yh).1 with ht1
  set t2 := (mul211 rnd x yh).2 with ht2
  set t3 := rnd (x * yl) with ht3
  set t4 := rnd (t2 + t3) with ht4
  have b2 : |t2| ≤ u * P := by
    have := (rnd_rel hp1 hr (x * yh)).1
    rw [← m1] at this
    rwa [show x * yh - t1 = t2 by linarith] at this
  have bx : |x * yl| ≤ u * P := by
    rw [hP, abs_mul, abs_mul]
    have := mul_le_mul_of_nonneg_left hl (abs_nonneg x)
    linarith
  have b3 : |x * yl - t3| ≤ u * (u * P) :=
    (rnd_rel hp1 hr _).1.trans (mul_le_mul_of_nonneg_left bx hu0.le)
  have b3' : |t3| ≤ u * P + u * (u * P) := by
    have := abs_add_le (x * yl) (-(x * yl - t3))
    rw [abs_neg, show x * yl + -(x * yl - t3) = t3 by ring] at this
    linarith
  have b4 : |t2 + t3 - t4| ≤ u * (2 * (u * P) + u * (u * P)) := by
    refine (rnd_rel hp1 hr _).1.trans (mul_le_mul_of_nonneg_left ?_ hu0.le)
    have := abs_add_le t2 t3
    linarith
  have hv0 : 0 ≤ u * P := by positivity
  have huv : u * (u * P) ≤ 1 / 8 * (u * P) := mul_le_mul_of_nonneg_right hu8 hv0
  have hPv : u * P ≤ 1 / 8 * P := mul_le_mul_of_nonneg_right hu8 hP0
  have huu0 : 0 ≤ u * (u * P) := by positivity
  have huuu : u * (u * (u * P)) ≤ 1 / 8 * (u * (u * P)) := mul_le_mul_of_nonneg_right hu8 huu0
  have b4' : |t4| ≤ P / 2 := by
    have h1 := abs_add_le (t2 + t3) (-(t2 + t3 - t4))
    rw [abs_neg, show t2 + t3 + -(t2 + t3 - t4) = t4 by ring] at h1
    have h2 := abs_add_le t2 t3
    linarith
  have bt1 : P - u * P ≤ |t1| := by
    have := abs_add_le t1 t2
    rw [m3] at this
    linarith
  have hF := C46_fasttwosum hp1 hr (x := t1) (y := t4) (by rw [m1]; exact (hr _).1) (hr _).1
    (Or.inl (by linarith))
  have er : fastTwoSum rnd t1 t4 = r := rfl
  rw [er] at hF
  obtain ⟨f1, -, f3⟩ := hF
  refine ⟨?_, by rw [f3, f1]⟩
  rw [f3]
  unfold Approx localMul221
  rw [u_sq]
  have e1 : |t1 + t4 - x * (yh + yl)| ≤ |x * yl - t3| + |t2 + t3 - t4| := by
    have := abs_add_le (-(x * yl - t3)) (-(t2 + t3 - t4))
    rw [abs_neg, abs_neg] at this
    refine le_trans (le_of_eq ?_) this
    congr 1
    linear_combination m3
  have e2 : P - u * P ≤ |x * (yh + yl)| := by
    have h1 := abs_add_le (x * (yh + yl)) (-(x * yl))
    rw [abs_neg, show x * (yh + yl) + -(x * yl) = x * yh by ring] at h1
    linarith
  have e3 : u * u * (P - u * P) ≤ u * u * |x * (yh + yl)| :=
    mul_le_mul_of_nonneg_left e2 (by positivity)
  rw [← hu]
  linarith

/-- **C47**, `Mul222` without underflow: the declared local error `2^-(2p-4)` is an upper bound
for all non-overlapping limbs. (The declared *global* error is not: `C47_mul222_wrong`.) -/
theorem C47_mul222_local {p : ℕ} (hp : 3 ≤ p) {rnd : ℚ → ℚ} (hr : Nearest p ⊥ rnd)
    {xh xl yh yl : ℚ} (hx : Limbs2 p ⊥ xh xl) (hy : Limbs2 p ⊥ yh yl) :
    let r := mul222 rnd xh xl yh yl
    Approx (localMul222 p) ((xh + xl) * (yh + yl)) (r.1 + r.2) ∧ rnd (r.1 + r.2) = r.1 := by
  intro r
  have hp1 : 1 ≤ p := by omega
  obtain ⟨hxh, hxl, hlx⟩ := hx
  obtain ⟨hyh, hyl, hly⟩ := hy
  obtain ⟨m1, m2, m3⟩ := C64_mul211_unbounded hp1 hr hxh hyh
  have hu8 := u_le hp
  have hu0 := zpow2_pos (-(p:ℤ))
  set u := (2:ℚ) ^ (-(p:ℤ)) with hu
  set P := |xh * yh| with hP
  have hP0 : 0 ≤ P := abs_nonneg _
  set ph := (mul211 rnd xh yh).1 with hph
  set pl := (mul211 rnd xh yh).2 with hpl
  set pl2 := rnd (xh * yl + pl) with hpl2
  set pl3 := rnd (xl * yh + pl2) with hpl3
  have b1 : |pl| ≤ u * P := by
    have := (rnd_rel hp1 hr (xh * yh)).1
    rw [← m1] at this
    rwa [show xh * yh - ph = pl by linarith] at this
  have bxy : |xh * yl| ≤ u * P := by
    rw [hP, abs_mul, abs_mul]
    have := mul_le_mul_of_nonneg_left hly (abs_nonneg xh)
    linarith
  have byx : |xl * yh| ≤ u * P := by
    rw [hP, abs_mul, abs_mul]
    have := mul_le_mul_of_nonneg_right hlx (abs_nonneg yh)
    linarith
  have bll : |xl * yl| ≤ u * (u * P) := by
    rw [hP, abs_mul, abs_mul]
    have := mul_le_mul hlx hly (abs_nonneg _) ((abs_nonneg _).trans hlx)
    linarith
  have hv0 : 0 ≤ u * P := by positivity
  have huv : u * (u * P) ≤ 1 / 8 * (u * P) := mul_le_mul_of_nonneg_right hu8 hv0
  have hPv : u * P ≤ 1 / 8 * P := mul_le_mul_of_nonneg_right hu8 hP0
  have huu0 : 0 ≤ u * (u * P) := by positivity
  have huuu : u * (u * (u * P)) ≤ 1 / 8 * (u * (u * P)) := mul_le_mul_of_nonneg_right hu8 huu0
  have b2 : |xh * yl + pl - pl2| ≤ u * (2 * (u * P)) := by
    refine (rnd_rel hp1 hr _).1.trans (mul_le_mul_of_nonneg_left ?_ hu0.le)
    have := abs_add_le (xh * yl) pl
    linarith
  have b2' : |pl2| ≤ 2 * (u * P) + 2 * (u * (u * P)) := by
    have h1 := abs_add_le (xh * yl + pl) (-(xh * yl + pl - pl2))
    rw [abs_neg, show xh * yl + pl + -(xh * yl + pl - pl2) = pl2 by ring] at h1
    have h2 := abs_add_le (xh * yl) pl
    linarith
  have b3 : |xl * yh + pl2 - pl3| ≤ u * (3 * (u * P) + 2 * (u * (u * P))) := by
    refine (rnd_rel hp1 hr _).1.trans (mul_le_mul_of_nonneg_left ?_ hu0.le)
    have := abs_add_le (xl * yh) pl2
    linarith
  have b3' : |pl3| ≤ P / 2 := by
    have h1 := abs_add_le (xl * yh + pl2) (-(xl * yh + pl2 - pl3))
    rw [abs_neg, show xl * yh + pl2 + -(xl * yh + pl2 - pl3) = pl3 by ring] at h1
    have h2 := abs_add_le (xl * yh) pl2
    linarith
  have bph : P - u * P ≤ |ph| := by
    have := abs_add_le ph pl
    rw [m3] at this
    linarith
  have hF := C46_fasttwosum hp1 hr (x := ph) (y := pl3) (by rw [m1]; exact (hr _).1) (hr _).1
    (Or.inl (by linarith))
  have er : fastTwoSum rnd ph pl3 = r := rfl
  rw [er] at hF
  obtain ⟨f1, -, f3⟩ := hF
  refine ⟨?_, by rw [f3, f1]⟩
  rw [f3]
  unfold Approx localMul222
  rw [show -((p:ℤ) * 2 - 4) = -((p:ℤ) + p - 4) by ring, u_sq]
  have e1 : |ph + pl3 - (xh + xl) * (yh + yl)|
      ≤ |xh * yl + pl - pl2| + |xl * yh + pl2 - pl3| + |xl * yl| := by
    have h1 := abs_add_le (-(xh * yl + pl - pl2)) (-(xl * yh + pl2 - pl3))
    have h2 := abs_add_le (-(xh * yl + pl - pl2) + -(xl * yh + pl2 - pl3)) (-(xl * yl))
    rw [abs_neg (xl * yl)] at h2
    rw [abs_neg, abs_neg] at h1
    refine le_trans (le_of_eq ?_) (h2.trans (by linarith))
    congr 1
    linear_combination m3
  have e2 : P / 2 ≤ |(xh + xl) * (yh + yl)| := by
    have h1 := abs_add_le ((xh + xl) * (yh + yl)) (-(xh * yl + xl * yh + xl * yl))
    rw [abs_neg, show (xh + xl) * (yh + yl) + -(xh * yl + xl * yh + xl * yl) = xh * yh by ring] at h1
    have h2 := abs_add_le (xh * yl + xl * yh) (xl * yl)
    have h3 := abs_add_le (xh * yl) (xl * yh)
    linarith
  have e3 : u * u * (P / 2) ≤ u * u * |(xh + xl) * (yh + yl)| :=
    mul_le_mul_of_nonneg_left e2 (by positivity)
  rw [← hu]
  linarith

example : Approx (localMul222 53) ((1 + 2 ^ (-60 : ℤ)) * (1 + 2 ^ (-60 : ℤ)))
    (let r := mul222 (roundNearest 53 ⊥) 1 (2 ^ (-60 : ℤ)) 1 (2 ^ (-60 : ℤ)); r.1 + r.2) := by
  unfold Approx; decide +kernel

/-! ### Multi-limb FMA -/

/-- **C65**, `MP_FMA2111`: for all operands the two-limb result approximates `x*y + z` with the
declared error of the final addition, whatever cancellation occurs. -/
theorem C65_fma2111_partial {p : ℕ} (hp : 3 ≤ p) {rnd : ℚ → ℚ} (hr : Nearest p ⊥ rnd) {x y z : ℚ}
    (hx : Rep p ⊥ x) (hy : Rep p ⊥ y) (hz : Rep p ⊥ z) :
    let r := mpFma2111 rnd x y z
    Approx (localAdd221 p) (x * y + z) (r.1 + r.2) ∧ rnd (r.1 + r.2) = r.1 := by
  have hp1 : 1 ≤ p := by omega
  obtain ⟨m1, m2, m3⟩ := C64_mul211_unbounded hp1 hr hx hy
  have hl : Limbs2 p ⊥ (mul211 rnd x y).1 (mul211 rnd x y).2 := by
    refine ⟨by rw [m1]; exact (hr _).1, m2, ?_⟩
    have := (rnd_rel hp1 hr (x * y)).2
    rw [← m1] at this
    rwa [show x * y - (mul211 rnd x y).1 = (mul211 rnd x y).2 by linarith] at this
  have h := C47_add221 hp hr hz hl
  rw [m3] at h
  exact h

example : Approx (localAdd221 53) ((1 + 2 ^ (-30 : ℤ)) * (1 - 2 ^ (-30 : ℤ)) + -1)
    (let r := mpFma2111 (roundNearest 53 ⊥) (1 + 2 ^ (-30 : ℤ)) (1 - 2 ^ (-30 : ℤ)) (-1); r.1 + r.2) := by
  unfold Approx; decide +kernel

/-- `MP_FMA2212` passes its limbs to the product in the wrong positions (it multiplies `xh` by the
pair `xl, y`): even with no addend the two-limb product is lost to single precision. -/
theorem C65_fma2212_wrong :
    ∃ xh xl y zh zl : ℚ, Limbs2 53 ⊥ xh xl ∧ Rep 53 ⊥ y ∧ Limbs2 53 ⊥ zh zl ∧ zh + zl = 0 ∧
      let r := mpFma2212 (roundNearest 53 ⊥) xh xl y zh zl
      ¬ Approx (2 ^ (-54 : ℤ)) ((xh + xl) * y + (zh + zl)) (r.1 + r.2) := by
  refine ⟨1, 2 ^ (-53 : ℤ), 3, 0, 0,
    ⟨⟨1, 0, by norm_num, bot_le, by norm_num⟩, ⟨1, -53, by norm_num, bot_le, by norm_num⟩,
      by decide +kernel⟩, ⟨3, 0, by norm_num, bot_le, by norm_num⟩,
    ⟨⟨0, 0, by norm_num, bot_le, by norm_num⟩, ⟨0, 0, by norm_num, bot_le, by norm_num⟩,
      by decide +kernel⟩, by norm_num, ?_⟩
  unfold Approx; decide +kernel

end Verif.Blocks
