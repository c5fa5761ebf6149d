import Verif.Blocks.Three

/-! # Three-limb sums: `Add332`, `Add322`, `Add331` -/

namespace Verif.Blocks

local notation "U" => (1 / 9007199254740992 : ℚ)

theorem pow_mono {a b : ℤ} (h : a ≤ b) : (2:ℚ) ^ a ≤ (2:ℚ) ^ b := zpow_le_zpow_right₀ (by norm_num) h

theorem low_limb {o u : ℤ} {h m l : ℚ} (h1 : |m| ≤ (2:ℚ) ^ (-o) * |h|) (h2 : |l| ≤ (2:ℚ) ^ (-u) * |m|) :
    |l| ≤ (2:ℚ) ^ (-o) * (2:ℚ) ^ (-u) * |h| := by
  have h3 := mul_le_mul_of_nonneg_left h1 (zpow2_pos (-u)).le
  linarith [show (2:ℚ) ^ (-u) * ((2:ℚ) ^ (-o) * |h|) = (2:ℚ) ^ (-o) * (2:ℚ) ^ (-u) * |h| by ring]

set_option maxHeartbeats 1000000 in
/-- **C67**, `Add332`, heads of the same sign: the error is at most twice the declared one and the declared limb factors hold.
Missing: the factor two, and heads of opposite signs, which the code accepts (see `C67_add332_cancellation_wrong`). -/
theorem C67_add332_partial {q : WithBot ℤ} {rnd : ℚ → ℚ} (hr : Nearest 53 q rnd) {bo bu : ℤ} (hbo : 2 ≤ bo) (hbu : 1 ≤ bu)
    {xh xm xl yh yl : ℚ} (hx : Limbs3 53 q bo bu xh xm xl) (hy : Limbs2 53 q yh yl) (hs : |xh + yh| = |xh| + |yh|) :
    Result3 (2 * localAdd332 bo bu) (factorAdd332 bo bu) ((xh + xm + xl) + (yh + yl)) (add332 rnd xh xm xl yh yl) := by
  obtain ⟨rxh, rxm, rxl, hxm, hxl⟩ := hx
  obtain ⟨ryh, ryl, hyl⟩ := hy
  have hxl' := low_limb hxm hxl
  rw [u53] at hyl
  set B := (2:ℚ) ^ (-bo) with hB
  set C := (2:ℚ) ^ (-bu) with hC
  set H := |xh| + |yh| with hH
  have hxh0 := abs_nonneg xh
  have hyh0 := abs_nonneg yh
  have hB0 : 0 < B := zpow2_pos _
  have hC0 : 0 < C := zpow2_pos _
  have hB4 : B ≤ 1 / 4 := (pow_mono (b := -2) (by omega)).trans (by norm_num)
  have hC2 : C ≤ 1 / 2 := (pow_mono (b := -1) (by omega)).trans (by norm_num)
  have hP : B * |xh| ≤ 1 / 4 * |xh| := mul_le_mul_of_nonneg_right hB4 hxh0
  have hP0 : 0 ≤ B * |xh| := by positivity
  have hY : B * C * |xh| ≤ 1 / 2 * (B * |xh|) := by
    have := mul_le_mul_of_nonneg_right hC2 hP0
    linarith
  have hY0 : 0 ≤ B * C * |xh| := by positivity
  set P := B * |xh| with hPd
  set Y := B * C * |xh| with hYd
  obtain ⟨xm1, xm2⟩ := abs_le.1 hxm
  obtain ⟨xl1, xl2⟩ := abs_le.1 hxl'
  obtain ⟨yl1, yl2⟩ := abs_le.1 hyl
  obtain ⟨ra1, ra2, a3, a4, a5, -⟩ := ts hr rxh ryh (X := H) hs.le
  obtain ⟨rb1, rb2, b3, b4, b5, -⟩ := ts hr rxm ryl (X := P + U * |yh|) (by rw [abs_le]; constructor <;> linarith)
  set a := twoSum rnd xh yh with ha
  set b := twoSum rnd xm yl with hb
  obtain ⟨rc1, rc2, c3, c4, c5, -⟩ := ts hr ra2 rb1 (X := U * H + (1 + U) * (P + U * |yh|)) (by
    rw [abs_le]; constructor <;> linarith)
  set c := twoSum rnd a.2 b.1 with hc
  obtain ⟨e1, e2⟩ := sb hr rb2 rc2 (X := (2 + U) * U * (P + U * |yh|) + U * U * H) (by
    rw [abs_le]; constructor <;> linarith)
  set t5 := rnd (b.2 + c.2) with ht5
  obtain ⟨f1, f2⟩ := sb hr (x := t5) (y := xl) (hr _).1 rxl
      (X := (1 + U) * ((2 + U) * U * (P + U * |yh|) + U * U * H) + Y) (by
    rw [abs_le]; constructor <;> linarith)
  set t8 := rnd (t5 + xl) with ht8
  obtain ⟨rr1, rr2, r3, r4, r5, r6⟩ := ts hr (x := c.1) (y := t8) rc1 (hr _).1 (X := 2 * P + 4 * U * H) (by
    rw [abs_le]; constructor <;> linarith)
  set r := twoSum rnd c.1 t8 with hr'
  have hv : 6 / 10 * H ≤ |(xh + xm + xl) + (yh + yl)| := by
    have : |xh + yh| ≤ |(xh + xm + xl) + (yh + yl)| + |xm + xl + yl| := by
      have h1 := abs_sub_abs_le_abs_sub (xh + yh) (-(xm + xl + yl))
      rw [abs_neg, show xh + yh - -(xm + xl + yl) = (xh + xm + xl) + (yh + yl) by ring] at h1
      linarith
    have h2 : |xm + xl + yl| ≤ P + Y + U * |yh| := by rw [abs_le]; constructor <;> linarith
    linarith
  have hrh : 9 / 10 * H ≤ |a.1| := by
    have : |xh + yh| ≤ |a.1| + |a.2| := by rw [← a3]; exact abs_add_le _ _
    have h5 : |a.2| ≤ U * H := abs_le.2 a5
    linarith
  refine ⟨?_, ?_, ?_⟩
  · show |a.1 + r.1 + r.2 - _| ≤ _
    have herr : |a.1 + r.1 + r.2 - ((xh + xm + xl) + (yh + yl))| ≤ 17 / 16 * U * Y + 17 / 4 * U * U * P + 7 * U * U * U * H := by
      rw [abs_le]; constructor <;> linarith
    refine herr.trans ?_
    have hV : 0 ≤ |(xh + xm + xl) + (yh + yl)| := abs_nonneg _
    set V := |(xh + xm + xl) + (yh + yl)|
    have g0 : |xh| ≤ H := by linarith
    have g1 : B * C * (6 / 10 * |xh|) ≤ B * C * V := mul_le_mul_of_nonneg_left (by linarith) (by positivity)
    have g2 : B * (6 / 10 * |xh|) ≤ B * V := mul_le_mul_of_nonneg_left (by linarith) hB0.le
    have k1 : localAdd332 bo bu = 2 * U * (B * C) + 4 * U * U * B + 64 * U * U * U := by
      unfold localAdd332
      have h1 : (2:ℚ) ^ (-52 : ℤ) = 2 * U := by norm_num
      have h2 : (2:ℚ) ^ (-104 : ℤ) = 4 * U * U := by norm_num
      have h3 : (2:ℚ) ^ (-153 : ℤ) = 64 * U * U * U := by norm_num
      rw [pow_sub_mul, pow_sub_mul (-bo) bu, pow_sub_mul (-bo) 104, h1, h2, h3]; ring
    rw [k1, show 2 * (2 * U * (B * C) + 4 * U * U * B + 64 * U * U * U) * V =
      4 * U * (B * C * V) + 8 * U * U * (B * V) + 128 * U * U * U * V by ring]
    have g1' : 6 / 10 * Y ≤ B * C * V := by rw [hYd]; linarith
    have g2' : 6 / 10 * P ≤ B * V := by rw [hPd]; linarith
    linarith
  · show |r.1| ≤ factorAdd332 bo bu * |a.1|
    have h1 : |r.1| ≤ 3 * P + 5 * U * H := by rw [abs_le]; constructor <;> linarith
    have h2 : 16 * B ≤ factorAdd332 bo bu := by
      have h16 : (2:ℚ) ^ (4 : ℤ) = 16 := by norm_num
      unfold factorAdd332
      rw [← h16, hB, ← zpow_add₀ (by norm_num)]
      exact pow_mono (by omega)
    have h3 : 256 * U ≤ factorAdd332 bo bu := by
      have : (2:ℚ) ^ (-45 : ℤ) = 256 * U := by norm_num
      rw [← this]
      exact pow_mono (by omega)
    have h4 : (8 * B + 128 * U) * |a.1| ≤ factorAdd332 bo bu * |a.1| :=
      mul_le_mul_of_nonneg_right (by linarith) (abs_nonneg _)
    have h5 : B * (9 / 10 * |xh|) ≤ B * |a.1| := mul_le_mul_of_nonneg_left (by linarith) hB0.le
    have h6 : 9 / 10 * P ≤ B * |a.1| := by rw [hPd]; linarith
    rw [show (8 * B + 128 * U) * |a.1| = 8 * (B * |a.1|) + 128 * U * |a.1| by ring] at h4
    linarith
  · show |r.2| ≤ _ * |r.1|
    rw [U53]; exact r6

/-- **C67**, `Add322`: for all operands accepted by the block (ranges with `|y| ≤ |x|/4`, non-overlapping limbs), any signs, the
declared error `2^-120` is an upper bound, and `2^-156` is one.  The middle limb is at most `2^-51` times the head; the declared
`2^-52` does not hold (see `C67_add322_factor_wrong`). -/
theorem C67_add322 {q : WithBot ℤ} {rnd : ℚ → ℚ} (hr : Nearest 53 q rnd) {xh xl yh yl lx hx ly hy : ℚ}
    (limx : Limbs2 53 q xh xl) (limy : Limbs2 53 q yh yl) (x1 : lx ≤ xh + xl) (x2 : xh + xl ≤ hx) (y1 : ly ≤ yh + yl)
    (y2 : yh + yl ≤ hy) (hsel : isIntervalLe ly hy ((2:ℚ) ^ (-2 : ℤ)) lx hx = true) :
    Result3 localAdd322 ((2:ℚ) ^ (-51 : ℤ)) ((xh + xl) + (yh + yl)) (add322 rnd xh xl yh yl) ∧
      let r := add322 rnd xh xl yh yl
      Approx ((2:ℚ) ^ (-156 : ℤ)) ((xh + xl) + (yh + yl)) (r.1 + r.2.1 + r.2.2) := by
  obtain ⟨rxh, rxl, hxl⟩ := limx
  obtain ⟨ryh, ryl, hyl⟩ := limy
  rw [u53] at hxl hyl
  have hle : |yh + yl| ≤ 1 / 4 * |xh + xl| := by
    unfold isIntervalLe at hsel
    have h1 := of_decide_eq_true hsel
    have h2 := le_absSup y1 y2
    have h3 := absInf_le x1 x2
    norm_num at h1
    linarith
  have hxh0 := abs_nonneg xh
  have hyh0 := abs_nonneg yh
  have hx' : |xh + xl| ≤ (1 + U) * |xh| := by have := abs_add_le xh xl; linarith
  have hy' : |yh| ≤ |yh + yl| + |yl| := by
    have := abs_sub_abs_le_abs_sub yh (-yl)
    rw [abs_neg, sub_neg_eq_add] at this; linarith
  have hyh : |yh| ≤ 26 / 100 * |xh| := by linarith
  set H := |xh| with hH
  obtain ⟨xl1, xl2⟩ := abs_le.1 hxl
  obtain ⟨yl1, yl2⟩ := abs_le.1 hyl
  obtain ⟨ra1, ra2, a3⟩ := C46_fasttwosum (by norm_num) hr rxh ryh (Or.inl (by linarith))
  have hab : |xh + yh| ≤ 13 / 10 * H := by have := abs_add_le xh yh; linarith
  have hrel := (sum_rel (by norm_num) hr rxh ryh).1
  rw [← ra1, u53, ← a3, add_sub_cancel_left, a3] at hrel
  set a := fastTwoSum rnd xh yh with ha
  have raR : Rep 53 q a.1 := ra1 ▸ (hr _).1
  have a5' : |a.2| ≤ 13 / 10 * U * H := by linarith
  obtain ⟨a51, a52⟩ := abs_le.1 a5'
  obtain ⟨rb1, rb2, b3, b4, b5, -⟩ := ts hr rxl ryl (X := 13 / 10 * U * H) (by rw [abs_le]; constructor <;> linarith)
  set b := twoSum rnd xl yl with hb
  obtain ⟨rc1, rc2, c3, c4, c5, -⟩ := ts hr ra2 rb1 (X := 261 / 100 * U * H) (by rw [abs_le]; constructor <;> linarith)
  set c := twoSum rnd a.2 b.1 with hc
  obtain ⟨e1, e2⟩ := sb hr rb2 rc2 (X := 392 / 100 * U * U * H) (by rw [abs_le]; constructor <;> linarith)
  set t6 := rnd (b.2 + c.2) with ht6
  obtain ⟨rr1, rr2, r3, r4, r5, r6⟩ := ts hr (x := c.1) (y := t6) rc1 (hr _).1 (X := 262 / 100 * U * H) (by
    rw [abs_le]; constructor <;> linarith)
  set r := twoSum rnd c.1 t6 with hr'
  have hv : 73 / 100 * H ≤ |(xh + xl) + (yh + yl)| := by
    have h1 := abs_sub_abs_le_abs_sub (xh + xl) (-(yh + yl))
    have h2 := abs_sub_abs_le_abs_sub xh (-xl)
    rw [abs_neg, sub_neg_eq_add] at h1 h2
    linarith
  have hrh : 73 / 100 * H ≤ |a.1| := by
    have h1 := abs_sub_abs_le_abs_sub xh (-yh)
    rw [abs_neg, sub_neg_eq_add, ← a3] at h1
    have := abs_add_le a.1 a.2
    linarith
  have herr : |a.1 + r.1 + r.2 - ((xh + xl) + (yh + yl))| ≤ 4 * U * U * U * H := by
    rw [abs_le]; constructor <;> linarith
  have k1 : (2:ℚ) ^ (-156 : ℤ) = 8 * U * U * U := by norm_num
  have hA : |a.1 + r.1 + r.2 - ((xh + xl) + (yh + yl))| ≤ (2:ℚ) ^ (-156 : ℤ) * |(xh + xl) + (yh + yl)| := by
    rw [k1]; linarith
  refine ⟨⟨?_, ?_, ?_⟩, hA⟩
  · refine hA.trans (mul_le_mul_of_nonneg_right ?_ (abs_nonneg _))
    exact pow_mono (by norm_num)
  · show |r.1| ≤ _ * |a.1|
    have h1 : |r.1| ≤ 263 / 100 * U * H := by rw [abs_le]; constructor <;> linarith
    have h2 : (2:ℚ) ^ (-51 : ℤ) = 4 * U := by norm_num
    rw [h2]; linarith
  · show |r.2| ≤ _ * |r.1|
    rw [U53]; exact r6

/-- **C67**, `Add331`: for all operands accepted by the block whose low limb is declared at most 53 bits below the middle one,
the declared error is an upper bound.  Missing: wider declared gaps (see `C67_add331_wrong`); the declared limb factor does not
hold (see `C67_add331_factor_wrong`): the proved factor is the largest of the three terms of which the code takes the smallest. -/
theorem C67_add331_partial {q : WithBot ℤ} {rnd : ℚ → ℚ} (hr : Nearest 53 q rnd) {bo bu : ℤ} (hbo : 2 ≤ bo) (hbu : 1 ≤ bu)
    (hbu53 : bu ≤ 53) {xh xm xl y lx hx ly hy : ℚ} (limx : Limbs3 53 q bo bu xh xm xl) (ry : Rep 53 q y)
    (x1 : lx ≤ xh + xm + xl) (x2 : xh + xm + xl ≤ hx) (y1 : ly ≤ y) (y2 : y ≤ hy)
    (hsel : isIntervalLt lx hx ((2:ℚ) ^ (-2 : ℤ)) ly hy = true) :
    Result3 (localAdd331 bo bu) ((2:ℚ) ^ (max (-47) (max (3 - bo) (1 - bo - bu)))) ((xh + xm + xl) + y)
      (add331 rnd xh xm xl y) := by
  obtain ⟨rxh, rxm, rxl, hxm, hxl⟩ := limx
  have hlt : |xh + xm + xl| ≤ 1 / 4 * |y| := by
    unfold isIntervalLt at hsel
    have h1 := of_decide_eq_true hsel
    have h2 := le_absSup x1 x2
    have h3 := absInf_le y1 y2
    norm_num at h1
    linarith
  have hxl' := low_limb hxm hxl
  set B := (2:ℚ) ^ (-bo) with hB
  set C := (2:ℚ) ^ (-bu) with hC
  have hxh0 := abs_nonneg xh
  have hB0 : 0 < B := zpow2_pos _
  have hC0 : 0 < C := zpow2_pos _
  have hB4 : B ≤ 1 / 4 := (pow_mono (b := -2) (by omega)).trans (by norm_num)
  have hC2 : C ≤ 1 / 2 := (pow_mono (b := -1) (by omega)).trans (by norm_num)
  have hCU : U ≤ C := by rw [← U53]; exact pow_mono (by omega)
  have hP : B * |xh| ≤ 1 / 4 * |xh| := mul_le_mul_of_nonneg_right hB4 hxh0
  have hP0 : 0 ≤ B * |xh| := by positivity
  have hY : B * C * |xh| ≤ 1 / 2 * (B * |xh|) := by
    have := mul_le_mul_of_nonneg_right hC2 hP0
    linarith
  have hYU : U * (B * |xh|) ≤ B * C * |xh| := by
    have := mul_le_mul_of_nonneg_right hCU hP0
    linarith
  have hY0 : 0 ≤ B * C * |xh| := by positivity
  have hxh : |xh| ≤ 2 / 5 * |y| := by
    have h1 := abs_sub_abs_le_abs_sub xh (-(xm + xl))
    rw [abs_neg, sub_neg_eq_add, ← add_assoc] at h1
    have := abs_add_le xm xl
    linarith
  have hPy : B * |xh| ≤ B * (2 / 5 * |y|) := mul_le_mul_of_nonneg_left hxh hB0.le
  have hYy : B * C * |xh| ≤ B * C * (2 / 5 * |y|) := mul_le_mul_of_nonneg_left hxh (by positivity)
  set P := B * |xh| with hPd
  set Y := B * C * |xh| with hYd
  set H := |y| with hH
  obtain ⟨xm1, xm2⟩ := abs_le.1 hxm
  obtain ⟨xl1, xl2⟩ := abs_le.1 hxl'
  have hab : |y + xh| ≤ 7 / 5 * H := by have := abs_add_le y xh; linarith
  obtain ⟨ra1, ra2, a3, a4, a5, -⟩ := ts hr ry rxh hab
  set a := twoSum rnd y xh with ha
  obtain ⟨rb1, rb2, b3, b4, b5, -⟩ := ts hr ra2 rxm (X := 7 / 5 * U * H + P) (by rw [abs_le]; constructor <;> linarith)
  set b := twoSum rnd a.2 xm with hb
  obtain ⟨e1, e2⟩ := sb hr rb2 rxl (X := 7 / 5 * U * U * H + U * P + Y) (by rw [abs_le]; constructor <;> linarith)
  set t4 := rnd (b.2 + xl) with ht4
  obtain ⟨rr1, rr2, r3, r4, r5, r6⟩ := ts hr (x := b.1) (y := t4) rb1 (hr _).1 (X := 2 * P + 2 * U * H) (by
    rw [abs_le]; constructor <;> linarith)
  set r := twoSum rnd b.1 t4 with hr'
  have hv : 3 / 4 * H ≤ |(xh + xm + xl) + y| := by
    have h1 := abs_sub_abs_le_abs_sub y (-(xh + xm + xl))
    rw [abs_neg, sub_neg_eq_add, add_comm y] at h1
    linarith
  have hrh : 59 / 100 * H ≤ |a.1| := by
    have h1 := abs_sub_abs_le_abs_sub y (-xh)
    rw [abs_neg, sub_neg_eq_add, ← a3] at h1
    have := abs_add_le a.1 a.2
    have h5 : |a.2| ≤ U * (7 / 5 * H) := abs_le.2 a5
    linarith
  have hB' : 0 ≤ B * H := by positivity
  refine ⟨?_, ?_, ?_⟩
  · show |a.1 + r.1 + r.2 - _| ≤ _
    have herr : |a.1 + r.1 + r.2 - ((xh + xm + xl) + y)| ≤ 2 * U * Y + 7 / 5 * U * U * U * H := by
      rw [abs_le]; constructor <;> linarith
    refine herr.trans ?_
    set V := |(xh + xm + xl) + y|
    have k1 : localAdd331 bo bu = 2 * U * (B * C) + 32 * U * U * U := by
      unfold localAdd331
      have h1 : (2:ℚ) ^ (-52 : ℤ) = 2 * U := by norm_num
      have h3 : (2:ℚ) ^ (-154 : ℤ) = 32 * U * U * U := by norm_num
      rw [pow_sub_mul, pow_sub_mul (-52) bo, h1, h3]; ring
    have g1 : B * C * (3 / 4 * H) ≤ B * C * V := mul_le_mul_of_nonneg_left hv (by positivity)
    rw [k1, show (2 * U * (B * C) + 32 * U * U * U) * V = 2 * U * (B * C * V) + 32 * U * U * U * V by ring]
    linarith
  · show |r.1| ≤ _ * |a.1|
    have h1 : |r.1| ≤ 3 * P + 3 * U * H := by rw [abs_le]; constructor <;> linarith
    set F := (2:ℚ) ^ (max (-47) (max (3 - bo) (1 - bo - bu)))
    have h2 : 8 * B ≤ F := by
      have h8 : (2:ℚ) ^ (3 : ℤ) = 8 := by norm_num
      rw [← h8, hB, ← zpow_add₀ (by norm_num)]
      exact pow_mono (by omega)
    have h3 : 64 * U ≤ F := by
      have : (2:ℚ) ^ (-47 : ℤ) = 64 * U := by norm_num
      rw [← this]
      exact pow_mono (by omega)
    have h4 : (4 * B + 32 * U) * |a.1| ≤ F * |a.1| := mul_le_mul_of_nonneg_right (by linarith) (abs_nonneg _)
    have h5 : B * (59 / 100 * H) ≤ B * |a.1| := mul_le_mul_of_nonneg_left hrh hB0.le
    rw [show (4 * B + 32 * U) * |a.1| = 4 * (B * |a.1|) + 32 * U * |a.1| by ring] at h4
    linarith
  · show |r.2| ≤ _ * |r.1|
    rw [U53]; exact r6

end Verif.Blocks
