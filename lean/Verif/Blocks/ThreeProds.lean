import Verif.Blocks.ThreeSums

/-! # Three-limb products: `Mul322`, `Mul321`, `Mul332`, `Mul333`, `Mul313` -/

namespace Verif.Blocks

local notation "U" => (1 / 9007199254740992 : ℚ)

theorem pr {x y X Y : ℚ} (hx : |x| ≤ X) (hy : |y| ≤ Y) : |x * y| ≤ X * Y := by
  rw [abs_mul]; exact mul_le_mul hx hy (abs_nonneg _) ((abs_nonneg _).trans hx)

theorem head_low {P a1 a2 : ℚ} (h : |a1 + a2| = P) (h2 : |a2| ≤ U * P) : (1 - U) * P ≤ |a1| := by
  have := abs_add_le a1 a2
  linarith

set_option maxHeartbeats 1000000 in
/-- **C67**, `Mul322`: for all two-limb operands without overlap the declared error and limb factors hold. -/
theorem C67_mul322 {rnd : ℚ → ℚ} (hr : Nearest 53 ⊥ rnd) {xh xl yh yl : ℚ} (hx : Limbs2 53 ⊥ xh xl)
    (hy : Limbs2 53 ⊥ yh yl) :
    Result3 localMul322 factorMul322 ((xh + xl) * (yh + yl)) (mul322 rnd xh xl yh yl) := by
  obtain ⟨rxh, rxl, hxl⟩ := hx
  obtain ⟨ryh, ryl, hyl⟩ := hy
  rw [u53] at hxl hyl
  set P := |xh * yh| with hP
  have hP0 : 0 ≤ P := abs_nonneg _
  have hPm : P = |xh| * |yh| := abs_mul _ _
  have p2 : |xh * yl| ≤ U * P := by have := pr (le_refl |xh|) hyl; rw [hPm]; linarith
  have p3 : |xl * yh| ≤ U * P := by have := pr hxl (le_refl |yh|); rw [hPm]; linarith
  have p4 : |xl * yl| ≤ U * U * P := by have := pr hxl hyl; rw [hPm]; linarith
  obtain ⟨ra1, ra2, a3, a4, a5, -⟩ := msb hr rxh ryh (X := P) le_rfl
  obtain ⟨rb1, rb2, b3, b4, b5, b6⟩ := msb hr rxh ryl p2
  obtain ⟨rc1, rc2, c3, c4, c5, c6⟩ := msb hr rxl ryh p3
  obtain ⟨e1, e2⟩ := rb hr p4
  set a := mul211 rnd xh yh with ha
  set b := mul211 rnd xh yl with hb
  set c := mul211 rnd xl yh with hc
  set t6 := rnd (xl * yl) with ht6
  obtain ⟨rd1, rd2, d3, d4, d5⟩ := a222 hr rb1 rb2 rc1 rc2 (H := 201 / 100 * U * P)
    (by rw [abs_le]; constructor <;> linarith) (by rw [abs_le]; constructor <;> linarith)
  have d6 := a222n hr rb1 rb2 rc1 rc2 b6 c6
  set d := add222 rnd b.1 b.2 c.1 c.2 with hd
  have rt6 : Rep 53 ⊥ t6 := (hr _).1
  obtain ⟨rf1, rf2, f3, f4, f5, f6⟩ := ts hr ra2 rt6 (X := 101 / 100 * U * P) (by rw [abs_le]; constructor <;> linarith)
  set e := twoSum rnd a.2 t6 with he
  obtain ⟨rg1, rg2, g3, g4, g5⟩ := a222 hr rd1 rd2 rf1 rf2 (H := 31 / 10 * U * P)
    (by rw [abs_le]; constructor <;> linarith) (by rw [abs_le]; constructor <;> linarith)
  have g6 := a222n hr rd1 rd2 rf1 rf2 d6 f6
  set r := add222 rnd d.1 d.2 e.1 e.2 with hr'
  have hv : (1 - 3 * U) * P ≤ |(xh + xl) * (yh + yl)| := by
    have h1 := abs_sub_abs_le_abs_sub (xh * yh) (-(xh * yl + xl * yh + xl * yl))
    rw [abs_neg, sub_neg_eq_add, show xh * yh + (xh * yl + xl * yh + xl * yl) = (xh + xl) * (yh + yl) by ring] at h1
    have h2 := abs_add_le (xh * yl + xl * yh) (xl * yl)
    have h3 := abs_add_le (xh * yl) (xl * yh)
    linarith
  have hrh : (1 - U) * P ≤ |a.1| := head_low (by rw [a3]) (abs_le.2 a5)
  have hexp : (xh + xl) * (yh + yl) = xh * yh + xh * yl + xl * yh + xl * yl := by ring
  refine ⟨?_, ?_, ?_⟩
  · show |a.1 + r.1 + r.2 - _| ≤ _
    have herr : |a.1 + r.1 + r.2 - (xh + xl) * (yh + yl)| ≤ 42 * U * U * U * P := by
      rw [hexp, abs_le]; constructor <;> linarith
    have k1 : localMul322 = 1024 * U * U * U := by unfold localMul322; norm_num
    rw [k1]
    linarith
  · show |r.1| ≤ _ * |a.1|
    have h1 : |r.1| ≤ 4 * U * P := by rw [abs_le]; constructor <;> linarith
    have h2 : factorMul322 = 16 * U := by unfold factorMul322; norm_num
    rw [h2]; linarith
  · show |r.2| ≤ _ * |r.1|
    rw [U53]; exact g6

/-- **C67**, `Mul321`, limbs of the two-limb operand without overlap: the declared error and limb factors hold.  Missing: the block
does not check for overlap (see `C67_mul321_wrong`). -/
theorem C67_mul321_partial {rnd : ℚ → ℚ} (hr : Nearest 53 ⊥ rnd) {xh xl y : ℚ} (hx : Limbs2 53 ⊥ xh xl) (ry : Rep 53 ⊥ y) :
    Result3 localMul321 factorMul321 ((xh + xl) * y) (mul321 rnd xh xl y) := by
  obtain ⟨rxh, rxl, hxl⟩ := hx
  rw [u53] at hxl
  set P := |xh * y| with hP
  have hP0 : 0 ≤ P := abs_nonneg _
  have hPm : P = |xh| * |y| := abs_mul _ _
  have p3 : |xl * y| ≤ U * P := by have := pr hxl (le_refl |y|); rw [hPm]; linarith
  obtain ⟨ra1, ra2, a3, a4, a5, -⟩ := msb hr rxh ry (X := P) le_rfl
  obtain ⟨rb1, rb2, b3, b4, b5, b6⟩ := msb hr rxl ry p3
  set a := mul211 rnd xh y with ha
  set b := mul211 rnd xl y with hb
  obtain ⟨r1, r2⟩ := C47_add221 (by norm_num) hr ra2 (xh := b.1) (xl := b.2) ⟨rb1, rb2, by rw [u53]; exact b6⟩
  set r := add221 rnd b.1 b.2 a.2 with hr'
  have hs : |b.1 + b.2 + a.2| ≤ 2 * U * P := by
    obtain ⟨q1, q2⟩ := abs_le.1 p3
    rw [b3, abs_le]; constructor <;> linarith
  have kl : localAdd221 53 = 8 * U * U := by unfold localAdd221; norm_num
  unfold Approx at r1
  rw [kl] at r1
  have hE : |r.1 + r.2 - (b.1 + b.2 + a.2)| ≤ 16 * U * U * U * P := by
    refine r1.trans ?_
    linarith
  have hn := (rnd_rel (by norm_num) hr (r.1 + r.2)).2
  rw [r2, u53, add_sub_cancel_left] at hn
  have hv : (1 - U) * P ≤ |(xh + xl) * y| := by
    have h1 := abs_sub_abs_le_abs_sub (xh * y) (-(xl * y))
    rw [abs_neg, sub_neg_eq_add, ← add_mul] at h1
    linarith
  have hrh : (1 - U) * P ≤ |a.1| := head_low (by rw [a3]) (abs_le.2 a5)
  refine ⟨?_, ?_, ?_⟩
  · show |a.1 + r.1 + r.2 - _| ≤ _
    have k1 : localMul321 = 32 * U * U * U := by unfold localMul321; norm_num
    rw [k1, show a.1 + r.1 + r.2 - (xh + xl) * y = r.1 + r.2 - (b.1 + b.2 + a.2) by rw [b3, add_mul]; linarith]
    linarith
  · show |r.1| ≤ _ * |a.1|
    have h2 : factorMul321 = 64 * U := by unfold factorMul321; norm_num
    have h3 : |r.1| ≤ |r.1 + r.2| + |r.2| := by
      have := abs_sub_abs_le_abs_sub r.1 (-r.2)
      rw [abs_neg, sub_neg_eq_add] at this; linarith
    have h4 : |r.1 + r.2| ≤ |r.1 + r.2 - (b.1 + b.2 + a.2)| + |b.1 + b.2 + a.2| := by
      have := abs_add_le (r.1 + r.2 - (b.1 + b.2 + a.2)) (b.1 + b.2 + a.2)
      rwa [sub_add_cancel] at this
    rw [h2]; linarith
  · show |r.2| ≤ _ * |r.1|
    rw [U53]; exact hn

set_option maxHeartbeats 2000000 in
/-- **C67**, `Mul332`, leading gap of at least two bits: the declared error and limb factors hold.  Missing: a gap of one bit, which
the code accepts and for which the declared error is negative (see `C67_mul332_wrong`). -/
theorem C67_mul332_partial {rnd : ℚ → ℚ} (hr : Nearest 53 ⊥ rnd) {bo bu : ℤ} (hbo : 2 ≤ bo) (hbu : 1 ≤ bu)
    {xh xm xl yh yl : ℚ} (hx : Limbs3 53 ⊥ bo bu xh xm xl) (hy : Limbs2 53 ⊥ yh yl) :
    Result3 (localMul332 bo bu) (factorMul332 bo bu) ((xh + xm + xl) * (yh + yl)) (mul332 rnd xh xm xl yh yl) := by
  obtain ⟨rxh, rxm, rxl, hxm, hxl⟩ := hx
  obtain ⟨ryh, ryl, hyl⟩ := hy
  have hxl' := low_limb hxm hxl
  rw [u53] at hyl
  set B := (2:ℚ) ^ (-bo) with hB
  set C := (2:ℚ) ^ (-bu) with hC
  have hB0 : 0 < B := zpow2_pos _
  have hC0 : 0 < C := zpow2_pos _
  have hB4 : B ≤ 1 / 4 := (pow_mono (b := -2) (by omega)).trans (by norm_num)
  have hC2 : C ≤ 1 / 2 := (pow_mono (b := -1) (by omega)).trans (by norm_num)
  set P := |yh * xh| with hP
  have hP0 : 0 ≤ P := abs_nonneg _
  have hPm : P = |yh| * |xh| := abs_mul _ _
  have hBP0 : 0 ≤ B * P := by positivity
  have hBC0 : 0 ≤ B * C * P := by positivity
  have hBP : B * P ≤ 1 / 4 * P := mul_le_mul_of_nonneg_right hB4 hP0
  have hBC : B * C * P ≤ 1 / 2 * (B * P) := by have := mul_le_mul_of_nonneg_right hC2 hBP0; linarith
  have p2 : |yh * xm| ≤ B * P := by have := pr (le_refl |yh|) hxm; rw [hPm]; linarith
  have p3 : |yh * xl| ≤ B * C * P := by have := pr (le_refl |yh|) hxl'; rw [hPm]; linarith
  have p4 : |yl * xh| ≤ U * P := by have := pr hyl (le_refl |xh|); rw [hPm]; linarith
  have p5 : |yl * xm| ≤ U * (B * P) := by have := pr hyl hxm; rw [hPm]; linarith
  have p6 : |yl * xl| ≤ U * (B * C * P) := by have := pr hyl hxl'; rw [hPm]; linarith
  set Q := B * P with hQ
  set R := B * C * P with hR
  obtain ⟨ra1, ra2, a3, a4, a5, -⟩ := msb hr ryh rxh (X := P) le_rfl
  obtain ⟨rb1, rb2, b3, b4, b5, b6⟩ := msb hr ryh rxm p2
  obtain ⟨rc1, rc2, c3, c4, c5, c6⟩ := msb hr ryh rxl p3
  obtain ⟨rd1, rd2, d3, d4, d5, d6⟩ := msb hr ryl rxh p4
  obtain ⟨re1, re2, e3, e4, e5, e6⟩ := msb hr ryl rxm p5
  obtain ⟨t1, t2⟩ := rb hr p6
  set a := mul211 rnd yh xh with ha
  set b := mul211 rnd yh xm with hb
  set c := mul211 rnd yh xl with hc
  set d := mul211 rnd yl xh with hd
  set e := mul211 rnd yl xm with he
  set t10 := rnd (yl * xl) with ht10
  obtain ⟨rf1, rf2, f3, f4, f5⟩ := a222 hr rb1 rb2 rc1 rc2 (H := (1 + U) * (Q + R))
    (by rw [abs_le]; constructor <;> linarith) (by rw [abs_le]; constructor <;> linarith)
  have f6 := a222n hr rb1 rb2 rc1 rc2 b6 c6
  set f := add222 rnd b.1 b.2 c.1 c.2 with hf
  obtain ⟨rg1, rg2, g3, g4, g5⟩ := a222 hr rd1 rd2 re1 re2 (H := 126 / 100 * U * P)
    (by rw [abs_le]; constructor <;> linarith) (by rw [abs_le]; constructor <;> linarith)
  have g6 := a222n hr rd1 rd2 re1 re2 d6 e6
  set g := add222 rnd d.1 d.2 e.1 e.2 with hg
  obtain ⟨rh1, rh2, h3, h4, h5⟩ := a222 hr rf1 rf2 rg1 rg2 (H := 101 / 100 * (Q + R) + 13 / 10 * U * P)
    (by rw [abs_le]; constructor <;> linarith) (by rw [abs_le]; constructor <;> linarith)
  have h6 := a222n hr rf1 rf2 rg1 rg2 f6 g6
  set h := add222 rnd f.1 f.2 g.1 g.2 with hh
  have rt : Rep 53 ⊥ t10 := (hr _).1
  obtain ⟨ri1, ri2, i3, i4, i5, i6⟩ := ts hr ra2 rt (X := 114 / 100 * U * P) (by rw [abs_le]; constructor <;> linarith)
  set i := twoSum rnd a.2 t10 with hi
  obtain ⟨rr1, rr2, r3, r4, r5⟩ := a222 hr ri1 ri2 rh1 rh2 (H := 102 / 100 * (Q + R) + 25 / 10 * U * P)
    (by rw [abs_le]; constructor <;> linarith) (by rw [abs_le]; constructor <;> linarith)
  have r6 := a222n hr ri1 ri2 rh1 rh2 i6 h6
  set r := add222 rnd i.1 i.2 h.1 h.2 with hr'
  have hexp : (xh + xm + xl) * (yh + yl) = yh * xh + yh * xm + yh * xl + yl * xh + yl * xm + yl * xl := by ring
  have hv : 6 / 10 * P ≤ |(xh + xm + xl) * (yh + yl)| := by
    have h1 := abs_sub_abs_le_abs_sub (yh * xh) (-(yh * xm + yh * xl + yl * xh + yl * xm + yl * xl))
    rw [abs_neg, sub_neg_eq_add, show yh * xh + (yh * xm + yh * xl + yl * xh + yl * xm + yl * xl)
      = (xh + xm + xl) * (yh + yl) by ring] at h1
    have h2 : |yh * xm + yh * xl + yl * xh + yl * xm + yl * xl| ≤ Q + R + U * P + U * Q + U * R := by
      obtain ⟨_, _⟩ := abs_le.1 p2
      obtain ⟨_, _⟩ := abs_le.1 p3
      obtain ⟨_, _⟩ := abs_le.1 p4
      obtain ⟨_, _⟩ := abs_le.1 p5
      obtain ⟨_, _⟩ := abs_le.1 p6
      rw [abs_le]; constructor <;> linarith
    linarith
  have hrh : (1 - U) * P ≤ |a.1| := head_low (by rw [a3]) (abs_le.2 a5)
  refine ⟨?_, ?_, ?_⟩
  · show |a.1 + r.1 + r.2 - _| ≤ _
    have herr : |a.1 + r.1 + r.2 - (xh + xm + xl) * (yh + yl)| ≤ 26 * U * U * (Q + R) + 48 * U * U * U * P := by
      rw [hexp, abs_le]; constructor <;> linarith
    refine herr.trans ?_
    set V := |(xh + xm + xl) * (yh + yl)|
    have k1 : 128 * U * U * B + 128 * U * U * (B * C) + 128 * U * U * U ≤ localMul332 bo bu := by
      have e1 : (2:ℚ) ^ (-99 : ℤ) = 128 * U * U := by norm_num
      have e2 : (2:ℚ) ^ (-152 : ℤ) = 128 * U * U * U := by norm_num
      have e3 : (2:ℚ) ^ (-bo + 1) = 2 * B := by rw [zpow_add₀ (by norm_num), zpow_one, mul_comm]
      have e4 : (2:ℚ) ^ (-bo - bu + 1) = 2 * (B * C) := by
        rw [zpow_add₀ (by norm_num), zpow_one, pow_sub_mul, mul_comm]
      unfold localMul332
      rw [pow_sub_mul (-99 - bo), pow_sub_mul (-99) bo, e1, e2, e3, e4, U53]
      have hBCp : 0 < B * C := by positivity
      have hBCl : B * C ≤ 1 / 2 * B := by have := mul_le_mul_of_nonneg_left hC2 hB0.le; linarith
      have hd : 0 < 1 - U - 2 * B - 2 * (B * C) := by linarith
      rw [le_div_iff₀ hd]
      have hn : 0 ≤ 128 * U * U * B + 128 * U * U * (B * C) + 128 * U * U * U := by positivity
      have := mul_le_mul_of_nonneg_left (show 1 - U - 2 * B - 2 * (B * C) ≤ 1 by linarith) hn
      linarith
    have g0 : (128 * U * U * B + 128 * U * U * (B * C) + 128 * U * U * U) * V ≤ localMul332 bo bu * V :=
      mul_le_mul_of_nonneg_right k1 (abs_nonneg _)
    have g1 : B * (6 / 10 * P) ≤ B * V := mul_le_mul_of_nonneg_left hv hB0.le
    have g2 : B * C * (6 / 10 * P) ≤ B * C * V := mul_le_mul_of_nonneg_left hv (by positivity)
    rw [show (128 * U * U * B + 128 * U * U * (B * C) + 128 * U * U * U) * V =
      128 * U * U * (B * V) + 128 * U * U * (B * C * V) + 128 * U * U * U * V by ring] at g0
    linarith
  · show |r.1| ≤ _ * |a.1|
    have h1 : |r.1| ≤ 16 / 10 * Q + 3 * U * P := by rw [abs_le]; constructor <;> linarith
    set F := factorMul332 bo bu with hF
    have h2 : 16 * B ≤ F := by
      have h8 : (2:ℚ) ^ (4 : ℤ) = 16 := by norm_num
      rw [← h8, hB, ← zpow_add₀ (by norm_num)]
      exact pow_mono (by omega)
    have h3 : 32 * U ≤ F := by
      have : (2:ℚ) ^ (-48 : ℤ) = 32 * U := by norm_num
      rw [← this]
      exact pow_mono (by omega)
    have h4 : (8 * B + 16 * U) * |a.1| ≤ F * |a.1| := mul_le_mul_of_nonneg_right (by linarith) (abs_nonneg _)
    have h5 : B * ((1 - U) * P) ≤ B * |a.1| := mul_le_mul_of_nonneg_left hrh hB0.le
    rw [show (8 * B + 16 * U) * |a.1| = 8 * (B * |a.1|) + 16 * U * |a.1| by ring] at h4
    linarith
  · show |r.2| ≤ _ * |r.1|
    rw [U53]; exact r6

set_option maxHeartbeats 1000000 in
/-- **C67**, `Mul313`: for all operands accepted by the block the declared error and limb factors hold. -/
theorem C67_mul313 {rnd : ℚ → ℚ} (hr : Nearest 53 ⊥ rnd) {bo bu : ℤ} (hbo : 2 ≤ bo) (hbu : 2 ≤ bu)
    {x yh ym yl : ℚ} (rx : Rep 53 ⊥ x) (hy : Limbs3 53 ⊥ bo bu yh ym yl) :
    Result3 (localMul313 bo bu) (factorMul313 bo bu) (x * (yh + ym + yl)) (mul313 rnd x yh ym yl) := by
  obtain ⟨ryh, rym, ryl, hym, hyl⟩ := hy
  have hyl' := low_limb hym hyl
  set B := (2:ℚ) ^ (-bo) with hB
  set C := (2:ℚ) ^ (-bu) with hC
  have hB0 : 0 < B := zpow2_pos _
  have hC0 : 0 < C := zpow2_pos _
  have hB4 : B ≤ 1 / 4 := (pow_mono (b := -2) (by omega)).trans (by norm_num)
  have hC2 : C ≤ 1 / 4 := (pow_mono (b := -2) (by omega)).trans (by norm_num)
  set P := |x * yh| with hP
  have hP0 : 0 ≤ P := abs_nonneg _
  have hPm : P = |x| * |yh| := abs_mul _ _
  have hBP0 : 0 ≤ B * P := by positivity
  have hBC0 : 0 ≤ B * C * P := by positivity
  have hBP : B * P ≤ 1 / 4 * P := mul_le_mul_of_nonneg_right hB4 hP0
  have hBC : B * C * P ≤ 1 / 4 * (B * P) := by have := mul_le_mul_of_nonneg_right hC2 hBP0; linarith
  have p2 : |x * ym| ≤ B * P := by have := pr (le_refl |x|) hym; rw [hPm]; linarith
  have p3 : |x * yl| ≤ B * C * P := by have := pr (le_refl |x|) hyl'; rw [hPm]; linarith
  set Q := B * P with hQ
  set R := B * C * P with hR
  obtain ⟨ra1, ra2, a3, a4, a5, -⟩ := msb hr rx ryh (X := P) le_rfl
  obtain ⟨rb1, rb2, b3, b4, b5, b6⟩ := msb hr rx rym p2
  obtain ⟨t1, t2⟩ := rb hr p3
  set a := mul211 rnd x yh with ha
  set b := mul211 rnd x ym with hb
  set t5 := rnd (x * yl) with ht5
  have rt : Rep 53 ⊥ t5 := (hr _).1
  obtain ⟨rc1, rc2, c3, c4, c5, -⟩ := ts hr ra2 rb1 (X := U * P + (1 + U) * Q) (by rw [abs_le]; constructor <;> linarith)
  set c := twoSum rnd a.2 b.1 with hc
  obtain ⟨d1, d2⟩ := sb hr rb2 rt (X := U * Q + (1 + U) * R) (by rw [abs_le]; constructor <;> linarith)
  set t8 := rnd (b.2 + t5) with ht8
  obtain ⟨e1, e2⟩ := sb hr (x := c.2) (y := t8) rc2 (hr _).1 (X := U * U * P + 21 / 10 * U * Q + 101 / 100 * R)
    (by rw [abs_le]; constructor <;> linarith)
  set t10 := rnd (c.2 + t8) with ht10
  obtain ⟨rr1, rr2, r3, r4, r5, r6⟩ := ts hr (x := c.1) (y := t10) rc1 (hr _).1 (X := 2 * U * P + 2 * Q)
    (by rw [abs_le]; constructor <;> linarith)
  set r := twoSum rnd c.1 t10 with hr'
  have hexp : x * (yh + ym + yl) = x * yh + x * ym + x * yl := by ring
  have hv : 6 / 10 * P ≤ |x * (yh + ym + yl)| := by
    have h1 := abs_sub_abs_le_abs_sub (x * yh) (-(x * ym + x * yl))
    rw [abs_neg, sub_neg_eq_add, ← add_assoc, ← hexp] at h1
    have h2 := abs_add_le (x * ym) (x * yl)
    linarith
  have hrh : (1 - U) * P ≤ |a.1| := head_low (by rw [a3]) (abs_le.2 a5)
  refine ⟨?_, ?_, ?_⟩
  · show |a.1 + r.1 + r.2 - _| ≤ _
    have herr : |a.1 + r.1 + r.2 - x * (yh + ym + yl)| ≤ 4 * U * R + 4 * U * U * Q + 2 * U * U * U * P := by
      rw [hexp, abs_le]; constructor <;> linarith
    refine herr.trans ?_
    set V := |x * (yh + ym + yl)|
    have k1 : localMul313 bo bu = 16 * U * (B * C) + 32 * U * U * B + 8 * U * U * U := by
      have e1 : (2:ℚ) ^ (-49 : ℤ) = 16 * U := by norm_num
      have e2 : (2:ℚ) ^ (-101 : ℤ) = 32 * U * U := by norm_num
      have e3 : (2:ℚ) ^ (-156 : ℤ) = 8 * U * U * U := by norm_num
      unfold localMul313
      rw [pow_sub_mul, pow_sub_mul (-49) bo, pow_sub_mul (-101), e1, e2, e3]; ring
    have g1 : B * (6 / 10 * P) ≤ B * V := mul_le_mul_of_nonneg_left hv hB0.le
    have g2 : B * C * (6 / 10 * P) ≤ B * C * V := mul_le_mul_of_nonneg_left hv (by positivity)
    rw [k1, show (16 * U * (B * C) + 32 * U * U * B + 8 * U * U * U) * V =
      16 * U * (B * C * V) + 32 * U * U * (B * V) + 8 * U * U * U * V by ring]
    linarith
  · show |r.1| ≤ _ * |a.1|
    have h1 : |r.1| ≤ 3 * Q + 3 * U * P := by rw [abs_le]; constructor <;> linarith
    set F := factorMul313 bo bu with hF
    have h2 : 32 * B ≤ F := by
      have h8 : (2:ℚ) ^ (5 : ℤ) = 32 := by norm_num
      rw [← h8, hB, ← zpow_add₀ (by norm_num)]
      exact pow_mono (by omega)
    have h3 : 64 * U ≤ F := by
      have : (2:ℚ) ^ (-47 : ℤ) = 64 * U := by norm_num
      rw [← this]
      exact pow_mono (by omega)
    have h4 : (16 * B + 32 * U) * |a.1| ≤ F * |a.1| := mul_le_mul_of_nonneg_right (by linarith) (abs_nonneg _)
    have h5 : B * ((1 - U) * P) ≤ B * |a.1| := mul_le_mul_of_nonneg_left hrh hB0.le
    rw [show (16 * B + 32 * U) * |a.1| = 16 * (B * |a.1|) + 32 * U * |a.1| by ring] at h4
    linarith
  · show |r.2| ≤ _ * |r.1|
    rw [U53]; exact r6

set_option maxHeartbeats 4000000 in
/-- **C67**, `Mul333`: for all operands whose declared gaps have at least five bits the declared error holds.  The product of the
two low limbs, which is not computed, is covered by the terms `2^(50 - a_o - b_o - b_u)` of the declared error only; with small
gaps that declared error exceeds one.  The descriptor of the result is not computed (its code names undefined variables); the
proved factor of the middle limb is `2^(1-a_o) + 2^(1-b_o) + 2^-51`. -/
theorem C67_mul333 {rnd : ℚ → ℚ} (hr : Nearest 53 ⊥ rnd) {ao au bo bu : ℤ} (hao : 5 ≤ ao) (hau : 5 ≤ au) (hbo : 5 ≤ bo)
    (hbu : 5 ≤ bu) {xh xm xl yh ym yl : ℚ} (hx : Limbs3 53 ⊥ ao au xh xm xl) (hy : Limbs3 53 ⊥ bo bu yh ym yl) :
    Result3 (localMul333 ao au bo bu) ((2:ℚ) ^ (1 - ao) + (2:ℚ) ^ (1 - bo) + (2:ℚ) ^ (-51 : ℤ))
      ((xh + xm + xl) * (yh + ym + yl)) (mul333 rnd xh xm xl yh ym yl) := by
  obtain ⟨rxh, rxm, rxl, hxm, hxl⟩ := hx
  obtain ⟨ryh, rym, ryl, hym, hyl⟩ := hy
  have hxl' := low_limb hxm hxl
  have hyl' := low_limb hym hyl
  set A := (2:ℚ) ^ (-ao) with hA
  set D := (2:ℚ) ^ (-au) with hD
  set B := (2:ℚ) ^ (-bo) with hB
  set C := (2:ℚ) ^ (-bu) with hC
  have hA0 : 0 < A := zpow2_pos _
  have hD0 : 0 < D := zpow2_pos _
  have hB0 : 0 < B := zpow2_pos _
  have hC0 : 0 < C := zpow2_pos _
  have h32 : ∀ {k : ℤ}, 5 ≤ k → (2:ℚ) ^ (-k) ≤ 1 / 32 := fun hk => (pow_mono (b := -5) (by omega)).trans (by norm_num)
  have hA5 : A ≤ 1 / 32 := h32 hao
  have hD5 : D ≤ 1 / 32 := h32 hau
  have hB5 : B ≤ 1 / 32 := h32 hbo
  have hC5 : C ≤ 1 / 32 := h32 hbu
  set P := |xh * yh| with hP
  have hP0 : 0 ≤ P := abs_nonneg _
  have hPm : P = |xh| * |yh| := abs_mul _ _
  have p2 : |xh * ym| ≤ B * P := by have := pr (le_refl |xh|) hym; rw [hPm]; linarith
  have p3 : |xm * yh| ≤ A * P := by have := pr hxm (le_refl |yh|); rw [hPm]; linarith
  have p4 : |xm * ym| ≤ B * (A * P) := by have := pr hxm hym; rw [hPm]; linarith
  have p5 : |xh * yl| ≤ C * (B * P) := by have := pr (le_refl |xh|) hyl'; rw [hPm]; linarith
  have p6 : |xl * yh| ≤ D * (A * P) := by have := pr hxl' (le_refl |yh|); rw [hPm]; linarith
  have p7 : |xm * yl| ≤ A * (C * (B * P)) := by have := pr hxm hyl'; rw [hPm]; linarith
  have p8 : |xl * ym| ≤ B * (D * (A * P)) := by have := pr hxl' hym; rw [hPm]; linarith
  have p9 : |xl * yl| ≤ D * (A * (C * (B * P))) := by have := pr hxl' hyl'; rw [hPm]; linarith
  have nB : 0 ≤ B * P := by positivity
  have nA : 0 ≤ A * P := by positivity
  have nBC : 0 ≤ C * (B * P) := by positivity
  have nAD : 0 ≤ D * (A * P) := by positivity
  have nABC : 0 ≤ A * (C * (B * P)) := by positivity
  have i1 : B * P ≤ 1 / 32 * P := mul_le_mul_of_nonneg_right hB5 hP0
  have i2 : A * P ≤ 1 / 32 * P := mul_le_mul_of_nonneg_right hA5 hP0
  have i3 : B * (A * P) ≤ 1 / 32 * (A * P) := mul_le_mul_of_nonneg_right hB5 nA
  have i4 : C * (B * P) ≤ 1 / 32 * (B * P) := mul_le_mul_of_nonneg_right hC5 nB
  have i5 : D * (A * P) ≤ 1 / 32 * (A * P) := mul_le_mul_of_nonneg_right hD5 nA
  have i6 : A * (C * (B * P)) ≤ 1 / 32 * (C * (B * P)) := mul_le_mul_of_nonneg_right hA5 nBC
  have i7 : B * (D * (A * P)) ≤ 1 / 32 * (D * (A * P)) := mul_le_mul_of_nonneg_right hB5 nAD
  have i8 : D * (A * (C * (B * P))) ≤ 1 / 32 * (A * (C * (B * P))) := mul_le_mul_of_nonneg_right hD5 nABC
  have q4 := p4.trans i3
  have q7 := p7.trans i6
  have q8 := p8.trans i7
  have q9 := p9.trans i8
  clear i3 i7 i8 p4 p8 p9
  have hvb : B * (93 / 100 * P) = 93 / 100 * (B * P) := by ring
  set QB := B * P with hQB
  set QA := A * P with hQA
  set RB := C * QB with hRB
  set RA := D * QA with hRA
  set S := A * RB with hS
  obtain ⟨ra1, ra2, a3, a4, a5, -⟩ := msb hr rxh ryh (X := P) le_rfl
  obtain ⟨rb1, rb2, b3, b4, b5, b6⟩ := msb hr rxh rym p2
  obtain ⟨rc1, rc2, c3, c4, c5, c6⟩ := msb hr rxm ryh p3
  obtain ⟨rd1, rd2, d3, d4, d5, d6⟩ := msb hr rxm rym q4
  obtain ⟨t81, t82⟩ := rb hr p5
  obtain ⟨t91, t92⟩ := rb hr p6
  obtain ⟨t101, t102⟩ := rb hr q7
  obtain ⟨t111, t112⟩ := rb hr q8
  set a := mul211 rnd xh yh with ha
  set b := mul211 rnd xh ym with hb
  set c := mul211 rnd xm yh with hc
  set d := mul211 rnd xm ym with hd
  set t8 := rnd (xh * yl) with ht8
  set t9 := rnd (xl * yh) with ht9
  set t10 := rnd (xm * yl) with ht10
  set t11 := rnd (xl * ym) with ht11
  obtain ⟨t121, t122⟩ := rb hr (x := t8 + t9) (X := (1 + U) * (RB + RA)) (by rw [abs_le]; constructor <;> linarith)
  set t12 := rnd (t8 + t9) with ht12
  obtain ⟨t131, t132⟩ := rb hr (x := t10 + t11) (X := (1 + U) * (1 / 32 * (RB + RA))) (by
    rw [abs_le]; constructor <;> linarith)
  set t13 := rnd (t10 + t11) with ht13
  obtain ⟨re1, re2, e3, e4, e5, e6⟩ := ts hr ra2 rd1 (X := U * P + 1 / 31 * QA) (by rw [abs_le]; constructor <;> linarith)
  set e := twoSum rnd a.2 d.1 with he
  obtain ⟨t161, t162⟩ := rb hr (x := d.2 + e.2) (X := U * U * P + 1 / 15 * U * QA) (by
    rw [abs_le]; constructor <;> linarith)
  set t16 := rnd (d.2 + e.2) with ht16
  obtain ⟨t171, t172⟩ := rb hr (x := t12 + t13) (X := 104 / 100 * (RB + RA)) (by rw [abs_le]; constructor <;> linarith)
  set t17 := rnd (t12 + t13) with ht17
  obtain ⟨t181, t182⟩ := rb hr (x := t16 + t17) (X := 105 / 100 * (RB + RA) + 2 * U * U * P + 1 / 14 * U * QA) (by
    rw [abs_le]; constructor <;> linarith)
  set t18 := rnd (t16 + t17) with ht18
  obtain ⟨rf1, rf2, f3, f4, f5, f6⟩ := ts hr (x := e.1) (y := t18) re1 (hr _).1 (X := 11 / 10 * U * P + 1 / 14 * (QA + QB)) (by
    rw [abs_le]; constructor <;> linarith)
  set f := twoSum rnd e.1 t18 with hf
  obtain ⟨rg1, rg2, g3, g4, g5⟩ := a222 hr rb1 rb2 rc1 rc2 (H := (1 + U) * (QA + QB))
    (by rw [abs_le]; constructor <;> linarith) (by rw [abs_le]; constructor <;> linarith)
  have g6 := a222n hr rb1 rb2 rc1 rc2 b6 c6
  set g := add222 rnd b.1 b.2 c.1 c.2 with hg
  obtain ⟨rr1, rr2, r3, r4, r5⟩ := a222 hr rg1 rg2 rf1 rf2 (H := 11 / 10 * (QA + QB) + 12 / 10 * U * P)
    (by rw [abs_le]; constructor <;> linarith) (by rw [abs_le]; constructor <;> linarith)
  have r6 := a222n hr rg1 rg2 rf1 rf2 g6 f6
  set r := add222 rnd g.1 g.2 f.1 f.2 with hr'
  have hexp : (xh + xm + xl) * (yh + ym + yl) = xh * yh + xh * ym + xm * yh + xm * ym + xh * yl + xl * yh + xm * yl + xl * ym
    + xl * yl := by ring
  obtain ⟨z1, z2⟩ := abs_le.1 q9
  have hv : 9 / 10 * P ≤ |(xh + xm + xl) * (yh + ym + yl)| := by
    have h1 := abs_sub_abs_le_abs_sub (xh * yh) (-((xh + xm + xl) * (yh + ym + yl) - xh * yh) )
    rw [abs_neg, sub_neg_eq_add, add_sub_cancel] at h1
    have h2 : |(xh + xm + xl) * (yh + ym + yl) - xh * yh| ≤ 1 / 10 * P := by
      obtain ⟨_, _⟩ := abs_le.1 p2
      obtain ⟨_, _⟩ := abs_le.1 p3
      obtain ⟨_, _⟩ := abs_le.1 q4
      obtain ⟨_, _⟩ := abs_le.1 p5
      obtain ⟨_, _⟩ := abs_le.1 p6
      obtain ⟨_, _⟩ := abs_le.1 q7
      obtain ⟨_, _⟩ := abs_le.1 q8
      rw [hexp, abs_le]; constructor <;> linarith
    linarith
  have hrh : (1 - U) * P ≤ |a.1| := head_low (by rw [a3]) (abs_le.2 a5)
  refine ⟨?_, ?_, ?_⟩
  · show |a.1 + r.1 + r.2 - _| ≤ _
    have herr : |a.1 + r.1 + r.2 - (xh + xm + xl) * (yh + ym + yl)| ≤
        5 * U * (RB + RA) + 20 * U * U * (QA + QB) + 20 * U * U * U * P + S := by
      rw [hexp, abs_le]; constructor <;> linarith
    refine herr.trans ?_
    set V := |(xh + xm + xl) * (yh + ym + yl)| with hV
    have hV0 : 0 ≤ V := abs_nonneg _
    have k1 : 256 * U * U * U + 128 * U * U * A + 128 * U * U * B + 16 * U * (D * A) + 16 * U * (C * B) + 2 * (A * (C * B)) ≤
        localMul333 ao au bo bu := by
      have e1 : (2:ℚ) ^ (-151 : ℤ) = 256 * U * U * U := by norm_num
      have e2 : (2:ℚ) ^ (-99 : ℤ) = 128 * U * U := by norm_num
      have e3 : (2:ℚ) ^ (-49 : ℤ) = 16 * U := by norm_num
      have e4 : (2:ℚ) ^ (50 : ℤ) = 1125899906842624 := by norm_num
      have e5 := zpow2_pos (-101 - ao - bo)
      have e6 := zpow2_pos (-52 - ao - au - bo - bu)
      have e7 : 0 ≤ A * (C * B) := by positivity
      unfold localMul333
      rw [pow_sub_mul (-99) ao, pow_sub_mul (-99) bo, pow_sub_mul (-49 - ao), pow_sub_mul (-49) ao, pow_sub_mul (-49 - bo),
        pow_sub_mul (-49) bo, pow_sub_mul (50 - ao - bo), pow_sub_mul (50 - ao), pow_sub_mul 50, e1, e2, e3, e4]
      linarith
    have g0 := mul_le_mul_of_nonneg_right k1 hV0
    have gB : B * (9 / 10 * P) ≤ B * V := mul_le_mul_of_nonneg_left hv hB0.le
    have gA : A * (9 / 10 * P) ≤ A * V := mul_le_mul_of_nonneg_left hv hA0.le
    have gBC : C * (9 / 10 * QB) ≤ C * (B * V) := mul_le_mul_of_nonneg_left (by rw [hQB]; linarith) hC0.le
    have gAD : D * (9 / 10 * QA) ≤ D * (A * V) := mul_le_mul_of_nonneg_left (by rw [hQA]; linarith) hD0.le
    have gS : A * (9 / 10 * RB) ≤ A * (C * (B * V)) := mul_le_mul_of_nonneg_left (by rw [hRB]; linarith) hA0.le
    rw [show (256 * U * U * U + 128 * U * U * A + 128 * U * U * B + 16 * U * (D * A) + 16 * U * (C * B) + 2 * (A * (C * B))) * V =
      256 * U * U * U * V + 128 * U * U * (A * V) + 128 * U * U * (B * V) + 16 * U * (D * (A * V)) + 16 * U * (C * (B * V)) +
        2 * (A * (C * (B * V))) by ring] at g0
    linarith
  · show |r.1| ≤ _ * |a.1|
    have h1 : |r.1| ≤ 12 / 10 * (QA + QB) + 13 / 10 * U * P := by rw [abs_le]; constructor <;> linarith
    have h2 : (2:ℚ) ^ (1 - ao) = 2 * A := by rw [pow_sub_mul, zpow_one]
    have h3 : (2:ℚ) ^ (1 - bo) = 2 * B := by rw [pow_sub_mul, zpow_one]
    have h4 : (2:ℚ) ^ (-51 : ℤ) = 4 * U := by norm_num
    have h5 : B * ((1 - U) * P) ≤ B * |a.1| := mul_le_mul_of_nonneg_left hrh hB0.le
    have h6 : A * ((1 - U) * P) ≤ A * |a.1| := mul_le_mul_of_nonneg_left hrh hA0.le
    rw [h2, h3, h4]
    linarith
  · show |r.2| ≤ _ * |r.1|
    rw [U53]; exact r6

end Verif.Blocks
