import Verif.Blocks.ThreeModel
import Verif.Blocks.FastSum

/-! # Three-limb blocks on binary64 limbs: declared local errors and limb factors -/

namespace Verif.Blocks

/-- Three limbs of the format with `|m| ≤ 2^-o |h|` and `|l| ≤ 2^-u |m|` (`limb_diff_factor = [2^-o, 2^-u]`). -/
def Limbs3 (p : ℕ) (q : WithBot ℤ) (o u : ℤ) (h m l : ℚ) : Prop :=
  Rep p q h ∧ Rep p q m ∧ Rep p q l ∧ |m| ≤ (2:ℚ) ^ (-o) * |h| ∧ |l| ≤ (2:ℚ) ^ (-u) * |m|

/-- `r` is a three-limb approximation of `v` with relative error `ε`, whose middle limb is at most `f` times the head and
whose low limb does not overlap the middle one. -/
def Result3 (ε f v : ℚ) (r : ℚ × ℚ × ℚ) : Prop :=
  |r.1 + r.2.1 + r.2.2 - v| ≤ ε * |v| ∧ |r.2.1| ≤ f * |r.1| ∧ |r.2.2| ≤ (2:ℚ) ^ (-53 : ℤ) * |r.2.1|

/-- unit roundoff of binary64 -/
local notation "U" => (1 / 9007199254740992 : ℚ)

theorem u53 : (2:ℚ) ^ (-((53 : ℕ) : ℤ)) = U := by norm_num

section
variable {rnd : ℚ → ℚ} {q : WithBot ℤ}

theorem rb (hr : Nearest 53 ⊥ rnd) {x X : ℚ} (h : |x| ≤ X) :
    (-((1 + U) * X) ≤ rnd x ∧ rnd x ≤ (1 + U) * X) ∧ (-(U * X) ≤ rnd x - x ∧ rnd x - x ≤ U * X) := by
  have h1 := (rnd_rel (by norm_num) hr x).1
  rw [u53, abs_sub_comm] at h1
  have h2 : |rnd x - x| ≤ U * X := by linarith
  obtain ⟨a1, a2⟩ := abs_le.1 h2
  obtain ⟨b1, b2⟩ := abs_le.1 h
  exact ⟨⟨by linarith, by linarith⟩, a1, a2⟩

theorem sum_rel {p : ℕ} (hp : 1 ≤ p) (hr : Nearest p q rnd) {x y : ℚ} (hx : Rep p q x) (hy : Rep p q y) :
    |x + y - rnd (x + y)| ≤ (2:ℚ) ^ (-(p:ℤ)) * |x + y| ∧ |x + y - rnd (x + y)| ≤ (2:ℚ) ^ (-(p:ℤ)) * |rnd (x + y)| := by
  obtain ⟨e0, a, b, he, -, -, rfl, rfl⟩ := common_unit hx hy
  obtain ⟨r, hr', hrr⟩ := lift hp hr he
  have hs : (a:ℚ) * 2 ^ e0 + (b:ℚ) * 2 ^ e0 = ((a + b : ℤ) : ℚ) * 2 ^ e0 := by push_cast; ring
  rw [hs, hrr]
  obtain ⟨h1, h2⟩ := rel hp hr' (a + b)
  have e1 : ((a + b : ℤ) : ℚ) * 2 ^ e0 - (r (a + b) : ℚ) * 2 ^ e0 = ((a + b - r (a + b) : ℤ) : ℚ) * 2 ^ e0 := by
    push_cast; ring
  rw [e1, abs_mul, abs_mul, abs_mul, abs_of_pos (zpow2_pos e0), ← mul_assoc, ← mul_assoc]
  have key : ∀ m n : ℤ, 2 ^ p * |m| ≤ |n| → |(m:ℚ)| ≤ (2:ℚ) ^ (-(p:ℤ)) * |(n:ℚ)| := by
    intro m n h
    have h' : (2:ℚ) ^ p * |(m:ℚ)| ≤ |(n:ℚ)| := by exact_mod_cast h
    rw [zpow_neg, zpow_natCast, ← div_eq_inv_mul, le_div_iff₀ (by positivity)]
    linarith
  exact ⟨mul_le_mul_of_nonneg_right (key _ _ h1) (zpow2_pos e0).le,
    mul_le_mul_of_nonneg_right (key _ _ h2) (zpow2_pos e0).le⟩

theorem sb (hr : Nearest 53 q rnd) {x y X : ℚ} (hx : Rep 53 q x) (hy : Rep 53 q y) (h : |x + y| ≤ X) :
    (-((1 + U) * X) ≤ rnd (x + y) ∧ rnd (x + y) ≤ (1 + U) * X) ∧
      (-(U * X) ≤ rnd (x + y) - (x + y) ∧ rnd (x + y) - (x + y) ≤ U * X) := by
  have h1 := (sum_rel (by norm_num) hr hx hy).1
  rw [u53, abs_sub_comm] at h1
  have h2 : |rnd (x + y) - (x + y)| ≤ U * X := by linarith
  obtain ⟨a1, a2⟩ := abs_le.1 h2
  obtain ⟨b1, b2⟩ := abs_le.1 h
  exact ⟨⟨by linarith, by linarith⟩, a1, a2⟩

/-- the two-sum: exact, bounded, the tail below the head -/
theorem ts (hr : Nearest 53 q rnd) {x y X : ℚ} (hx : Rep 53 q x) (hy : Rep 53 q y) (h : |x + y| ≤ X) :
    let t := twoSum rnd x y
    Rep 53 q t.1 ∧ Rep 53 q t.2 ∧ t.1 + t.2 = x + y ∧ (-((1 + U) * X) ≤ t.1 ∧ t.1 ≤ (1 + U) * X) ∧
      (-(U * X) ≤ t.2 ∧ t.2 ≤ U * X) ∧ |t.2| ≤ U * |t.1| := by
  obtain ⟨h1, h2, h3⟩ := C46_twosum (by norm_num) hr hx hy
  have h4 := sb hr hx hy h
  have h5 := (sum_rel (by norm_num) hr hx hy).2
  rw [← h1, u53] at h5
  rw [← h1] at h4
  have h6 : x + y - (twoSum rnd x y).1 = (twoSum rnd x y).2 := by linarith
  rw [h6] at h5
  refine ⟨h1 ▸ (hr _).1, h2, h3, h4.1, ⟨by linarith [h4.2.2], by linarith [h4.2.1]⟩, h5⟩

theorem msb (hr : Nearest 53 ⊥ rnd) {x y X : ℚ} (hx : Rep 53 ⊥ x) (hy : Rep 53 ⊥ y) (h : |x * y| ≤ X) :
    let t := mul211 rnd x y
    Rep 53 ⊥ t.1 ∧ Rep 53 ⊥ t.2 ∧ t.1 + t.2 = x * y ∧ (-((1 + U) * X) ≤ t.1 ∧ t.1 ≤ (1 + U) * X) ∧
      (-(U * X) ≤ t.2 ∧ t.2 ≤ U * X) ∧ |t.2| ≤ U * |t.1| := by
  obtain ⟨h1, h2, h3⟩ := C64_mul211_unbounded (by norm_num) hr hx hy
  have h4 := rb hr h
  have h5 := (rnd_rel (by norm_num) hr (x * y)).2
  rw [← h1, u53] at h5
  rw [← h1] at h4
  have h6 : x * y - (mul211 rnd x y).1 = (mul211 rnd x y).2 := by linarith
  rw [h6] at h5
  exact ⟨h1 ▸ (hr _).1, h2, h3, h4.1, ⟨by linarith [h4.2.2], by linarith [h4.2.1]⟩, h5⟩

/-- the two-limb sum: absolute error against the heads, without any condition on signs -/
theorem a222 (hr : Nearest 53 ⊥ rnd) {ah al bh bl H : ℚ} (h1 : Rep 53 ⊥ ah) (h2 : Rep 53 ⊥ al) (h3 : Rep 53 ⊥ bh)
    (h4 : Rep 53 ⊥ bl) (hh : |ah + bh| ≤ H) (hl : |al + bl| ≤ 9 / 8 * U * H) :
    let r := add222 rnd ah al bh bl
    Rep 53 ⊥ r.1 ∧ Rep 53 ⊥ r.2 ∧
      (-(8 * U * U * H) ≤ r.1 + r.2 - (ah + al + bh + bl) ∧ r.1 + r.2 - (ah + al + bh + bl) ≤ 8 * U * U * H) ∧
      (-(1025 / 1024 * H) ≤ r.1 ∧ r.1 ≤ 1025 / 1024 * H) ∧
      (-(1025 / 1024 * U * H) ≤ r.2 ∧ r.2 ≤ 1025 / 1024 * U * H) := by
  have hH : 0 ≤ H := (abs_nonneg _).trans hh
  obtain ⟨a1, a2, a3, a4, a5, -⟩ := ts hr h1 h3 hh
  obtain ⟨b1, b2⟩ := sb hr h2 h4 hl
  set v := twoSum rnd ah bh with hv
  set v3 := rnd (al + bl) with hv3
  obtain ⟨hh1, hh2⟩ := abs_le.1 hh
  obtain ⟨hl1, hl2⟩ := abs_le.1 hl
  have r3 : Rep 53 ⊥ v3 := (hr _).1
  obtain ⟨c1, c2⟩ := sb hr a2 r3 (X := 17 / 8 * U * H + U * U * (9 / 8) * H) (by
    rw [abs_le]; constructor <;> linarith)
  set v4 := rnd (v.2 + v3) with hv4
  have r4 : Rep 53 ⊥ v4 := (hr _).1
  obtain ⟨d1, d2⟩ := sb hr a1 r4 (X := (1 + 4 * U) * H) (by
    rw [abs_le]; constructor <;> linarith)
  set s := rnd (v.1 + v4) with hs
  obtain ⟨e1, e2⟩ := rb hr (x := s - v.1) (X := 13 / 4 * U * H) (by
    rw [abs_le]; constructor <;> linarith)
  set z := rnd (s - v.1) with hz
  obtain ⟨f1, f2⟩ := rb hr (x := v4 - z) (X := (U + 9 * U * U) * H) (by
    rw [abs_le]; constructor <;> linarith)
  exact ⟨(hr _).1, (hr _).1, ⟨by show _ ≤ s + rnd (v4 - z) - _; linarith, by show s + rnd (v4 - z) - _ ≤ _; linarith⟩,
    ⟨by show _ ≤ s; linarith, by show s ≤ _; linarith⟩,
    ⟨by show _ ≤ rnd (v4 - z); linarith, by show rnd (v4 - z) ≤ _; linarith⟩⟩

/-- the limbs of the two-limb sum do not overlap -/
theorem a222n (hr : Nearest 53 ⊥ rnd) {ah al bh bl : ℚ} (h1 : Rep 53 ⊥ ah) (h2 : Rep 53 ⊥ al) (h3 : Rep 53 ⊥ bh)
    (h4 : Rep 53 ⊥ bl) (ha : |al| ≤ U * |ah|) (hb : |bl| ≤ U * |bh|) :
    let r := add222 rnd ah al bh bl
    |r.2| ≤ U * |r.1| := by
  have := (C47_add222_limbs (by norm_num) hr (xh := ah) (xl := al) (yh := bh) (yl := bl)
    ⟨h1, h2, by rw [u53]; exact ha⟩ ⟨h3, h4, by rw [u53]; exact hb⟩).2.2.2
  rwa [u53] at this

theorem U53 : (2:ℚ) ^ (-53 : ℤ) = U := by norm_num
end

/-! ## Sums -/

theorem pow_sub_mul (a b : ℤ) : (2:ℚ) ^ (a - b) = (2:ℚ) ^ a * (2:ℚ) ^ (-b) := by
  rw [sub_eq_add_neg, zpow_add₀ (by norm_num)]

/-- **C67**, `Add333`: three-limb operands with limb factors at most `2^-4` and heads of the same sign.  The declared error and
the declared limb factors hold when the smaller of the leading gaps is at most 53 bits and `min(a_o, a_u) ≤ b_o`.  Missing: the
second term of the declared error ignores `b_o` (see `C67_add333_wrong`) and the sign condition is not checked by the code
(see `C67_add333_cancellation_wrong`). -/
theorem C67_add333_partial {q : WithBot ℤ} {rnd : ℚ → ℚ} (hr : Nearest 53 q rnd) {ao au bo bu : ℤ} (hao : 4 ≤ ao)
    (hau : 4 ≤ au) (hbo : 4 ≤ bo) (hbu : 4 ≤ bu) (hN : min ao bo ≤ 53) (hmin : min ao au ≤ bo) {xh xm xl yh ym yl : ℚ}
    (hx : Limbs3 53 q ao au xh xm xl) (hy : Limbs3 53 q bo bu yh ym yl) (hs : |xh + yh| = |xh| + |yh|) :
    Result3 (localAdd333 ao au bo bu) (factorAdd333 ao bo) ((xh + xm + xl) + (yh + ym + yl))
      (add333 rnd xh xm xl yh ym yl) := by
  obtain ⟨rxh, rxm, rxl, hxm, hxl⟩ := hx
  obtain ⟨ryh, rym, ryl, hym, hyl⟩ := hy
  set B := (2:ℚ) ^ (-(min ao bo)) with hB
  set A := (2:ℚ) ^ (-(min (ao + au) (bo + bu))) with hA
  set H := |xh| + |yh| with hH
  have hH0 : 0 ≤ H := by positivity
  have mono : ∀ a b : ℤ, a ≤ b → (2:ℚ) ^ a ≤ (2:ℚ) ^ b := fun a b h => zpow_le_zpow_right₀ (by norm_num) h
  have hB1 : (2:ℚ) ^ (-ao) ≤ B := mono _ _ (by omega)
  have hB2 : (2:ℚ) ^ (-bo) ≤ B := mono _ _ (by omega)
  have hBU : U ≤ B := by
    have := mono (-53) (-(min ao bo)) (by omega)
    rwa [U53] at this
  have hB16 : B ≤ 1 / 16 := (mono (-(min ao bo)) (-4) (by omega)).trans (by norm_num)
  have hAB : A ≤ B * (1 / 16) := by
    have h4 : (2:ℚ) ^ (-4 : ℤ) = 1 / 16 := by norm_num
    rw [← h4, ← zpow_add₀ (by norm_num)]
    exact mono _ _ (by omega)
  have hA0 : 0 < A := zpow2_pos _
  have hm : |xm + ym| ≤ B * H := by
    have h1 := mul_le_mul_of_nonneg_right hB1 (abs_nonneg xh)
    have h2 := mul_le_mul_of_nonneg_right hB2 (abs_nonneg yh)
    have := abs_add_le xm ym
    rw [hH, mul_add]; linarith
  have hl : |xl + yl| ≤ A * H := by
    have key : ∀ (o u : ℤ) (h m l : ℚ), |m| ≤ (2:ℚ) ^ (-o) * |h| → |l| ≤ (2:ℚ) ^ (-u) * |m| →
        min (ao + au) (bo + bu) ≤ o + u → |l| ≤ A * |h| := by
      intro o u h m l h1 h2 h3
      have h4 := mul_le_mul_of_nonneg_left h1 (zpow2_pos (-u)).le
      have h5 : (2:ℚ) ^ (-u) * ((2:ℚ) ^ (-o) * |h|) = (2:ℚ) ^ (-(o + u)) * |h| := by
        rw [← mul_assoc, ← zpow_add₀ (by norm_num)]; congr 2; ring
      have h6 := mul_le_mul_of_nonneg_right (mono (-(o + u)) (-(min (ao + au) (bo + bu))) (by omega)) (abs_nonneg h)
      linarith
    have h1 := key ao au xh xm xl hxm hxl (by omega)
    have h2 := key bo bu yh ym yl hym hyl (by omega)
    have := abs_add_le xl yl
    rw [hH, mul_add]; linarith
  have hXU : U * H ≤ B * H := mul_le_mul_of_nonneg_right hBU hH0
  have hX16 : B * H ≤ 1 / 16 * H := mul_le_mul_of_nonneg_right hB16 hH0
  have hYX : A * H ≤ B * H * (1 / 16) := by
    have := mul_le_mul_of_nonneg_right hAB hH0
    linarith
  have hY0 : 0 ≤ A * H := by positivity
  set X := B * H with hX
  set Y := A * H with hY
  -- the computation
  obtain ⟨ra1, ra2, a3, a4, a5, -⟩ := ts hr rxh ryh (X := H) hs.le
  obtain ⟨rb1, rb2, b3, b4, b5, -⟩ := ts hr rxm rym hm
  set a := twoSum rnd xh yh with ha
  set b := twoSum rnd xm ym with hb
  obtain ⟨rc1, rc2, c3, c4, c5, -⟩ := ts hr ra2 rb1 (X := (2 + U) * X) (by
    rw [abs_le]; constructor <;> linarith)
  set c := twoSum rnd a.2 b.1 with hc
  obtain ⟨d1, d2⟩ := sb hr rxl ryl hl
  set t6 := rnd (xl + yl) with ht6
  obtain ⟨e1, e2⟩ := sb hr rb2 rc2 (X := (3 + U) * U * X) (by
    rw [abs_le]; constructor <;> linarith)
  set t5 := rnd (b.2 + c.2) with ht5
  obtain ⟨f1, f2⟩ := sb hr (x := t5) (y := t6) (hr _).1 (hr _).1 (X := 4 * U * X + (1 + U) * Y) (by
    rw [abs_le]; constructor <;> linarith)
  set t8 := rnd (t5 + t6) with ht8
  obtain ⟨rr1, rr2, r3, r4, r5, r6⟩ := ts hr (x := c.1) (y := t8) rc1 (hr _).1 (X := 3 * X) (by
    rw [abs_le]; constructor <;> linarith)
  set r := twoSum rnd c.1 t8 with hr'
  obtain ⟨m1, m2⟩ := abs_le.1 hm
  obtain ⟨l1, l2⟩ := abs_le.1 hl
  have hv : 9 / 10 * H ≤ |(xh + xm + xl) + (yh + ym + yl)| := by
    have : |xh + yh| ≤ |(xh + xm + xl) + (yh + ym + yl)| + |xm + ym| + |xl + yl| := by
      rw [show xh + yh = ((xh + xm + xl) + (yh + ym + yl)) + (-(xm + ym)) + (-(xl + yl)) by ring]
      refine (abs_add_le _ _).trans ?_
      have := abs_add_le ((xh + xm + xl) + (yh + ym + yl)) (-(xm + ym))
      rw [abs_neg] at this ⊢
      linarith
    linarith
  have hrh : 9 / 10 * H ≤ |a.1| := by
    have : |xh + yh| ≤ |a.1| + |a.2| := by rw [← a3]; exact abs_add_le _ _
    have h5 : |a.2| ≤ U * H := abs_le.2 a5
    linarith
  refine ⟨?_, ?_, ?_⟩
  · show |a.1 + r.1 + r.2 - _| ≤ _
    have herr : |a.1 + r.1 + r.2 - ((xh + xm + xl) + (yh + ym + yl))| ≤ 3 * U * Y + 8 * U * U * X := by
      rw [abs_le]; constructor <;> linarith
    refine herr.trans ?_
    have hV : 0 ≤ |(xh + xm + xl) + (yh + ym + yl)| := abs_nonneg _
    set V := |(xh + xm + xl) + (yh + ym + yl)|
    have g1 : A * (9 / 10 * H) ≤ A * V := mul_le_mul_of_nonneg_left hv hA0.le
    have g2 : B * (9 / 10 * H) ≤ B * V := mul_le_mul_of_nonneg_left hv (zpow2_pos _).le
    have k1 : (2:ℚ) ^ (-(min (ao + au) (bo + bu)) - 47) = A * (64 * U) := by
      have h2 : (2:ℚ) ^ (-47 : ℤ) = 64 * U := by norm_num
      rw [pow_sub_mul, h2]
    have k2 : B * (256 * U * U) ≤ (2:ℚ) ^ (-(min ao au) - 98) := by
      rw [pow_sub_mul]
      have h1 : B ≤ (2:ℚ) ^ (-(min ao au)) := mono _ _ (by omega)
      have h2 : (2:ℚ) ^ (-98 : ℤ) = 256 * U * U := by norm_num
      rw [h2]
      exact mul_le_mul_of_nonneg_right h1 (by norm_num)
    have k3 : (A * (64 * U) + B * (256 * U * U)) * V ≤ localAdd333 ao au bo bu * V := by
      refine mul_le_mul_of_nonneg_right ?_ hV
      unfold localAdd333
      rw [k1]; linarith
    refine le_trans ?_ k3
    have k4 : (A * (64 * U) + B * (256 * U * U)) * V = 64 * U * (A * V) + 256 * U * U * (B * V) := by ring
    rw [k4]
    have g1' : 9 / 10 * Y ≤ A * V := by rw [hY]; linarith
    have g2' : 9 / 10 * X ≤ B * V := by rw [hX]; linarith
    linarith
  · show |r.1| ≤ factorAdd333 ao bo * |a.1|
    have h1 : |r.1| ≤ 4 * X := by rw [abs_le]; constructor <;> linarith
    have h2 : factorAdd333 ao bo = 32 * B := by
      unfold factorAdd333
      have h5 : (2:ℚ) ^ (5 : ℤ) = 32 := by norm_num
      rw [zpow_add₀ (by norm_num), h5, ← hB]; ring
    rw [h2]
    have h3 : B * (9 / 10 * H) ≤ B * |a.1| := mul_le_mul_of_nonneg_left hrh (zpow2_pos _).le
    have h4 : 9 / 10 * X ≤ B * |a.1| := by rw [hX]; linarith
    linarith
  · show |r.2| ≤ _ * |r.1|
    rw [U53]; exact r6

end Verif.Blocks
