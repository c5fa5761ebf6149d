import Verif.Blocks.Dekker

/-! # Further two-limb blocks: fast addition, products, fused multiply-add -/

namespace Verif.Blocks

/-- **C47**, `Add221` with the fast two-sum: when the single limb is not larger than the head, same result as the general
block, so the declared local error is an upper bound. -/
theorem C47_add221_fast {p : ℕ} (hp : 3 ≤ p) {q : WithBot ℤ} {rnd : ℚ → ℚ} (hr : Nearest p q rnd)
    {xh xl y : ℚ} (hy : Rep p q y) (hx : Limbs2 p q xh xl) (hle : |y| ≤ |xh|) :
    let r := add221Fast rnd xh xl y
    Approx (localAdd221 p) ((xh + xl) + y) (r.1 + r.2) ∧ rnd (r.1 + r.2) = r.1 := by
  have h := C47_add221 hp hr hy hx
  obtain ⟨a1, -, a3⟩ := C46_fasttwosum (by omega) hr hx.1 hy (Or.inl hle)
  obtain ⟨b1, -, b3⟩ := C46_twosum hp hr hy hx.1
  have h1 : (fastTwoSum rnd xh y).1 = (twoSum rnd y xh).1 := by rw [a1, b1, add_comm]
  have h2 : (fastTwoSum rnd xh y).2 = (twoSum rnd y xh).2 := by linarith
  have he : add221Fast rnd xh xl y = add221 rnd xh xl y := by
    unfold add221Fast add221 add212
    simp only [h1, h2]
  rw [he]
  exact h

example : Limbs2 53 ⊥ 1 (2 ^ (-60 : ℤ)) ∧ Rep 53 ⊥ (-1 : ℚ) ∧ |(-1 : ℚ)| ≤ |1| :=
  ⟨⟨⟨1, 0, by norm_num, bot_le, by norm_num⟩, ⟨1, -60, by norm_num, bot_le, by norm_num⟩,
    by rw [abs_of_pos, abs_of_pos] <;> norm_num⟩, ⟨-1, 0, by norm_num, bot_le, by norm_num⟩, by norm_num⟩

/-- **C47**, `Mul221`. -/
theorem C47_mul221 {p : ℕ} (hp : 3 ≤ p) {rnd : ℚ → ℚ} (hr : Nearest p ⊥ rnd)
    {xh xl y : ℚ} (hy : Rep p ⊥ y) (hx : Limbs2 p ⊥ xh xl) :
    let r := mul221 rnd xh xl y
    Approx (localMul221 p) ((xh + xl) * y) (r.1 + r.2) ∧ rnd (r.1 + r.2) = r.1 := by
  have h := C47_mul212 hp hr hy hx
  rw [mul_comm] at h
  exact h

/-- A pair of format numbers whose head is the rounding of the pair does not overlap. -/
theorem limbs_of_rounded {p : ℕ} (hp : 1 ≤ p) {rnd : ℚ → ℚ} (hr : Nearest p ⊥ rnd) {h l : ℚ} (hl : Rep p ⊥ l)
    (he : rnd (h + l) = h) : Limbs2 p ⊥ h l := by
  refine ⟨he ▸ (hr (h + l)).1, hl, ?_⟩
  have := (rnd_rel hp hr (h + l)).2
  rwa [he, add_sub_cancel_left] at this

/-- **C47**, global error of `Mul221` (`eps_x + eps_y + local`): the true error exceeds it at most by the products of the
errors. -/
theorem C47_mul221_global_partial {p : ℕ} (hp : 3 ≤ p) {rnd : ℚ → ℚ} (hr : Nearest p ⊥ rnd) {ex ey x y xh xl y' : ℚ}
    (hy' : Rep p ⊥ y') (hx' : Limbs2 p ⊥ xh xl) (hx : Approx ex x (xh + xl)) (hy : Approx ey y y') :
    let r := mul221 rnd xh xl y'
    Approx (globalMul221 p ex ey + (ex * ey + localMul221 p * (ex + ey + ex * ey))) (x * y) (r.1 + r.2) := by
  intro r
  have h1 := (C47_mul221 hp hr hy' hx').1
  have hL : 0 ≤ localMul221 p := (zpow2_pos _).le
  unfold Approx at *
  set w := r.1 + r.2
  change |w - (xh + xl) * y'| ≤ _ at h1
  generalize xh + xl = x' at *
  have e1 : |x' * y' - x * y| ≤ (ex + ey + ex * ey) * |x * y| := by
    have : x' * y' - x * y = (x' - x) * y + x * (y' - y) + (x' - x) * (y' - y) := by ring
    rw [this]
    refine (abs_add_le _ _).trans ?_
    have a1 := abs_add_le ((x' - x) * y) (x * (y' - y))
    rw [abs_mul, abs_mul] at a1
    rw [abs_mul (x' - x) (y' - y), abs_mul x y]
    have b1 := mul_le_mul_of_nonneg_right hx (abs_nonneg y)
    have b2 := mul_le_mul_of_nonneg_left hy (abs_nonneg x)
    have b3 := mul_le_mul hx hy (abs_nonneg _) ((abs_nonneg _).trans hx)
    nlinarith
  have e2 : |x' * y'| ≤ (1 + (ex + ey + ex * ey)) * |x * y| := by
    have := abs_add_le (x' * y' - x * y) (x * y)
    rw [sub_add_cancel] at this
    linarith
  have e3 := mul_le_mul_of_nonneg_left e2 hL
  have e4 := abs_add_le (w - x' * y') (x' * y' - x * y)
  rw [show w - x' * y' + (x' * y' - x * y) = w - x * y by ring] at e4
  unfold globalMul221
  nlinarith

/-- **C64**, `Normalize_23`: two limbs, head rounded, with the error of one rounding of what the head leaves. -/
theorem C64_normalize23_partial {p : ℕ} (hp : 3 ≤ p) {rnd : ℚ → ℚ} (hr : Nearest p ⊥ rnd) {xh xm xl : ℚ}
    (hh : Rep p ⊥ xh) (hm : Rep p ⊥ xm) (hl : Rep p ⊥ xl) :
    let r := normalize23 rnd xh xm xl
    let v := xh + xm + xl
    Rep p ⊥ r.1 ∧ Rep p ⊥ r.2 ∧ |v - (r.1 + r.2)| ≤ (2:ℚ) ^ (-(p : ℤ)) * |v - r.1| := by
  intro r v
  obtain ⟨a1, a2, a3⟩ := C46_twosum hp hr hm hl
  have ha1 : Rep p ⊥ (twoSum rnd xm xl).1 := a1 ▸ (hr _).1
  obtain ⟨b1, b2, b3⟩ := C46_twosum hp hr hh ha1
  have hb1 : Rep p ⊥ (twoSum rnd xh (twoSum rnd xm xl).1).1 := b1 ▸ (hr _).1
  refine ⟨hb1, (hr _).1, ?_⟩
  have h1 : r.1 = (twoSum rnd xh (twoSum rnd xm xl).1).1 := rfl
  have h2 : r.2 = rnd ((twoSum rnd xh (twoSum rnd xm xl).1).2 + (twoSum rnd xm xl).2) := rfl
  have h3 := (rnd_rel (by omega) hr ((twoSum rnd xh (twoSum rnd xm xl).1).2 + (twoSum rnd xm xl).2)).1
  have hv : v = xh + xm + xl := rfl
  have e1 : v - r.1 = (twoSum rnd xh (twoSum rnd xm xl).1).2 + (twoSum rnd xm xl).2 := by rw [h1, hv]; linarith
  rw [← h2, ← e1] at h3
  rwa [show v - (r.1 + r.2) = v - r.1 - r.2 by ring]

example : Rep 53 ⊥ (1 : ℚ) ∧ Rep 53 ⊥ ((2 : ℚ) ^ (-40 : ℤ)) ∧ Rep 53 ⊥ ((2 : ℚ) ^ (-90 : ℤ)) :=
  ⟨⟨1, 0, by norm_num, bot_le, by norm_num⟩, ⟨1, -40, by norm_num, bot_le, by norm_num⟩,
    ⟨1, -90, by norm_num, bot_le, by norm_num⟩⟩

/-- **C65**, `FMA2211` (a two-limb factor): error of the addition plus error of the product.  The bound is relative to the
result up to cancellation between product and addend. -/
theorem C65_fma2211_partial {p : ℕ} (hp : 3 ≤ p) {rnd : ℚ → ℚ} (hr : Nearest p ⊥ rnd) {xh xl y z : ℚ}
    (hx : Limbs2 p ⊥ xh xl) (hy : Rep p ⊥ y) (hz : Rep p ⊥ z) :
    let r := mpFma2211 rnd xh xl y z
    let v := (xh + xl) * y
    |r.1 + r.2 - (v + z)| ≤ localAdd221 p * |v + z| + (1 + localAdd221 p) * localMul221 p * |v| ∧
      rnd (r.1 + r.2) = r.1 := by
  intro r v
  obtain ⟨h1, h2⟩ := C47_mul221 hp hr hy hx
  have hm := limbs_of_rounded (by omega) hr (h := (mul221 rnd xh xl y).1) (l := (mul221 rnd xh xl y).2) (hr _).1 h2
  obtain ⟨g1, g2⟩ := C47_add221 hp hr hz hm
  refine ⟨?_, g2⟩
  unfold Approx at *
  have hA : 0 ≤ localAdd221 p := (zpow2_pos _).le
  set m := (mul221 rnd xh xl y).1 + (mul221 rnd xh xl y).2 with hmdef
  change |m - v| ≤ localMul221 p * |v| at h1
  change |r.1 + r.2 - (m + z)| ≤ localAdd221 p * |m + z| at g1
  have e1 := abs_add_le (r.1 + r.2 - (m + z)) (m - v)
  rw [show r.1 + r.2 - (m + z) + (m - v) = r.1 + r.2 - (v + z) by ring] at e1
  have e2 := abs_add_le (v + z) (m - v)
  rw [show v + z + (m - v) = m + z by ring] at e2
  have e3 := mul_le_mul_of_nonneg_left (e2.trans (add_le_add_right h1 _)) hA
  linarith

/-- A relative error of at most one keeps the sign. -/
theorem sign_close {a b c : ℚ} (h : |a - b| ≤ c * |b|) (hc : c ≤ 1) : (0 ≤ b → 0 ≤ a) ∧ (b ≤ 0 → a ≤ 0) := by
  have h1 : |a - b| ≤ |b| := h.trans (by have := abs_nonneg b; nlinarith)
  have h2 := abs_le.1 h1
  constructor
  · intro hb
    rw [abs_of_nonneg hb] at h2
    linarith
  · intro hb
    rw [abs_of_nonpos hb] at h2
    linarith

/-- **C65**, `FMA2122`: two-limb factor and addend, product and addend of the same sign. -/
theorem C65_fma2122_partial {p : ℕ} (hp : 3 ≤ p) {rnd : ℚ → ℚ} (hr : Nearest p ⊥ rnd) {x yh yl zh zl : ℚ}
    (hx : Rep p ⊥ x) (hy : Limbs2 p ⊥ yh yl) (hz : Limbs2 p ⊥ zh zl)
    (hs : (0 ≤ x * yh ∧ 0 ≤ zh) ∨ (x * yh ≤ 0 ∧ zh ≤ 0)) :
    let r := mpFma2122 rnd x yh yl zh zl
    let v := x * (yh + yl)
    |r.1 + r.2 - (v + (zh + zl))| ≤ localAdd222 p * |v + (zh + zl)| + (1 + localAdd222 p) * localMul221 p * |v| ∧
      rnd (r.1 + r.2) = r.1 := by
  intro r v
  obtain ⟨h1, h2⟩ := C47_mul212 hp hr hx hy
  have hm := limbs_of_rounded (by omega) hr (h := (mul212 rnd x yh yl).1) (l := (mul212 rnd x yh yl).2) (hr _).1 h2
  have hu := u_le hp
  have s1 : (0 ≤ x * yh → 0 ≤ x * (yh + yl)) ∧ (x * yh ≤ 0 → x * (yh + yl) ≤ 0) := by
    refine sign_close (c := (2:ℚ) ^ (-(p : ℤ))) ?_ (by linarith)
    rw [show x * (yh + yl) - x * yh = x * yl by ring, abs_mul, abs_mul]
    have := mul_le_mul_of_nonneg_left hy.2.2 (abs_nonneg x)
    linarith
  have s2 := sign_close h1 (by
    have : localMul221 p = 16 * ((2:ℚ) ^ (-(p:ℤ)) * (2:ℚ) ^ (-(p:ℤ))) := u_sq p
    have h0 := zpow2_pos (-(p:ℤ))
    rw [this]
    nlinarith)
  have s3 : (0 ≤ (mul212 rnd x yh yl).1 + (mul212 rnd x yh yl).2 → 0 ≤ (mul212 rnd x yh yl).1) ∧
      ((mul212 rnd x yh yl).1 + (mul212 rnd x yh yl).2 ≤ 0 → (mul212 rnd x yh yl).1 ≤ 0) := by
    refine sign_close (c := (2:ℚ) ^ (-(p : ℤ))) ?_ (by linarith)
    have := (rnd_rel (by omega) hr ((mul212 rnd x yh yl).1 + (mul212 rnd x yh yl).2)).1
    rwa [h2, abs_sub_comm] at this
  have hs' : |(mul212 rnd x yh yl).1 + zh| = |(mul212 rnd x yh yl).1| + |zh| := by
    rw [abs_add_eq_add_abs_iff]
    rcases hs with ⟨k1, k2⟩ | ⟨k1, k2⟩
    · exact Or.inl ⟨s3.1 (s2.1 (s1.1 k1)), k2⟩
    · exact Or.inr ⟨s3.2 (s2.2 (s1.2 k1)), k2⟩
  obtain ⟨g1, g2⟩ := C47_add222_partial hp hr hm hz hs'
  refine ⟨?_, g2⟩
  unfold Approx at *
  have hA : 0 ≤ localAdd222 p := (zpow2_pos _).le
  set m := (mul212 rnd x yh yl).1 + (mul212 rnd x yh yl).2 with hmdef
  set z := zh + zl
  change |m - v| ≤ localMul221 p * |v| at h1
  change |r.1 + r.2 - (m + z)| ≤ localAdd222 p * |m + z| at g1
  have e1 := abs_add_le (r.1 + r.2 - (m + z)) (m - v)
  rw [show r.1 + r.2 - (m + z) + (m - v) = r.1 + r.2 - (v + z) by ring] at e1
  have e2 := abs_add_le (v + z) (m - v)
  rw [show v + z + (m - v) = m + z by ring] at e2
  have e3 := mul_le_mul_of_nonneg_left (e2.trans (add_le_add_right h1 _)) hA
  linarith

example : Rep 53 ⊥ (3 : ℚ) ∧ Limbs2 53 ⊥ 1 (-2 ^ (-60 : ℤ)) ∧ Limbs2 53 ⊥ 3 (2 ^ (-60 : ℤ)) ∧
    ((0 ≤ (3 : ℚ) * 1 ∧ (0 : ℚ) ≤ 3) ∨ ((3 : ℚ) * 1 ≤ 0 ∧ (3 : ℚ) ≤ 0)) :=
  ⟨⟨3, 0, by norm_num, bot_le, by norm_num⟩,
   ⟨⟨1, 0, by norm_num, bot_le, by norm_num⟩, ⟨-1, -60, by norm_num, bot_le, by norm_num⟩,
    by rw [abs_neg, abs_of_pos, abs_of_pos] <;> norm_num⟩,
   ⟨⟨3, 0, by norm_num, bot_le, by norm_num⟩, ⟨1, -60, by norm_num, bot_le, by norm_num⟩,
    by rw [abs_of_pos, abs_of_pos] <;> norm_num⟩, by norm_num⟩

end Verif.Blocks
