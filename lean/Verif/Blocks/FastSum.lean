import Verif.Blocks.More

/-! # The fast two-sum on operands of a common unit, and the limbs of a two-limb sum -/

namespace Verif.Blocks

/-- the unit of the second operand divides the first one -/
theorem fast_two_sum_unit {p : ℕ} (hp : 1 ≤ p) {r : ℤ → ℤ} (hr : NI p r) {a b : ℤ} (ha : FI p a) (hb : |b| < 2 ^ p) :
    r (b - r (r (a + b) - a)) = a + b - r (a + b) := by
  have hbF : FI p b := ⟨b, 0, hb.le, by simp⟩
  rcases le_or_gt |b| |a| with h | h
  · exact fast_two_sum hp hr ha hbF h
  have hn : |a + b| ≤ 2 ^ (p + 1) := by
    have := abs_add_le a b
    rw [pow_succ]; omega
  have hF : FI p (r (a + b) - a) := by
    by_cases hle : |a + b| ≤ 2 ^ p
    · rw [exact hr (FI_of_dvd (k := 0) (by simp) (by simpa using hle)), add_sub_cancel_left]; exact hbF
    · -- the sum is rounded to an even integer
      have hcand : FI p (2 * ((a + b) / 2)) ∨ FI p (2 * ((a + b + 1) / 2)) := by
        rw [abs_le, pow_succ] at hn
        rcases le_or_gt 0 (a + b) with hs | hs
        · left
          refine FI_of_dvd (k := 1) (by simp) ?_
          rw [abs_le, pow_succ]; omega
        · right
          refine FI_of_dvd (k := 1) (by simp) ?_
          rw [abs_le, pow_succ]; omega
      have herr : |a + b - r (a + b)| ≤ 1 := by
        rcases hcand with hc | hc
        · refine ((hr (a + b)).2 _ hc).trans ?_
          rw [abs_le]; omega
        · refine ((hr (a + b)).2 _ hc).trans ?_
          rw [abs_le]; omega
      refine FI_of_dvd (k := 0) (by simp) ?_
      rw [abs_le] at herr ⊢
      rw [abs_lt] at hb
      rw [add_zero]
      omega
  rw [exact hr hF]
  have : b - (r (a + b) - a) = a + b - r (a + b) := by ring
  rw [this]
  exact exact hr (err_FI hp hr ha hbF)

theorem FI_of_unit {p : ℕ} {q : WithBot ℤ} {m e : ℤ} (h : Rep p q ((m:ℚ) * 2 ^ e)) : FI p m := by
  obtain ⟨m', e', hm, -, he⟩ := h
  rcases le_or_gt e e' with h1 | h1
  · obtain ⟨k, hk⟩ := Int.eq_ofNat_of_zero_le (show 0 ≤ e' - e by omega)
    refine ⟨m', k, hm.le, ?_⟩
    rw [show e' = (k:ℤ) + e by omega, zpow_add₀ (by norm_num), zpow_natCast, ← mul_assoc] at he
    have := mul_right_cancel₀ (zpow2_pos e).ne' he
    exact_mod_cast this
  · obtain ⟨k, hk⟩ := Int.eq_ofNat_of_zero_le (show 0 ≤ e - e' by omega)
    rw [show e = (k:ℤ) + e' by omega, zpow_add₀ (by norm_num), zpow_natCast, ← mul_assoc] at he
    have h2 := mul_right_cancel₀ (zpow2_pos e').ne' he
    have h3 : m * 2 ^ k = m' := by exact_mod_cast h2
    refine ⟨m, 0, ?_, by simp⟩
    rw [← h3, abs_mul, abs_of_pos (by positivity : (0:ℤ) < 2 ^ k)] at hm
    have : |m| * 1 ≤ |m| * 2 ^ k := mul_le_mul_of_nonneg_left (one_le_pow₀ (by norm_num)) (abs_nonneg _)
    linarith

/-- **C46**: FastTwoSum is error-free as soon as the first operand is an integer multiple of the unit in which the second one
is written, whatever their magnitudes. -/
theorem C46_fasttwosum_unit {p : ℕ} (hp : 1 ≤ p) {q : WithBot ℤ} {rnd : ℚ → ℚ} (hr : Nearest p q rnd) {m n e : ℤ}
    (hq : q ≤ (e : WithBot ℤ)) (hx : Rep p q ((m:ℚ) * 2 ^ e)) (hn : |n| < 2 ^ p) :
    ErrorFreeSum p q rnd ((m:ℚ) * 2 ^ e) ((n:ℚ) * 2 ^ e) (fastTwoSum rnd ((m:ℚ) * 2 ^ e) ((n:ℚ) * 2 ^ e)) := by
  obtain ⟨r, hr', hrr⟩ := lift hp hr hq
  have hm := FI_of_unit hx
  have h := fast_two_sum_unit hp hr' hm hn
  have es : ∀ u v : ℤ, rnd ((u:ℚ) * 2 ^ e - v * 2 ^ e) = (r (u - v) : ℚ) * 2 ^ e := by
    intro u v; rw [← hrr]; congr 1; push_cast; ring
  have ea : ∀ u v : ℤ, rnd ((u:ℚ) * 2 ^ e + v * 2 ^ e) = (r (u + v) : ℚ) * 2 ^ e := by
    intro u v; rw [← hrr]; congr 1; push_cast; ring
  have e2 : (fastTwoSum rnd ((m:ℚ) * 2 ^ e) (n * 2 ^ e)).2 = ((m + n - r (m + n) : ℤ) : ℚ) * 2 ^ e := by
    unfold fastTwoSum
    dsimp only
    rw [ea, es, es, h]
  refine ⟨rfl, ?_, ?_⟩
  · rw [e2]; exact Rep_of_FI hp hq (err_FI hp hr' hm ⟨n, 0, hn.le, by simp⟩)
  · rw [e2]
    show rnd _ + _ = _
    rw [ea]; push_cast; ring

/-- a small first operand: 1 and 7 with three significant bits -/
example : Rep 3 ⊥ ((1:ℤ) * 2 ^ (0:ℤ) : ℚ) ∧ |(7:ℤ)| < 2 ^ 3 ∧ ¬ |(7:ℚ)| ≤ |1| :=
  ⟨⟨1, 0, by norm_num, bot_le, by norm_num⟩, by norm_num, by norm_num⟩

/-- a number of the format with a full significand -/
theorem full {p : ℕ} {x : ℚ} (hx : Rep p ⊥ x) (hx0 : x ≠ 0) :
    ∃ m e : ℤ, 2 ^ (p - 1) ≤ |m| ∧ |m| < 2 ^ p ∧ x = m * 2 ^ e := by
  obtain ⟨m, e, hm, -, rfl⟩ := hx
  have hm0 : m ≠ 0 := by rintro rfl; simp at hx0
  have hex : ∃ k : ℕ, 2 ^ (p - 1) ≤ |m * 2 ^ k| := by
    refine ⟨p - 1, ?_⟩
    rw [abs_mul, abs_of_pos (by positivity : (0:ℤ) < 2 ^ (p - 1))]
    have := Int.one_le_abs hm0
    nlinarith [show (0:ℤ) < 2 ^ (p - 1) by positivity]
  classical
  obtain ⟨hk1, hk2⟩ := And.intro (Nat.find_spec hex) (fun j => @Nat.find_min _ _ hex j)
  set k := Nat.find hex
  refine ⟨m * 2 ^ k, e - k, hk1, ?_, ?_⟩
  · rcases Nat.eq_zero_or_pos k with h | h
    · rw [h, pow_zero, mul_one]; exact hm
    · have := hk2 (k - 1) (by omega)
      rw [not_le, abs_mul] at this
      have hp0 : p ≠ 0 := by
        rintro rfl
        have := Int.one_le_abs hm0
        simp at hm; omega
      rw [abs_mul, show k = k - 1 + 1 by omega, pow_succ, abs_mul, show p = p - 1 + 1 by omega, pow_succ]
      rw [show |(2:ℤ)| = 2 from rfl]
      linarith
  · rw [zpow_sub₀ (by norm_num), zpow_natCast]
    push_cast
    field_simp

/-- The final fast two-sum of `Add222` is exact for all signs: when the heads cancel, their sum is a multiple of the unit of
the rounded tail. -/
theorem add222_exact {p : ℕ} (hp : 5 ≤ p) {rnd : ℚ → ℚ} (hr : Nearest p ⊥ rnd) {ah al bh bl : ℚ} (h1 : Rep p ⊥ ah)
    (h2 : Rep p ⊥ al) (h3 : Rep p ⊥ bh) (h4 : Rep p ⊥ bl)
    (hl : |al + bl| ≤ 9 / 8 * (2:ℚ) ^ (-(p:ℤ)) * (|ah| + |bh|)) :
    let v := twoSum rnd ah bh
    let v4 := rnd (v.2 + rnd (al + bl))
    let r := add222 rnd ah al bh bl
    r.1 = rnd (r.1 + r.2) ∧ Rep p ⊥ r.2 ∧ r.1 + r.2 = v.1 + v4 := by
  intro v v4 r
  have hp1 : 1 ≤ p := by omega
  obtain ⟨t1, t2, t3⟩ := C46_twosum (by omega) hr h1 h3
  have key : ErrorFreeSum p ⊥ rnd v.1 v4 r → r.1 = rnd (r.1 + r.2) ∧ Rep p ⊥ r.2 ∧ r.1 + r.2 = v.1 + v4 := by
    rintro ⟨k1, k2, k3⟩
    exact ⟨by rw [k3, k1], k2, k3⟩
  apply key
  have rv1 : Rep p ⊥ v.1 := t1 ▸ (hr _).1
  have r4 : Rep p ⊥ v4 := (hr _).1
  rcases le_or_gt |v4| |v.1| with hle | hlt
  · exact C46_fasttwosum hp1 hr rv1 r4 (Or.inl hle)
  -- the heads cancel
  set u := (2:ℚ) ^ (-(p:ℤ)) with hu
  have hu0 : 0 < u := zpow2_pos _
  have hu32 : u ≤ 1 / 32 := by
    have : u ≤ (2:ℚ) ^ (-5 : ℤ) := zpow_le_zpow_right₀ (by norm_num) (by omega)
    norm_num at this ⊢; exact this
  set M := |ah| + |bh| with hM
  have hM0 : 0 ≤ M := by positivity
  have e3 : |rnd (al + bl)| ≤ 33 / 32 * (9 / 8 * u * M) := by
    have := (rnd_rel hp1 hr (al + bl)).1
    have h5 : |rnd (al + bl)| ≤ |al + bl| + |al + bl - rnd (al + bl)| := by
      have := abs_sub_abs_le_abs_sub (rnd (al + bl)) (al + bl)
      rw [abs_sub_comm] at this; linarith
    have h6 : u * |al + bl| ≤ 1 / 32 * |al + bl| := mul_le_mul_of_nonneg_right hu32 (abs_nonneg _)
    linarith
  have e2 : |v.2| ≤ 1 / 32 * |v.1| := by
    have := (rnd_rel hp1 hr (ah + bh)).2
    rw [← t1, ← t3, add_sub_cancel_left] at this
    have h6 : u * |v.1| ≤ 1 / 32 * |v.1| := mul_le_mul_of_nonneg_right hu32 (abs_nonneg _)
    exact this.trans h6
  have e4 : |v4| ≤ 33 / 32 * (|v.2| + |rnd (al + bl)|) := by
    have := (rnd_rel hp1 hr (v.2 + rnd (al + bl))).1
    have h5 := abs_sub_abs_le_abs_sub v4 (v.2 + rnd (al + bl))
    rw [abs_sub_comm] at h5
    have h6 : u * |v.2 + rnd (al + bl)| ≤ 1 / 32 * |v.2 + rnd (al + bl)| :=
      mul_le_mul_of_nonneg_right hu32 (abs_nonneg _)
    have h7 := abs_add_le v.2 (rnd (al + bl))
    linarith
  have huM0 : 0 ≤ u * M := mul_nonneg hu0.le hM0
  have b4 : |v4| ≤ 5 / 4 * (u * M) := by linarith
  have hsum : |ah + bh| ≤ 21 / 16 * (u * M) := by
    have : |ah + bh| ≤ |v.1| + |v.2| := by rw [← t3]; exact abs_add_le _ _
    linarith
  have huM : u * M ≤ 1 / 32 * M := mul_le_mul_of_nonneg_right hu32 hM0
  have hcmp1 : |ah| ≤ |bh| + |ah + bh| := by
    have := abs_sub_abs_le_abs_sub ah (-bh)
    rw [abs_neg, sub_neg_eq_add] at this; linarith
  have hcmp2 : |bh| ≤ |ah| + |ah + bh| := by
    have := abs_sub_abs_le_abs_sub bh (-ah)
    rw [abs_neg, sub_neg_eq_add, add_comm bh] at this; linarith
  have ha0 : ah ≠ 0 := by
    rintro rfl
    rw [abs_zero] at hcmp1 hcmp2 hM
    have : M = 0 := by
      have := abs_nonneg bh
      linarith
    rw [this] at b4
    have := abs_nonneg v.1
    linarith
  have hb0 : bh ≠ 0 := by
    rintro rfl
    rw [abs_zero] at hcmp1 hcmp2 hM
    have := abs_pos.2 ha0
    linarith
  have h40 : v4 ≠ 0 := by
    intro h0
    rw [h0, abs_zero] at hlt
    have := abs_nonneg v.1
    linarith
  obtain ⟨m, e, m1, m2, hm⟩ := full h1 ha0
  obtain ⟨n, f, n1, n2, hn⟩ := full h3 hb0
  obtain ⟨k, g, k1, k2, hk⟩ := full r4 h40
  have cast1 : ∀ z : ℤ, 2 ^ (p - 1) ≤ |z| → (2:ℚ) ^ ((p:ℤ) - 1) ≤ |(z:ℚ)| := by
    intro z hz
    have h' : (2:ℚ) ^ (p - 1) ≤ |(z:ℚ)| := by exact_mod_cast hz
    rwa [← zpow_natCast, Nat.cast_sub hp1, Nat.cast_one] at h'
  have cast2 : ∀ z : ℤ, |z| < 2 ^ p → |(z:ℚ)| < (2:ℚ) ^ (p:ℤ) := by
    intro z hz
    rw [zpow_natCast]
    exact_mod_cast hz
  have lo : ∀ (z w : ℤ), 2 ^ (p - 1) ≤ |z| → (2:ℚ) ^ ((p:ℤ) - 1 + w) ≤ |(z:ℚ) * 2 ^ w| := by
    intro z w hz
    rw [abs_mul, abs_of_pos (zpow2_pos w), zpow_add₀ (by norm_num)]
    exact mul_le_mul_of_nonneg_right (cast1 z hz) (zpow2_pos w).le
  have hi : ∀ (z w : ℤ), |z| < 2 ^ p → |(z:ℚ) * 2 ^ w| < (2:ℚ) ^ ((p:ℤ) + w) := by
    intro z w hz
    rw [abs_mul, abs_of_pos (zpow2_pos w), zpow_add₀ (by norm_num)]
    exact mul_lt_mul_of_pos_right (cast2 z hz) (zpow2_pos w)
  have alo := lo m e m1
  have ahi := hi m e m2
  have bhi := hi n f n2
  have klo := lo k g k1
  rw [← hm] at alo ahi
  rw [← hn] at bhi
  rw [← hk] at klo
  have twice : ∀ z : ℤ, (2:ℚ) ^ (z + 1) = 2 * 2 ^ z := by
    intro z; rw [zpow_add₀ (by norm_num), zpow_one]; ring
  -- exponents
  have hf : e - 1 ≤ f := by
    by_contra hc
    have h5 : (2:ℚ) ^ ((p:ℤ) + f) ≤ (2:ℚ) ^ ((p:ℤ) - 2 + e) := zpow_le_zpow_right₀ (by norm_num) (by omega)
    have h6 := twice ((p:ℤ) - 2 + e)
    rw [show (p:ℤ) - 2 + e + 1 = (p:ℤ) - 1 + e by ring] at h6
    linarith
  have huE : u * (2:ℚ) ^ ((p:ℤ) + e) = 2 ^ e := by
    rw [hu, ← zpow_add₀ (by norm_num)]; congr 1; ring
  have huM2 : u * M ≤ 35 / 16 * 2 ^ e := by
    have h5 : M ≤ 35 / 16 * |ah| := by linarith
    have h6 : u * M ≤ u * (35 / 16 * (2:ℚ) ^ ((p:ℤ) + e)) := mul_le_mul_of_nonneg_left (by linarith) hu0.le
    have h7 : u * (35 / 16 * (2:ℚ) ^ ((p:ℤ) + e)) = 35 / 16 * (u * (2:ℚ) ^ ((p:ℤ) + e)) := by ring
    rw [h7, huE] at h6
    exact h6
  have t4 := twice e
  have t5 := twice (e + 1)
  have hg : g ≤ e - 1 := by
    by_contra hc
    have h5 : (2:ℚ) ^ (e + 1 + 1) ≤ (2:ℚ) ^ ((p:ℤ) - 1 + g) := zpow_le_zpow_right₀ (by norm_num) (by omega)
    have := zpow2_pos e
    linarith
  -- both operands of the fast two-sum in units of 2^g
  have toUnit : ∀ (z w : ℤ), g ≤ w → (z:ℚ) * 2 ^ w = ((z * 2 ^ (w - g).toNat : ℤ) : ℚ) * 2 ^ g := by
    intro z w hw
    push_cast
    rw [mul_assoc, ← zpow_natCast, ← zpow_add₀ (by norm_num), Int.toNat_of_nonneg (by omega)]
    congr 2; ring
  set N := m * 2 ^ (e - g).toNat + n * 2 ^ (f - g).toNat with hN
  have hNv : ah + bh = (N:ℚ) * 2 ^ g := by
    rw [hm, hn, toUnit m e (by omega), toUnit n f (by omega), hN]; push_cast; ring
  have hrep : Rep p ⊥ (ah + bh) := by
    have hE : ∃ z : ℤ, ah + bh = (z:ℚ) * 2 ^ (e - 1) := by
      refine ⟨m * 2 + n * 2 ^ (f - (e - 1)).toNat, ?_⟩
      rw [hm, hn]
      push_cast
      have h5 : (2:ℚ) ^ e = 2 * 2 ^ (e - 1) := by rw [← twice]; congr 1; ring
      have h6 : (2:ℚ) ^ f = 2 ^ (f - (e - 1)).toNat * 2 ^ (e - 1) := by
        rw [← zpow_natCast, ← zpow_add₀ (by norm_num), Int.toNat_of_nonneg (by omega)]; congr 1; ring
      rw [h5, h6]; ring
    obtain ⟨z, hz⟩ := hE
    refine ⟨z, e - 1, ?_, bot_le, hz⟩
    have h5 : |(z:ℚ)| * 2 ^ (e - 1) < 8 * 2 ^ (e - 1) := by
      have h6 : |(z:ℚ)| * 2 ^ (e - 1) = |ah + bh| := by rw [hz, abs_mul, abs_of_pos (zpow2_pos (e - 1))]
      have h7 : (2:ℚ) ^ e = 2 * 2 ^ (e - 1) := by rw [← twice]; congr 1; ring
      have := zpow2_pos (e - 1)
      rw [h6]; linarith
    have h8 := lt_of_mul_lt_mul_right h5 (zpow2_pos (e - 1)).le
    have h9 : |z| < 8 := by exact_mod_cast h8
    have h10 : (2:ℤ) ^ 5 ≤ 2 ^ p := pow_le_pow_right₀ (by norm_num) hp
    omega
  have hv1 : v.1 = (N:ℚ) * 2 ^ g := by
    show (twoSum rnd ah bh).1 = _
    rw [t1, rnd_exact hr hrep, hNv]
  have hF := C46_fasttwosum_unit hp1 hr (q := ⊥) (m := N) (n := k) (e := g) bot_le (hNv ▸ hrep) k2
  rw [← hv1, ← hk] at hF
  exact hF

/-- **C47**, `Add222`, limbs of the result: for all non-overlapping operands, of any signs and with any cancellation, the low
limb of the result does not overlap its head (the declared limb factor). -/
theorem C47_add222_limbs {p : ℕ} (hp : 5 ≤ p) {rnd : ℚ → ℚ} (hr : Nearest p ⊥ rnd) {xh xl yh yl : ℚ}
    (hx : Limbs2 p ⊥ xh xl) (hy : Limbs2 p ⊥ yh yl) :
    let r := add222 rnd xh xl yh yl
    rnd (r.1 + r.2) = r.1 ∧ Limbs2 p ⊥ r.1 r.2 := by
  obtain ⟨hxh, hxl, hlx⟩ := hx
  obtain ⟨hyh, hyl, hly⟩ := hy
  have hu := zpow2_pos (-(p:ℤ))
  have h := add222_exact hp hr hxh hxl hyh hyl (by
    have := abs_add_le xl yl
    have h1 : (2:ℚ) ^ (-(p:ℤ)) * (|xh| + |yh|) ≤ 9 / 8 * (2:ℚ) ^ (-(p:ℤ)) * (|xh| + |yh|) := by
      refine mul_le_mul_of_nonneg_right ?_ (by positivity)
      linarith
    linarith)
  obtain ⟨a1, a2, a3⟩ := h
  exact ⟨a1.symm, limbs_of_rounded (by omega) hr a2 a1.symm⟩

example : Limbs2 53 ⊥ 1 (2 ^ (-54 : ℤ)) ∧ Limbs2 53 ⊥ (-1) (2 ^ (-60 : ℤ)) :=
  ⟨⟨⟨1, 0, by norm_num, bot_le, by norm_num⟩, ⟨1, -54, by norm_num, bot_le, by norm_num⟩,
    by rw [abs_of_pos, abs_of_pos] <;> norm_num⟩,
   ⟨⟨-1, 0, by norm_num, bot_le, by norm_num⟩, ⟨1, -60, by norm_num, bot_le, by norm_num⟩,
    by rw [abs_neg, abs_of_pos, abs_of_pos] <;> norm_num⟩⟩

end Verif.Blocks
