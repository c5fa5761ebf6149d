import Verif.Mprec.Lemmas
import Mathlib.Tactic.LinearCombination

/-! # C123: arithmetic on pairs of doubles in the C support library -/

namespace Verif.Mprec

open Verif.Blocks

theorem split_spec {p s : ℕ} (hs : 2 ≤ s) (hps : s + 1 ≤ p) {q : ℤ} {rnd : ℚ → ℚ} (hr : Nearest p (q : WithBot ℤ) rnd)
    {x : ℚ} (hx : Rep p (q : WithBot ℤ) x) :
    (split rnd (2 ^ s + 1) x).1 + (split rnd (2 ^ s + 1) x).2 = x ∧
      Rep (p - s) (q : WithBot ℤ) (split rnd (2 ^ s + 1) x).1 ∧
      Rep (s - 1) (q : WithBot ℤ) (split rnd (2 ^ s + 1) x).2 ∧
      NoOverlap (split rnd (2 ^ s + 1) x).1 (split rnd (2 ^ s + 1) x).2 := by
  obtain ⟨rnd', h1, h2⟩ := extend (by omega) hr
  have hA := split_agree (by omega) hr h2 (2 ^ s + 1) (le_refl q) (mult_of_rep hx)
  rw [show ((2 ^ s + 1 : ℤ) : ℚ) = 2 ^ s + 1 by push_cast; ring] at hA
  obtain ⟨e1, e2, e3⟩ := hA
  rcases eq_or_ne x 0 with rfl | hx0
  · have : split rnd (2 ^ s + 1) 0 = (0, 0) := by
      have r0 : rnd 0 = 0 := rnd_exact hr (Rep_zero p _)
      simp [split, r0]
    rw [this]
    refine ⟨by simp, Rep_zero _ _, Rep_zero _ _, 0, ⟨0, by simp⟩, ?_⟩
    rw [abs_zero]; positivity
  have norm : ∃ m e : ℤ, 2 ^ (p - 1) ≤ |m| ∧ |m| < 2 ^ p ∧ x = m * 2 ^ e := by
    obtain ⟨m, e, hm, -, rfl⟩ := hx
    have hm0 : m ≠ 0 := by rintro rfl; simp at hx0
    obtain ⟨j, hj1, hj2⟩ : ∃ j : ℕ, 2 ^ (p - 1) ≤ |m| * 2 ^ j ∧ |m| * 2 ^ j < 2 ^ p := by
      have hex : ∃ k : ℕ, 2 ^ (p - 1) ≤ |m| * 2 ^ k := by
        refine ⟨p - 1, ?_⟩
        have := Int.one_le_abs hm0
        nlinarith [show (0:ℤ) < 2 ^ (p - 1) by positivity]
      classical
      refine ⟨Nat.find hex, Nat.find_spec hex, ?_⟩
      rcases Nat.eq_zero_or_pos (Nat.find hex) with h | h
      · rw [h, pow_zero, mul_one]; exact hm
      · have := Nat.find_min hex (m := Nat.find hex - 1) (by omega)
        rw [not_le] at this
        have hP : (2:ℤ) ^ p = 2 ^ (p - 1) * 2 := by rw [← pow_succ]; congr 1; omega
        rw [show Nat.find hex = Nat.find hex - 1 + 1 by omega, pow_succ, hP]
        linarith
    refine ⟨m * 2 ^ j, e - j, by rwa [abs_mul, abs_of_pos (by positivity : (0:ℤ) < 2 ^ j)],
      by rwa [abs_mul, abs_of_pos (by positivity : (0:ℤ) < 2 ^ j)], ?_⟩
    rw [zpow_sub₀ (by norm_num), zpow_natCast]
    push_cast
    field_simp
  obtain ⟨m, e, m1, m2, rfl⟩ := norm
  obtain ⟨a, b, hab, hsum, ha, hb⟩ := C64_split (by omega : 1 ≤ s) hps h1 m1 m2 bot_le
  rw [e1] at hab
  rw [hab] at e2 e3 ⊢
  refine ⟨?_, ?_, ?_, e + s, ⟨a, rfl⟩, ?_⟩
  · rw [← hsum, zpow_add₀ (by norm_num), zpow_natCast]; push_cast; ring
  · exact rep_of_mult (Rep_of_FI (by omega) bot_le ⟨a, 0, ha, by simp⟩) e2
  · exact rep_of_mult (Rep_of_FI (by omega) bot_le ⟨b, 0, hb, by simp⟩) e3
  · show |(b:ℚ) * 2 ^ e| ≤ _
    rw [abs_mul, abs_of_pos (zpow2_pos e), show e + (s:ℤ) - 1 = ((s - 1 : ℕ) : ℤ) + e by
      rw [Nat.cast_sub (by omega)]; push_cast; ring, zpow_add₀ (by norm_num), zpow_natCast]
    have : |(b:ℚ)| ≤ 2 ^ (s - 1) := by exact_mod_cast hb
    exact mul_le_mul_of_nonneg_right this (zpow2_pos e).le

/-- **C123**, splitting a double: for every finite double, subnormal ones included, the two parts add up
to it exactly, each fits in 26 bits and they do not overlap. -/
theorem C123_split {rnd : ℚ → ℚ} (hr : Rounds64 rnd) {x : ℚ} (hx : Double x) :
    (splitD rnd x).1 + (splitD rnd x).2 = x ∧ Rep 26 ((-1074 : ℤ) : WithBot ℤ) (splitD rnd x).1 ∧
      Rep 26 ((-1074 : ℤ) : WithBot ℤ) (splitD rnd x).2 ∧ NoOverlap (splitD rnd x).1 (splitD rnd x).2 := by
  rw [splitD_eq]
  exact split_spec (by norm_num) (by norm_num) hr hx

/-- **C123**, splitting a float: 12 bits above, 11 bits below. -/
theorem C123_split_single {rnd : ℚ → ℚ} (hr : Rounds32 rnd) {x : ℚ} (hx : Single x) :
    (splitS rnd x).1 + (splitS rnd x).2 = x ∧ Rep 12 ((-149 : ℤ) : WithBot ℤ) (splitS rnd x).1 ∧
      Rep 11 ((-149 : ℤ) : WithBot ℤ) (splitS rnd x).2 ∧ NoOverlap (splitS rnd x).1 (splitS rnd x).2 := by
  rw [splitS_eq]
  exact split_spec (by norm_num) (by norm_num) hr hx

example : Rounds64 (roundNearest 53 ((-1074 : ℤ) : WithBot ℤ)) ∧ Rounds32 (roundNearest 24 ((-149 : ℤ) : WithBot ℤ)) ∧
    Double (2 ^ 52 + 1) ∧ Double (3 * 2 ^ (-1074 : ℤ)) ∧ Single (2 ^ 23 + 1) :=
  ⟨roundNearest_nearest (by norm_num) _, roundNearest_nearest (by norm_num) _,
    ⟨2 ^ 52 + 1, 0, by norm_num, WithBot.coe_le_coe.2 (by norm_num), by norm_num⟩,
    ⟨3, -1074, by norm_num, le_refl _, by norm_num⟩,
    ⟨2 ^ 23 + 1, 0, by norm_num, WithBot.coe_le_coe.2 (by norm_num), by norm_num⟩⟩

/-- **C123**, the sum of two doubles: the head is the rounded sum and the tail is exactly what it misses,
for all doubles in any order. -/
theorem C123_sum {rnd : ℚ → ℚ} (hr : Rounds64 rnd) {x y : ℚ} (hx : Double x) (hy : Double y) :
    (addD rnd x y).1 = rnd (x + y) ∧ (addD rnd x y).1 + (addD rnd x y).2 = x + y ∧
      Pair (addD rnd x y).1 (addD rnd x y).2 := by
  obtain ⟨t1, t2, t3⟩ := C46_twosum (by norm_num) hr hx hy
  have := twoSum_limbs (by norm_num) hr hx hy
  exact ⟨t1, t3, this.1, this.2.1, by simpa using this.2.2⟩

/-- **C123**, the fast sum is exact when the first operand is the larger in magnitude. -/
theorem C123_fastsum {rnd : ℚ → ℚ} (hr : Rounds64 rnd) {x y : ℚ} (hx : Double x) (hy : Double y) (h : |y| ≤ |x|) :
    (addFast rnd x y).1 = rnd (x + y) ∧ (addFast rnd x y).1 + (addFast rnd x y).2 = x + y ∧
      Pair (addFast rnd x y).1 (addFast rnd x y).2 := by
  obtain ⟨t1, t2, t3⟩ := C46_fasttwosum (by norm_num) hr hx hy (Or.inl h)
  rw [← addFast_eq] at t1 t2 t3
  refine ⟨t1, t3, by rw [t1]; exact (hr _).1, t2, ?_⟩
  have := (unit_rel (by norm_num) hr (mult_add (mult_of_rep hx) (mult_of_rep hy))).2
  rw [← t1] at this
  rw [show x + y - (addFast rnd x y).1 = (addFast rnd x y).2 by linarith] at this
  simpa using this

/-- **C123 fails** under the documented hypothesis of the fast sum, `x >= y`: with `x` positive and `y`
negative and larger in magnitude the pair is not the sum. -/
theorem C123_fastsum_wrong : ∃ rnd : ℚ → ℚ, Rounds64 rnd ∧ ∃ x y : ℚ, Double x ∧ Double y ∧ y ≤ x ∧
    (addFast rnd x y).1 + (addFast rnd x y).2 ≠ x + y := by
  refine ⟨roundNearest 53 ((-1074 : ℤ) : WithBot ℤ), roundNearest_nearest (by norm_num) _, 2 ^ 53 - 1,
    -(4 * (2 ^ 53 - 1)), ⟨2 ^ 53 - 1, 0, by norm_num, WithBot.coe_le_coe.2 (by norm_num), by norm_num⟩,
    ⟨-(2 ^ 53 - 1), 2, by norm_num, WithBot.coe_le_coe.2 (by norm_num), by norm_num⟩, by norm_num, ?_⟩
  decide +kernel

/-- **C123**, the product of two doubles (range of exponents not limited above): it is the sum of the two
parts exactly when it is a whole number of the smallest double. -/
theorem C123_product_partial {rnd : ℚ → ℚ} (hr : Rounds64 rnd) {x y : ℚ} (hx : Double x) (hy : Double y) :
    ((multD rnd x y).1 + (multD rnd x y).2 = x * y ↔ MultipleOf (-1074) (x * y)) ∧
      (multD rnd x y).1 = rnd (x * y) ∧
      (MultipleOf (-1074) (x * y) → Pair (multD rnd x y).1 (multD rnd x y).2) := by
  refine ⟨⟨fun h => ?_, fun h => ?_⟩, rfl, fun h => ?_⟩
  · rw [← h]
    have a : Double (multD rnd x y).1 := (hr _).1
    have b : Double (multD rnd x y).2 := (hr _).1
    exact mult_add (mult_of_rep a) (mult_of_rep b)
  · have M := mult_spec (s := 27) (by norm_num) (by norm_num) (by norm_num) hr hx hy h
    rw [← multD_eq] at M
    exact M.2.2
  · have M := mult_spec (s := 27) (by norm_num) (by norm_num) (by norm_num) hr hx hy h
    rw [← multD_eq] at M
    obtain ⟨m1, m2, m3⟩ := M
    refine ⟨by rw [m1]; exact (hr _).1, m2, ?_⟩
    have := (unit_rel (by norm_num) hr h).2
    rw [← m1] at this
    rw [show x * y - (multD rnd x y).1 = (multD rnd x y).2 by linarith] at this
    simpa using this

example : MultipleOf (-1074) ((1 + 2 ^ (-52 : ℤ)) * (1 + 2 ^ (-52 : ℤ)) : ℚ) :=
  mult_mono (by norm_num) ⟨(2 ^ 52 + 1) * (2 ^ 52 + 1), by norm_num⟩ (f := -104)

/-- **C123 fails** for the documented "exact result" of the product: `(2^-540 + 2^-592)^2` is not. -/
theorem C123_product_wrong {rnd : ℚ → ℚ} (hr : Rounds64 rnd) : ∃ x y : ℚ, Double x ∧ Double y ∧
    2 ^ (-1080 : ℤ) ≤ x * y ∧ (multD rnd x y).1 + (multD rnd x y).2 ≠ x * y := by
  have hx : Double (((2 ^ 52 + 1 : ℤ) : ℚ) * 2 ^ (-592 : ℤ)) :=
    ⟨2 ^ 52 + 1, -592, by norm_num, WithBot.coe_le_coe.2 (by norm_num), rfl⟩
  refine ⟨_, _, hx, hx, ?_, fun h => ?_⟩
  · rw [show (2:ℚ) ^ (-1080 : ℤ) = (2 ^ 52 * 2 ^ (-592 : ℤ)) * (2 ^ 52 * 2 ^ (-592 : ℤ)) by
      rw [← zpow_natCast, ← zpow_add₀ (by norm_num), ← zpow_add₀ (by norm_num)]; norm_num]
    have h1 : (2:ℚ) ^ 52 * 2 ^ (-592 : ℤ) ≤ ((2 ^ 52 + 1 : ℤ) : ℚ) * 2 ^ (-592 : ℤ) :=
      mul_le_mul_of_nonneg_right (by norm_num) (zpow2_pos _).le
    exact mul_le_mul h1 h1 (mul_nonneg (by norm_num) (zpow2_pos _).le)
      (mul_nonneg (by norm_num) (zpow2_pos _).le)
  have := ((C123_product_partial hr hx hx).1.1 h)
  have := exps_of_prod (by decide) (by decide) this
  omega

/-- **C123**, a double plus a pair: the relative error is at most `2^-103`, the result is normalised and
its head is the rounding of the pair; the condition of the source comment
(`abs(y.hi) <= 2^(-2) abs(x)`) is not needed. -/
theorem C123_add {rnd : ℚ → ℚ} (hr : Rounds64 rnd) {x yh yl : ℚ} (hx : Double x) (hy : Pair yh yl) :
    Approx (2 ^ (-103 : ℤ)) (x + (yh + yl)) ((addDDD rnd x (yh, yl)).1 + (addDDD rnd x (yh, yl)).2) ∧
      rnd ((addDDD rnd x (yh, yl)).1 + (addDDD rnd x (yh, yl)).2) = (addDDD rnd x (yh, yl)).1 ∧
      Pair (addDDD rnd x (yh, yl)).1 (addDDD rnd x (yh, yl)).2 := by
  have hl : Limbs2 53 ((-1074 : ℤ) : WithBot ℤ) yh yl := ⟨hy.1, hy.2.1, by simpa using hy.2.2⟩
  have h := addDDD_spec (by norm_num) hr hx hl
  have h2 := addDDD_limbs (yl := yl) (by norm_num) hr hx hl.1
  have e : localAdd221 53 = 2 ^ (-103 : ℤ) := by norm_num [localAdd221]
  rw [e] at h
  exact ⟨h.1, h.2.1, h2.1, h2.2.1, by simpa using h2.2.2⟩

/-- **C123**, the sum of two pairs, whatever their signs and however much cancels: the relative error is
at most `3 * 2^-103` and the result is normalised. -/
theorem C123_addpairs {rnd : ℚ → ℚ} (hr : Rounds64 rnd) {xh xl yh yl : ℚ} (hx : Pair xh xl) (hy : Pair yh yl) :
    Approx (3 * 2 ^ (-103 : ℤ)) ((xh + xl) + (yh + yl))
      ((addPairs rnd (xh, xl) (yh, yl)).1 + (addPairs rnd (xh, xl) (yh, yl)).2) ∧
      Pair (addPairs rnd (xh, xl) (yh, yl)).1 (addPairs rnd (xh, xl) (yh, yl)).2 := by
  have hl : Limbs2 53 ((-1074 : ℤ) : WithBot ℤ) yh yl := ⟨hy.1, hy.2.1, by simpa using hy.2.2⟩
  have hk : Limbs2 53 ((-1074 : ℤ) : WithBot ℤ) xh xl := ⟨hx.1, hx.2.1, by simpa using hx.2.2⟩
  have h := addPairs_spec (by norm_num) hr hk hl
  have e : localAdd221 53 = 2 ^ (-103 : ℤ) := by norm_num [localAdd221]
  rw [e] at h
  exact ⟨h.1, h.2.1, h.2.2.1, by simpa using h.2.2.2⟩

example : Pair (1 : ℚ) (2 ^ (-60 : ℤ)) ∧ Pair (-1 + 2 ^ (-53 : ℤ) : ℚ) (2 ^ (-110 : ℤ)) :=
  ⟨⟨⟨1, 0, by norm_num, WithBot.coe_le_coe.2 (by norm_num), by norm_num⟩,
    ⟨1, -60, by norm_num, WithBot.coe_le_coe.2 (by norm_num), by norm_num⟩, by norm_num [abs_of_pos]⟩,
   ⟨⟨-2 ^ 53 + 1, -53, by norm_num, WithBot.coe_le_coe.2 (by norm_num), by norm_num⟩,
    ⟨1, -110, by norm_num, WithBot.coe_le_coe.2 (by norm_num), by norm_num⟩, by norm_num [abs_of_pos, abs_of_neg]⟩⟩

/-- the value of an operand of an `Addition` node -/
def value : ℚ ⊕ (ℚ × ℚ) → ℚ
  | .inl x => x
  | .inr x => x.1 + x.2

/-- an operand is a double or a normalised pair -/
def IsOperand : ℚ ⊕ (ℚ × ℚ) → Prop
  | .inl x => Double x
  | .inr x => Pair x.1 x.2

/-- **C123**, whichever function the processor selects for an addition with a double-double result. -/
theorem C123_addition {rnd : ℚ → ℚ} (hr : Rounds64 rnd) {x y : ℚ ⊕ (ℚ × ℚ)} (hx : IsOperand x) (hy : IsOperand y) :
    Approx (3 * 2 ^ (-103 : ℤ)) (value x + value y) ((addition rnd x y).1 + (addition rnd x y).2) ∧
      Pair (addition rnd x y).1 (addition rnd x y).2 := by
  have weak : ∀ {v w : ℚ}, Approx (2 ^ (-103 : ℤ)) v w → Approx (3 * 2 ^ (-103 : ℤ)) v w := by
    intro v w h
    unfold Approx at *
    refine h.trans (mul_le_mul_of_nonneg_right ?_ (abs_nonneg _))
    have := zpow2_pos (-103); linarith
  match x, y, hx, hy with
  | .inl x, .inl y, hx, hy =>
    obtain ⟨-, h2, h3⟩ := C123_sum hr hx hy
    refine ⟨?_, h3⟩
    show Approx _ (x + y) ((addD rnd x y).1 + (addD rnd x y).2)
    rw [h2, Approx, sub_self, abs_zero]; positivity
  | .inl x, .inr y, hx, hy =>
    obtain ⟨h1, -, h3⟩ := C123_add hr hx hy
    exact ⟨weak h1, h3⟩
  | .inr x, .inl y, hx, hy =>
    obtain ⟨h1, -, h3⟩ := C123_add hr hy hx
    refine ⟨?_, h3⟩
    show Approx _ ((x.1 + x.2) + y) _
    rw [add_comm]
    exact weak h1
  | .inr x, .inr y, hx, hy => exact C123_addpairs hr hx hy

/-- **C123**, negation and conversion are exact and keep pairs normalised. -/
theorem C123_exact {x xh xl : ℚ} (hx : Double x) (hp : Pair xh xl) :
    (convDD x).1 + (convDD x).2 = x ∧ Pair (convDD x).1 (convDD x).2 ∧
      (negDD (xh, xl)).1 + (negDD (xh, xl)).2 = -(xh + xl) ∧ Pair (negDD (xh, xl)).1 (negDD (xh, xl)).2 := by
  refine ⟨by simp [convDD], ⟨hx, Rep_zero _ _, ?_⟩, by simp only [negDD]; ring, Rep_neg hp.1, Rep_neg hp.2.1, ?_⟩
  · simp only [convDD, abs_zero]; positivity
  · simp only [negDD, abs_neg]; exact hp.2.2

/-- **C123**, the multiply-add with a double-double result, when the product does not underflow: the
relative error is at most `2^-103` and the result is normalised. -/
theorem C123_fmapair_partial {rnd : ℚ → ℚ} (hr : Rounds64 rnd) {x y z : ℚ} (hx : Double x) (hy : Double y)
    (hz : Double z) (hxy : MultipleOf (-1074) (x * y)) :
    Approx (2 ^ (-103 : ℤ)) (x * y + z) ((fmaPair rnd x y z).1 + (fmaPair rnd x y z).2) ∧
      Pair (fmaPair rnd x y z).1 (fmaPair rnd x y z).2 := by
  have h := fma_spec hr hx hy hz hxy
  have e : localAdd221 53 = 2 ^ (-103 : ℤ) := by norm_num [localAdd221]
  rw [e] at h
  exact ⟨h.1, h.2.2.1, h.2.2.2.1, by simpa using h.2.2.2.2⟩

/-- **C123**, the multiply-add with a double result: the relative error is at most `2^-53 + 2^-102`, and the
result is the correctly rounded one when rounding does not change within `2^-103` of the exact value. -/
theorem C123_fma_partial {rnd : ℚ → ℚ} (hr : Rounds64 rnd) {x y z : ℚ} (hx : Double x) (hy : Double y)
    (hz : Double z) (hxy : MultipleOf (-1074) (x * y)) :
    Approx (2 ^ (-53 : ℤ) + 2 ^ (-102 : ℤ)) (x * y + z) (fma rnd x y z) ∧
      ((∀ w, Approx (2 ^ (-103 : ℤ)) (x * y + z) w → rnd w = rnd (x * y + z)) → fma rnd x y z = rnd (x * y + z)) := by
  have h := fma_spec hr hx hy hz hxy
  have e : localAdd221 53 = 2 ^ (-103 : ℤ) := by norm_num [localAdd221]
  rw [e] at h
  obtain ⟨h1, h2, h3⟩ := h
  have hf : fma rnd x y z = (fmaPair rnd x y z).1 := rfl
  refine ⟨?_, fun hw => ?_⟩
  · have hm : MultipleOf (-1074) ((fmaPair rnd x y z).1 + (fmaPair rnd x y z).2) :=
      mult_add (mult_of_rep h3.1) (mult_of_rep h3.2.1)
    have hu := (unit_rel (by norm_num) hr hm).1
    rw [h2, abs_sub_comm] at hu
    rw [hf]
    unfold Approx at *
    generalize (fmaPair rnd x y z).1 + (fmaPair rnd x y z).2 = P at *
    generalize (fmaPair rnd x y z).1 = H at *
    generalize x * y + z = v at *
    have a1 : |P| ≤ |v| + 2 ^ (-103 : ℤ) * |v| := by
      have := abs_sub_abs_le_abs_sub P v; linarith
    have a2 : |H - v| ≤ |H - P| + |P - v| := by
      have := abs_add_le (H - P) (P - v); rwa [sub_add_sub_cancel] at this
    have a3 : |H - P| ≤ 2 ^ (-53 : ℤ) * (|v| + 2 ^ (-103 : ℤ) * |v|) :=
      hu.trans (by push_cast; exact mul_le_mul_of_nonneg_left a1 (zpow2_pos _).le)
    have a4 : (2:ℚ) ^ (-53 : ℤ) * (|v| + 2 ^ (-103 : ℤ) * |v|) + 2 ^ (-103 : ℤ) * |v| ≤
        (2 ^ (-53 : ℤ) + 2 ^ (-102 : ℤ)) * |v| := by
      have hv := abs_nonneg v
      generalize |v| = V at *
      have : (2:ℚ) ^ (-53 : ℤ) * 2 ^ (-103 : ℤ) + 2 ^ (-103 : ℤ) ≤ 2 ^ (-102 : ℤ) := by norm_num
      nlinarith
    linarith
  · rw [hf, ← h2]
    exact hw _ h1

/-- **C123 fails** for the multiply-add with a double result: whatever the rounding to nearest does with
ties, the result differs from the fused multiply-add for some operands of ordinary size (two roundings). -/
theorem C123_fma_wrong {rnd : ℚ → ℚ} (hr : Rounds64 rnd) : ∃ x y z : ℚ, Double x ∧ Double y ∧ Double z ∧
    MultipleOf (-1074) (x * y) ∧ |x| ≤ 2 ∧ |y| ≤ 2 ∧ |z| ≤ 2 ^ 53 ∧ fma rnd x y z ≠ rnd (x * y + z) := by
  -- operands `x y = 1 + s 2^-60` with `s = 1` or `s = -1`, added to `2^53`
  have iso : ∀ {m e : ℤ} {x : ℚ}, 2 ^ 52 ≤ |m| → |m| < 2 ^ 53 → -1074 ≤ e → |x - m * 2 ^ e| < 2 ^ (e - 2) →
      rnd x = m * 2 ^ e := fun h1 h2 h3 h4 => rnd_isolated (by norm_num) hr h1 h2 (WithBot.coe_le_coe.2 h3) h4
  have D1 : Double (2 ^ 53 : ℚ) := ⟨1, 53, by norm_num, WithBot.coe_le_coe.2 (by norm_num), by norm_num⟩
  have D2 : Double (2 ^ 53 + 2 : ℚ) := ⟨2 ^ 52 + 1, 1, by norm_num, WithBot.coe_le_coe.2 (by norm_num), by norm_num⟩
  have hs : rnd (2 ^ 53 + 1) = 2 ^ 53 ∨ rnd (2 ^ 53 + 1) = 2 ^ 53 + 2 := by
    have b1 := (hr (2 ^ 53 + 1)).2 _ D1
    have b2 := (hr (2 ^ 53 + 1)).2 _ D2
    obtain ⟨m, e, hm, -, h⟩ := (hr (2 ^ 53 + 1)).1
    rw [show (2 ^ 53 + 1 - 2 ^ 53 : ℚ) = 1 by norm_num, abs_one] at b1
    obtain ⟨c1, c2⟩ := abs_le.1 b1
    rcases le_or_gt 1 e with he | he
    · obtain ⟨j, hj⟩ := Int.eq_ofNat_of_zero_le (show 0 ≤ e - 1 by omega)
      have h' : rnd (2 ^ 53 + 1) = ((2 * (m * 2 ^ j) : ℤ) : ℚ) := by
        rw [h, show e = 1 + (j:ℤ) by omega, zpow_add₀ (by norm_num), zpow_natCast]; push_cast; ring
      rw [h'] at c1 c2 ⊢
      have d1 : (2 * (m * 2 ^ j) : ℤ) ≤ 2 ^ 53 + 2 := by
        have : ((2 * (m * 2 ^ j) : ℤ) : ℚ) ≤ ((2 ^ 53 + 2 : ℤ) : ℚ) := by push_cast at c1 ⊢; linarith
        exact_mod_cast this
      have d2 : (2 ^ 53 : ℤ) ≤ 2 * (m * 2 ^ j) := by
        have : ((2 ^ 53 : ℤ) : ℚ) ≤ ((2 * (m * 2 ^ j) : ℤ) : ℚ) := by push_cast at c2 ⊢; linarith
        exact_mod_cast this
      generalize m * 2 ^ j = k at *
      have : k = 2 ^ 52 ∨ k = 2 ^ 52 + 1 := by omega
      rcases this with rfl | rfl
      · left; norm_num
      · right; norm_num
    · exfalso
      have a1 : (m:ℚ) * 2 ^ e < 2 ^ 53 := by
        have m1 : |(m:ℚ)| < 2 ^ 53 := by exact_mod_cast hm
        have e1 : (2:ℚ) ^ e ≤ 1 := by
          rw [← zpow_zero (2:ℚ)]; exact zpow_le_zpow_right₀ (by norm_num) (by omega)
        have := (abs_lt.1 m1).2
        have e0 := zpow2_pos e
        rcases le_or_gt (m:ℚ) 0 with h0 | h0
        · have : (m:ℚ) * 2 ^ e ≤ 0 := mul_nonpos_of_nonpos_of_nonneg h0 e0.le
          linarith [show (0:ℚ) < 2 ^ 53 by norm_num]
        · calc (m:ℚ) * 2 ^ e ≤ m * 1 := mul_le_mul_of_nonneg_left e1 h0.le
            _ < 2 ^ 53 := by linarith
      rw [h] at c2; linarith
  -- the computation, for `x y = 1 + d`
  have run : ∀ {x y d : ℚ}, Double x → Double y → x * y = 1 + d → |d| = 2 ^ (-60 : ℤ) → MultipleOf (-1074) (x * y) →
      fma rnd x y (2 ^ 53) = rnd (2 ^ 53 + 1) := by
    intro x y d hx hy hxy hd hm
    have M := mult_spec (s := 27) (by norm_num) (by norm_num) (by norm_num) hr hx hy hm
    rw [← multD_eq] at M
    obtain ⟨m1, m2, m3⟩ := M
    have r1 : rnd (x * y) = 1 := by
      have := iso (m := 2 ^ 52) (e := -52) (x := x * y) (by norm_num) (by norm_num) (by norm_num) (by
        rw [hxy, show (1 + d - ((2 ^ 52 : ℤ) : ℚ) * 2 ^ (-52 : ℤ) : ℚ) = d by norm_num, hd]; norm_num)
      rw [this]; norm_num
    rw [r1] at m1
    have m4 : (multD rnd x y).2 = d := by rw [m1, hxy] at m3; linarith
    have hM : multD rnd x y = (1, d) := Prod.ext m1 m4
    have hone : Double (1 : ℚ) := ⟨1, 0, by norm_num, WithBot.coe_le_coe.2 (by norm_num), by norm_num⟩
    obtain ⟨s1, s2, -⟩ := C123_sum hr D1 hone
    have t3 : rnd ((addD rnd (2 ^ 53) 1).2 + d) = (addD rnd (2 ^ 53) 1).2 := by
      rcases hs with h | h
      · have : (addD rnd (2 ^ 53) 1).2 = 1 := by rw [s1, h] at s2; linarith
        rw [this]
        have := iso (m := 2 ^ 52) (e := -52) (x := 1 + d) (by norm_num) (by norm_num) (by norm_num) (by
          rw [show (1 + d - ((2 ^ 52 : ℤ) : ℚ) * 2 ^ (-52 : ℤ) : ℚ) = d by norm_num, hd]; norm_num)
        rw [this]; norm_num
      · have : (addD rnd (2 ^ 53) 1).2 = -1 := by rw [s1, h] at s2; linarith
        rw [this]
        have := iso (m := -2 ^ 52) (e := -52) (x := -1 + d) (by norm_num) (by norm_num) (by norm_num) (by
          rw [show (-1 + d - ((-2 ^ 52 : ℤ) : ℚ) * 2 ^ (-52 : ℤ) : ℚ) = d by norm_num, hd]; norm_num)
        rw [this]; norm_num
    have : fma rnd x y (2 ^ 53) = (addD rnd (addD rnd (2 ^ 53) 1).1 (rnd ((addD rnd (2 ^ 53) 1).2 + d))).1 := by
      simp only [fma, hM, addDDD]
    rw [this, t3]
    show rnd _ = _
    rw [s2]
  rcases hs with h | h
  · -- ties go down here: push the exact value up
    have hx : Double (((2 ^ 20 + 1 : ℤ) : ℚ) * 2 ^ (-20 : ℤ)) :=
      ⟨_, -20, by norm_num, WithBot.coe_le_coe.2 (by norm_num), rfl⟩
    have hy : Double (((2 ^ 40 - 2 ^ 20 + 1 : ℤ) : ℚ) * 2 ^ (-40 : ℤ)) :=
      ⟨_, -40, by norm_num, WithBot.coe_le_coe.2 (by norm_num), rfl⟩
    have hxy : ((2 ^ 20 + 1 : ℤ) : ℚ) * 2 ^ (-20 : ℤ) * (((2 ^ 40 - 2 ^ 20 + 1 : ℤ) : ℚ) * 2 ^ (-40 : ℤ)) =
      1 + 2 ^ (-60 : ℤ) := by norm_num
    have hm := mult_mono (show (-1074 : ℤ) ≤ -20 + -40 by norm_num)
      (mult_mul ⟨2 ^ 20 + 1, rfl⟩ ⟨2 ^ 40 - 2 ^ 20 + 1, rfl⟩ :
        MultipleOf (-20 + -40) (((2 ^ 20 + 1 : ℤ) : ℚ) * 2 ^ (-20 : ℤ) * (((2 ^ 40 - 2 ^ 20 + 1 : ℤ) : ℚ) * 2 ^ (-40 : ℤ))))
    refine ⟨_, _, 2 ^ 53, hx, hy, D1, hm, by norm_num [abs_of_pos], by norm_num [abs_of_pos], by norm_num, ?_⟩
    rw [run hx hy hxy (abs_of_pos (zpow2_pos _)) hm, h, hxy]
    intro hc
    have b := (hr (1 + 2 ^ (-60 : ℤ) + 2 ^ 53)).2 _ D2
    rw [← hc] at b
    norm_num [abs_of_pos, abs_of_neg] at b
  · have hx : Double (((2 ^ 30 - 1 : ℤ) : ℚ) * 2 ^ (-30 : ℤ)) :=
      ⟨_, -30, by norm_num, WithBot.coe_le_coe.2 (by norm_num), rfl⟩
    have hy : Double (((2 ^ 30 + 1 : ℤ) : ℚ) * 2 ^ (-30 : ℤ)) :=
      ⟨_, -30, by norm_num, WithBot.coe_le_coe.2 (by norm_num), rfl⟩
    have hxy : ((2 ^ 30 - 1 : ℤ) : ℚ) * 2 ^ (-30 : ℤ) * (((2 ^ 30 + 1 : ℤ) : ℚ) * 2 ^ (-30 : ℤ)) =
      1 + -2 ^ (-60 : ℤ) := by norm_num
    have hm := mult_mono (show (-1074 : ℤ) ≤ -30 + -30 by norm_num)
      (mult_mul ⟨2 ^ 30 - 1, rfl⟩ ⟨2 ^ 30 + 1, rfl⟩ :
        MultipleOf (-30 + -30) (((2 ^ 30 - 1 : ℤ) : ℚ) * 2 ^ (-30 : ℤ) * (((2 ^ 30 + 1 : ℤ) : ℚ) * 2 ^ (-30 : ℤ))))
    refine ⟨_, _, 2 ^ 53, hx, hy, D1, hm, by norm_num [abs_of_pos], by norm_num [abs_of_pos], by norm_num, ?_⟩
    rw [run hx hy hxy (by rw [abs_neg]; exact abs_of_pos (zpow2_pos _)) hm, h, hxy]
    intro hc
    have b := (hr (1 + -2 ^ (-60 : ℤ) + 2 ^ 53)).2 _ D1
    rw [← hc] at b
    norm_num [abs_of_pos, abs_of_neg] at b

/-! ## overflow -/

theorem rnd_le {rnd : ℚ → ℚ} (hr : Rounds64 rnd) {k : ℤ} (hk : -1074 ≤ k) {x : ℚ} (hx : |x| ≤ 2 ^ k) :
    |rnd x| ≤ 2 ^ k := by
  have hR : Double ((2:ℚ) ^ k) := ⟨1, k, by norm_num, WithBot.coe_le_coe.2 hk, by norm_num⟩
  obtain ⟨h1, h2⟩ := abs_le.1 hx
  have a := nearest_mono hr h1
  have b := nearest_mono hr h2
  rw [rnd_exact hr (Rep_neg hR)] at a
  rw [rnd_exact hr hR] at b
  exact abs_le.2 ⟨a, b⟩

theorem op_some {rnd : ℚ → ℚ} (hr : Rounds64 rnd) {k : ℤ} (hk : -1074 ≤ k) (hk2 : k < 1024) {x : ℚ}
    (hx : |x| ≤ 2 ^ k) : op rnd x = some (rnd x) := by
  refine if_pos (lt_of_le_of_lt (rnd_le hr hk hx) ?_)
  rw [← zpow_natCast]
  exact zpow_lt_zpow_right₀ (by norm_num) hk2

theorem add_le_pow {k : ℤ} {x y : ℚ} (hx : |x| ≤ 2 ^ k) (hy : |y| ≤ 2 ^ k) : |x + y| ≤ 2 ^ (k + 1) := by
  rw [zpow_add₀ (by norm_num), zpow_one]
  linarith [abs_add_le x y]

theorem le_pow {k j : ℤ} (h : k ≤ j) {x : ℚ} (hx : |x| ≤ 2 ^ k) : |x| ≤ 2 ^ j :=
  hx.trans (zpow_le_zpow_right₀ (by norm_num) h)

theorem splitO_gen {rnd : ℚ → ℚ} (hr : Rounds64 rnd) {x : ℚ} {k : ℤ} (hk : -1074 ≤ k) (hk2 : k ≤ 992)
    (hx : |x| ≤ 2 ^ k) : splitO rnd x = some (splitD rnd x) ∧ |(splitD rnd x).1| ≤ 2 ^ (k + 30) ∧
      |(splitD rnd x).2| ≤ 2 ^ (k + 31) := by
  have h1 : |splitConst * x| ≤ 2 ^ (k + 28) := by
    rw [abs_mul, splitConst_eq, abs_of_pos (by norm_num)]
    calc _ ≤ (2 ^ (28 : ℤ) : ℚ) * 2 ^ k :=
        mul_le_mul (by norm_num) hx (abs_nonneg _) (zpow2_pos _).le
      _ = 2 ^ (k + 28) := by rw [← zpow_add₀ (by norm_num)]; congr 1; ring
  have R : ∀ {j : ℤ} {v : ℚ}, k ≤ j → |v| ≤ 2 ^ j → |rnd v| ≤ 2 ^ j := fun hj hv => rnd_le hr (by omega) hv
  have S : ∀ {j : ℤ} {v : ℚ}, k ≤ j → j < 1024 → |v| ≤ 2 ^ j → op rnd v = some (rnd v) :=
    fun hj hj2 hv => op_some hr (by omega) hj2 hv
  have g1 := R (by omega) h1
  have h2 : |x - rnd (splitConst * x)| ≤ 2 ^ (k + 28 + 1) := by
    rw [sub_eq_add_neg]; exact add_le_pow (le_pow (by omega) hx) (by rwa [abs_neg])
  have g2 := R (by omega) h2
  have h3 := add_le_pow (le_pow (show k + 28 ≤ k + 28 + 1 by omega) g1) g2
  have g3 := R (by omega) h3
  have h4 : |x - rnd (rnd (splitConst * x) + rnd (x - rnd (splitConst * x)))| ≤ 2 ^ (k + 28 + 1 + 1 + 1) := by
    rw [sub_eq_add_neg]; exact add_le_pow (le_pow (by omega) hx) (by rwa [abs_neg])
  have g4 := R (by omega) h4
  refine ⟨?_, le_pow (by omega) g3, le_pow (by omega) g4⟩
  simp only [splitO, S (by omega) (by omega) h1, S (by omega) (by omega) h2, S (by omega) (by omega) h3,
    S (by omega) (by omega) h4, Option.bind_some, splitD]

/-- **C123**, splitting does not overflow up to `2^992`: all four operations have finite results, and the
pair is the one of `C123_split`. -/
theorem C123_split_finite_partial {rnd : ℚ → ℚ} (hr : Rounds64 rnd) {x : ℚ} (hx : |x| ≤ 2 ^ (992 : ℤ)) :
    splitO rnd x = some (splitD rnd x) :=
  (splitO_gen hr (by norm_num) le_rfl hx).1

/-- **C123**, the product does not overflow when the operands leave some room: the pair is the one of
`C123_product_partial`. -/
theorem C123_product_finite_partial {rnd : ℚ → ℚ} (hr : Rounds64 rnd) {x y : ℚ} {a : ℤ} (h0 : 0 ≤ a) (h1 : a ≤ 950)
    (hx : |x| ≤ 2 ^ a) (hy : |y| ≤ 2 ^ (950 - a)) : multO rnd x y = some (multD rnd x y) := by
  obtain ⟨s1, s2, s3⟩ := splitO_gen hr (by omega) (by omega) hx
  obtain ⟨u1, u2, u3⟩ := splitO_gen hr (by omega) (by omega) hy
  have R : ∀ {j : ℤ} {v : ℚ}, 0 ≤ j → |v| ≤ 2 ^ j → |rnd v| ≤ 2 ^ j := fun hj hv => rnd_le hr (by omega) hv
  have S : ∀ {j : ℤ} {v : ℚ}, 0 ≤ j → j < 1024 → |v| ≤ 2 ^ j → op rnd v = some (rnd v) :=
    fun hj hj2 hv => op_some hr (by omega) hj2 hv
  have P : ∀ {b c : ℤ} {v w : ℚ}, |v| ≤ 2 ^ b → |w| ≤ 2 ^ c → b + c ≤ 1012 → |v * w| ≤ 2 ^ (1012 : ℤ) := by
    intro b c v w hv hw hbc
    rw [abs_mul]
    refine (mul_le_mul hv hw (abs_nonneg _) (zpow2_pos _).le).trans ?_
    rw [← zpow_add₀ (by norm_num)]
    exact zpow_le_zpow_right₀ (by norm_num) hbc
  have p0 := P hx hy (by omega)
  have p1 := P s2 u2 (by omega)
  have p2 := P s2 u3 (by omega)
  have p3 := P s3 u2 (by omega)
  have p4 := P s3 u3 (by omega)
  have t1 := add_le_pow (by rw [abs_neg]; exact R (by norm_num) p0 : |-rnd (x * y)| ≤ _) (R (by norm_num) p1)
  have t2 := add_le_pow (R (by norm_num) t1) (le_pow (by norm_num) (R (by norm_num) p2))
  have t3 := add_le_pow (R (by norm_num) t2) (le_pow (by norm_num) (R (by norm_num) p3))
  have t4 := add_le_pow (R (by norm_num) t3) (le_pow (by norm_num) (R (by norm_num) p4))
  simp only [multO, s1, u1, Option.bind_some, S (by norm_num) (by norm_num) p0, S (by norm_num) (by norm_num) p1,
    S (by norm_num) (by norm_num) p2, S (by norm_num) (by norm_num) p3, S (by norm_num) (by norm_num) p4,
    S (by norm_num) (by norm_num) t1, S (by norm_num) (by norm_num) t2, S (by norm_num) (by norm_num) t3,
    S (by norm_num) (by norm_num) t4]
  rfl

/-- **C123 fails** for large doubles, in `ml_split_dd_d_safe` as in `ml_split_dd_d`: `2^997` is finite and so is
its product by one, but splitting it overflows, and the product pair is not finite. -/
theorem C123_overflow_wrong {rnd : ℚ → ℚ} (hr : Rounds64 rnd) : ∃ x : ℚ, Double x ∧ Finite64 x ∧ Finite64 (x * 1) ∧
    splitO rnd x = none ∧ multO rnd x 1 = none := by
  have hs : splitO rnd (2 ^ 997) = none := by
    have hbig : ¬ Finite64 (rnd (splitConst * 2 ^ 997)) := by
      intro h
      have hR : Double ((2:ℚ) ^ 1024) := ⟨1, ((1024 : ℕ) : ℤ), by norm_num, WithBot.coe_le_coe.2 (by norm_num),
        by rw [zpow_natCast, Int.cast_one, one_mul]⟩
      have h1 : (2:ℚ) ^ 1024 ≤ splitConst * 2 ^ 997 := by
        rw [splitConst_eq, show (1024 : ℕ) = 27 + 997 by norm_num, pow_add]
        exact mul_le_mul_of_nonneg_right (by norm_num) (by positivity)
      have h2 := nearest_mono hr h1
      rw [rnd_exact hr hR] at h2
      have h3 := (le_abs_self _).trans_lt h
      exact absurd (h2.trans_lt h3) (lt_irrefl _)
    simp only [splitO, op, if_neg hbig, Option.bind_none]
  have hf : Finite64 (2 ^ 997 : ℚ) := by
    unfold Finite64
    rw [abs_of_pos (by positivity)]
    exact pow_lt_pow_right₀ (by norm_num) (by norm_num)
  refine ⟨2 ^ 997, ⟨1, ((997 : ℕ) : ℤ), by norm_num, WithBot.coe_le_coe.2 (by norm_num),
        by rw [zpow_natCast, Int.cast_one, one_mul]⟩, hf,
    by rwa [mul_one], hs, ?_⟩
  simp only [multO, hs, Option.bind_none]

end Verif.Mprec
