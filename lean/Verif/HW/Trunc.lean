import Verif.Legal.Lemmas
import Mathlib.Data.Rat.Floor
import Mathlib.Tactic.Ring
import Mathlib.Tactic.Linarith
import Mathlib.Tactic.FieldSimp
import Mathlib.Tactic.Positivity

/-!
# C40, C41: truncation block (fp_int_conv.py:86-146) and floating-point predicates (rtl_blocks.py:82-187)
-/

namespace Verif.HW.Trunc

open Verif.Float Verif.Legal

/-! ## Specification -/

/-- Rounding toward zero. -/
def truncZ (q : ℚ) : ℤ := if 0 ≤ q then ⌊q⌋ else ⌈q⌉

/-! ## Predicates -/

/-- `RawExponentExtraction` (the exponent field as a vector) and the mantissa slice of rtl_blocks.py:158-162. -/
def rawExp {F : Fmt} (x : BitVec (width F)) : BitVec F.e := x.extractLsb' F.f F.e
def mantSlice {F : Fmt} (x : BitVec (width F)) : BitVec F.f := x.extractLsb' 0 F.f
/-- `ExtractSign`. -/
def sgn {F : Fmt} (x : BitVec (width F)) : Bool := x.getLsbD (F.e + F.f)

/-- `fp_is_infornan` (rtl_blocks.py:85-93). -/
def isInfOrNan {F : Fmt} (x : BitVec (width F)) : Bool := rawExp x == BitVec.ofNat F.e (2 ^ F.e - 1)
/-- `fp_is_subnormal` (98-106). -/
def isSubnormal {F : Fmt} (x : BitVec (width F)) : Bool := rawExp x == 0#F.e
/-- `fp_mant_is_zero` (154-167). -/
def mantIsZero {F : Fmt} (x : BitVec (width F)) : Bool := mantSlice x == 0#F.f
/-- `fp_is_zero` (111-116). -/
def isZero {F : Fmt} (x : BitVec (width F)) : Bool := isSubnormal x && mantIsZero x
/-- `fp_is_inf` (172-177), `fp_is_nan` (182-187). -/
def isInf {F : Fmt} (x : BitVec (width F)) : Bool := mantIsZero x && isInfOrNan x
def isNan {F : Fmt} (x : BitVec (width F)) : Bool := !mantIsZero x && isInfOrNan x
/-- `fp_is_pos_inf` (121-132), `fp_is_neg_inf` (137-148). -/
def isPosInf {F : Fmt} (x : BitVec (width F)) : Bool := isInf x && (sgn x == false)
def isNegInf {F : Fmt} (x : BitVec (width F)) : Bool := isInf x && (sgn x == true)

theorem rawExp_toNat {F : Fmt} (x : BitVec (width F)) : (rawExp x).toNat = expField F x.toNat := by
  unfold rawExp expField
  rw [BitVec.extractLsb'_toNat, Nat.shiftRight_eq_div_pow]

theorem mantSlice_toNat {F : Fmt} (x : BitVec (width F)) : (mantSlice x).toNat = trailField F x.toNat := by
  unfold mantSlice trailField
  rw [BitVec.extractLsb'_toNat, Nat.shiftRight_zero]

theorem sgn_eq {F : Fmt} (x : BitVec (width F)) : sgn x = decide (signField F x.toNat = 1) := by
  unfold sgn signField
  rw [BitVec.getLsbD, Nat.testBit_eq_decide_div_mod_eq]

theorem isInfOrNan_iff {F : Fmt} (x : BitVec (width F)) : isInfOrNan x = true ↔ expField F x.toNat = 2 ^ F.e - 1 := by
  unfold isInfOrNan
  rw [beq_iff_eq, ← BitVec.toNat_inj, rawExp_toNat, BitVec.toNat_ofNat, Nat.mod_eq_of_lt (Nat.sub_lt (Nat.two_pow_pos _) (by decide))]

theorem isSubnormal_iff {F : Fmt} (x : BitVec (width F)) : isSubnormal x = true ↔ expField F x.toNat = 0 := by
  unfold isSubnormal
  rw [beq_iff_eq, ← BitVec.toNat_inj, rawExp_toNat, BitVec.toNat_ofNat, Nat.zero_mod]

theorem mantIsZero_iff {F : Fmt} (x : BitVec (width F)) : mantIsZero x = true ↔ trailField F x.toNat = 0 := by
  unfold mantIsZero
  rw [beq_iff_eq, ← BitVec.toNat_inj, mantSlice_toNat, BitVec.toNat_ofNat, Nat.zero_mod]

/-- **C41.**  Every predicate decides its class, for every format (with an exponent field) and every pattern.
`fp_is_subnormal` is documented to hold of zeros as well. -/
theorem C41_predicates (F : Fmt) (he : 1 ≤ F.e) (x : BitVec (width F)) :
    (isInf x = true ↔ cls F x.toNat = .inf) ∧
    (isNan x = true ↔ cls F x.toNat = .qNaN ∨ cls F x.toNat = .sNaN) ∧
    (isInfOrNan x = true ↔ cls F x.toNat = .inf ∨ cls F x.toNat = .qNaN ∨ cls F x.toNat = .sNaN) ∧
    (isZero x = true ↔ cls F x.toNat = .zero) ∧
    (isSubnormal x = true ↔ cls F x.toNat = .zero ∨ cls F x.toNat = .subnormal) ∧
    (isPosInf x = true ↔ cls F x.toNat = .inf ∧ signField F x.toNat = 0) ∧
    (isNegInf x = true ↔ cls F x.toNat = .inf ∧ signField F x.toNat = 1) := by
  have hs : signField F x.toNat = 0 ∨ signField F x.toNat = 1 := by unfold signField; omega
  have hp : 2 ^ F.e - 1 ≠ 0 := by
    have : 2 ^ 1 ≤ 2 ^ F.e := Nat.pow_le_pow_right (by decide) he
    omega
  simp only [isInf, isNan, isZero, isPosInf, isNegInf, Bool.and_eq_true, Bool.not_eq_true', ← Bool.not_eq_true, isInfOrNan_iff, isSubnormal_iff,
    mantIsZero_iff, sgn_eq, beq_iff_eq, decide_eq_true_iff]
  unfold cls
  generalize expField F x.toNat = E at *
  generalize trailField F x.toNat = T at *
  generalize signField F x.toNat = S at *
  have hS : (decide (S = 1) = false) ↔ S = 0 := by
    rcases hs with rfl | rfl <;> simp
  by_cases h1 : E = 2 ^ F.e - 1
  · have h0 : E ≠ 0 := by omega
    by_cases h2 : T = 0
    · simp [h1, h2, h0, hp]
      rcases hs with rfl | rfl <;> simp
    · by_cases h3 : 2 ^ (F.f - 1) ≤ T <;> simp [h1, h2, hp, h3]
  · by_cases h0 : E = 0
    · by_cases h2 : T = 0 <;> simp [h1, h2, h0, hp.symm]
    · simp [h1, h0]

example : isNan (F := ⟨8, 23⟩) 0x7f800001#32 = true ∧ isZero (F := ⟨8, 23⟩) 0x80000000#32 = true ∧
    isNegInf (F := ⟨8, 23⟩) 0xff800000#32 = true := by decide +kernel

/-! ## Truncation -/

/-- `generate_scheme` (fp_int_conv.py:86-146).  `get_bias()` is minus the largest exponent.  Exponent arithmetic is exact
(the `size_datapath` pass gives it the width it needs). -/
def fpTrunc {F : Fmt} (x : BitVec (width F)) : BitVec (width F) :=
  let p := F.f
  let e : ℤ := ((rawExp x).toNat : ℤ) - F.emax
  let shift := (max ((p : ℤ) - e) 0).toNat
  let mask := BitVec.ofNat (width F) (2 ^ width F - 1) <<< shift
  let normed := x &&& mask
  if e > p then x else if e < 0 then 0#(width F) else normed

theorem mask_toNat {w s : ℕ} (x : BitVec w) (hs : s ≤ w) : (x &&& (BitVec.ofNat w (2 ^ w - 1) <<< s)).toNat = x.toNat / 2 ^ s * 2 ^ s := by
  have h : (x &&& (BitVec.ofNat w (2 ^ w - 1) <<< s)) = (x >>> s) <<< s := by
    apply BitVec.eq_of_getLsbD_eq
    intro i hi
    simp only [BitVec.getLsbD_and, BitVec.getLsbD_shiftLeft, BitVec.getLsbD_ushiftRight, BitVec.getLsbD_ofNat, Nat.testBit_two_pow_sub_one]
    by_cases h : i < s
    · simp [h]
    · have h1 : i - s < w := by omega
      have h2 : s + (i - s) = i := by omega
      simp [h, hi, h1, h2]
  rw [h, BitVec.toNat_shiftLeft, BitVec.toNat_ushiftRight, Nat.shiftLeft_eq, Nat.shiftRight_eq_div_pow, Nat.mod_eq_of_lt]
  exact lt_of_le_of_lt (Nat.div_mul_le_self _ _) x.isLt

/-- Clearing low trailing bits changes the trailing field only. -/
theorem clear_fields (F : Fmt) (c s : ℕ) (hs : s ≤ F.f) :
    signField F (c / 2 ^ s * 2 ^ s) = signField F c ∧ expField F (c / 2 ^ s * 2 ^ s) = expField F c ∧
    trailField F (c / 2 ^ s * 2 ^ s) = trailField F c / 2 ^ s * 2 ^ s := by
  have hdiv : ∀ k, s ≤ k → c / 2 ^ s * 2 ^ s / 2 ^ k = c / 2 ^ k := by
    intro k hk
    obtain ⟨j, rfl⟩ := Nat.exists_eq_add_of_le hk
    rw [pow_add, ← Nat.div_div_eq_div_mul, Nat.mul_div_cancel _ (Nat.two_pow_pos _), ← Nat.div_div_eq_div_mul]
  refine ⟨?_, ?_, ?_⟩
  · unfold signField; rw [hdiv _ (by omega)]
  · unfold expField; rw [hdiv _ hs]
  · unfold trailField
    obtain ⟨j, hj⟩ := Nat.exists_eq_add_of_le hs
    rw [hj, pow_add, mul_comm (c / 2 ^ s), Nat.mul_mod_mul_left, Nat.mod_mul_right_div_self, mul_comm]

theorem truncZ_nat (s n d : ℕ) (hd : 0 < d) (hs : s = 0 ∨ s = 1) :
    truncZ ((-1 : ℚ) ^ s * ((n : ℚ) / d)) = (-1 : ℤ) ^ s * ((n / d : ℕ) : ℤ) := by
  have hq : (0 : ℚ) ≤ (n : ℚ) / d := by positivity
  have hfl : ⌊(n : ℚ) / d⌋ = ((n / d : ℕ) : ℤ) := by
    rw [Rat.floor_natCast_div_natCast]
    push_cast
    rfl
  unfold truncZ
  rcases hs with rfl | rfl
  · rw [pow_zero, one_mul, if_pos hq, hfl]; simp
  · rw [pow_one, pow_one]
    by_cases h0 : (n : ℚ) / d = 0
    · rw [h0] at hfl ⊢
      simp at hfl ⊢
      have : n / d = 0 := by exact_mod_cast hfl.symm
      exact_mod_cast this
    · rw [if_neg (by have : (0 : ℚ) < (n : ℚ) / d := lt_of_le_of_ne hq (Ne.symm h0); linarith), neg_one_mul, Int.ceil_neg, hfl, neg_one_mul]

/-- **C40.**  For every format with at least two exponent bits and every finite pattern, the result is a finite pattern
whose value is the input's value rounded toward zero. -/
theorem C40_trunc (F : Fmt) (he : 2 ≤ F.e) (x : BitVec (width F)) (hx : expField F x.toNat ≠ 2 ^ F.e - 1) :
    value F (fpTrunc x).toNat = truncZ (value F x.toNat) ∧ expField F (fpTrunc x).toNat ≠ 2 ^ F.e - 1 := by
  have hemax : (1 : ℤ) ≤ F.emax := by
    unfold Fmt.emax
    have : (2 : ℤ) ^ 1 ≤ 2 ^ (F.e - 1) := by
      have : 2 ^ 1 ≤ 2 ^ (F.e - 1) := Nat.pow_le_pow_right (by decide) (by omega)
      exact_mod_cast this
    linarith
  have hs : signField F x.toNat = 0 ∨ signField F x.toNat = 1 := by unfold signField; omega
  have hT : trailField F x.toNat < 2 ^ F.f := Nat.mod_lt _ (Nat.two_pow_pos _)
  have hfp : (0 : ℚ) < 2 ^ F.f := by positivity
  unfold fpTrunc
  dsimp only
  rw [rawExp_toNat]
  by_cases hbig : ((expField F x.toNat : ℕ) : ℤ) - F.emax > F.f
  · rw [if_pos hbig]
    refine ⟨?_, hx⟩
    -- the value is an integer
    have hE : expField F x.toNat ≠ 0 := by rintro h; rw [h] at hbig; push_cast at hbig; omega
    obtain ⟨k, hk⟩ : ∃ k : ℕ, ((expField F x.toNat : ℕ) : ℤ) - F.emax = k + F.f := ⟨((expField F x.toNat : ℤ) - F.emax - F.f).toNat, by omega⟩
    have hval : value F x.toNat = (-1 : ℚ) ^ signField F x.toNat * (((2 ^ k * (2 ^ F.f + trailField F x.toNat) : ℕ) : ℚ) / (1 : ℕ)) := by
      unfold value
      rw [if_neg hE, Nat.max_eq_left (by omega : 1 ≤ expField F x.toNat), hk, zpow_add₀ (by norm_num), zpow_natCast, zpow_natCast]
      push_cast
      field_simp
    rw [hval, truncZ_nat _ _ _ (by decide) hs, Nat.div_one]
    push_cast
    simp
  · rw [if_neg hbig]
    by_cases hneg : ((expField F x.toNat : ℕ) : ℤ) - F.emax < 0
    · rw [if_pos hneg]
      have h0 : (0#(width F)).toNat = 0 := by simp
      rw [h0]
      have hz : expField F 0 = 0 := by simp [expField]
      have hp : 2 ^ F.e - 1 ≠ 0 := by
        have : 2 ^ 1 ≤ 2 ^ F.e := Nat.pow_le_pow_right (by decide) (by omega)
        omega
      refine ⟨?_, by rw [hz]; omega⟩
      have hv0 : value F 0 = 0 := by simp [value, expField, trailField]
      rw [hv0]
      -- the magnitude is below one
      obtain ⟨k, hk⟩ : ∃ k : ℕ, F.emax - ((max (expField F x.toNat) 1 : ℕ) : ℤ) = k := ⟨(F.emax - ((max (expField F x.toNat) 1 : ℕ) : ℤ)).toNat, by omega⟩
      have hz2 : (2 : ℚ) ^ (((max (expField F x.toNat) 1 : ℕ) : ℤ) - F.emax) = 1 / 2 ^ k := by
        rw [show ((max (expField F x.toNat) 1 : ℕ) : ℤ) - F.emax = -(k : ℤ) from by omega, zpow_neg, zpow_natCast, one_div]
      have hval : value F x.toNat = (-1 : ℚ) ^ signField F x.toNat *
          ((((if expField F x.toNat = 0 then 0 else 2 ^ F.f) + trailField F x.toNat : ℕ) : ℚ) / ((2 ^ k * 2 ^ F.f : ℕ) : ℚ)) := by
        unfold value
        rw [hz2]
        push_cast
        split <;> field_simp
        ring
      rw [hval, truncZ_nat _ _ _ (by positivity) hs, Nat.div_eq_of_lt]
      · simp
      · split
        · have : 1 * 2 ^ F.f ≤ 2 ^ k * 2 ^ F.f := Nat.mul_le_mul_right _ (Nat.two_pow_pos _)
          omega
        · have hk1 : 1 ≤ k := by omega
          have : 2 ^ 1 * 2 ^ F.f ≤ 2 ^ k * 2 ^ F.f := Nat.mul_le_mul_right _ (Nat.pow_le_pow_right (by decide) hk1)
          omega
    · rw [if_neg hneg]
      obtain ⟨k, hk⟩ : ∃ k : ℕ, ((expField F x.toNat : ℕ) : ℤ) - F.emax = k := ⟨((expField F x.toNat : ℤ) - F.emax).toNat, by omega⟩
      have hE : expField F x.toNat ≠ 0 := by rintro h; rw [h] at hk; push_cast at hk; omega
      have hkf : k ≤ F.f := by omega
      obtain ⟨s, hsf⟩ := Nat.exists_eq_add_of_le hkf
      have hshift : (max ((F.f : ℤ) - (((expField F x.toNat : ℕ) : ℤ) - F.emax)) 0).toNat = s := by omega
      rw [hshift, mask_toNat x (by simp only [width]; omega)]
      obtain ⟨c1, c2, c3⟩ := clear_fields F x.toNat s (by omega)
      refine ⟨?_, by rw [c2]; exact hx⟩
      have hval : ∀ c : ℕ, expField F c = expField F x.toNat →
          value F c = (-1 : ℚ) ^ signField F c * (((2 ^ F.f + trailField F c : ℕ) : ℚ) / ((2 ^ s : ℕ) : ℚ)) := by
        intro c hc
        unfold value
        rw [hc, if_neg hE, Nat.max_eq_left (by omega : 1 ≤ expField F x.toNat), hk, zpow_natCast]
        push_cast
        rw [hsf, pow_add]
        field_simp
      have hn : (2 ^ F.f + trailField F x.toNat) / 2 ^ s = 2 ^ k + trailField F x.toNat / 2 ^ s := by
        rw [hsf, pow_add, mul_comm (2 ^ k), Nat.mul_add_div (Nat.two_pow_pos _)]
      rw [hval _ c2, hval _ rfl, truncZ_nat _ _ _ (Nat.two_pow_pos _) hs, c1, c3, hn]
      generalize trailField F x.toNat / 2 ^ s = t
      push_cast
      congr 1
      rw [hsf, pow_add]
      field_simp

example : fpTrunc (F := ⟨8, 23⟩) 0x40490fdb#32 = 0x40400000#32 := by decide +kernel

/-- Infinities and NaNs are returned unchanged in every format whose exponent range exceeds its precision (all the IEEE
formats). -/
theorem C40_special (F : Fmt) (hF : (F.f : ℤ) < 2 ^ (F.e - 1)) (he : 1 ≤ F.e) (x : BitVec (width F)) (hx : expField F x.toNat = 2 ^ F.e - 1) :
    fpTrunc x = x := by
  unfold fpTrunc
  dsimp only
  rw [rawExp_toNat, hx, if_pos]
  obtain ⟨e, hE⟩ := Nat.exists_eq_add_of_le' he
  unfold Fmt.emax
  rw [hE, Nat.add_sub_cancel] at hF ⊢
  have := Nat.two_pow_pos e
  push_cast [Nat.one_le_two_pow]
  rw [pow_succ]
  linarith

example : ((⟨8, 23⟩ : Fmt).f : ℤ) < 2 ^ ((⟨8, 23⟩ : Fmt).e - 1) ∧ expField ⟨8, 23⟩ (0x7fc00000#32).toNat = 2 ^ (⟨8, 23⟩ : Fmt).e - 1 := by
  decide +kernel

/-- The sign of a zero result is lost: minus zero and every negative number above minus one become plus zero. -/
theorem C40_sign_lost : fpTrunc (F := ⟨8, 23⟩) 0x80000000#32 = 0#32 ∧ fpTrunc (F := ⟨8, 23⟩) 0xbf000000#32 = 0#32 := by
  decide +kernel

end Verif.HW.Trunc
