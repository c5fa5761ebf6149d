import Verif.Legal.Lemmas

/-!
# C30 and C31 and C32
-/

namespace Verif.Legal

open Verif.Float (Fmt Val bias nanOrInfField)

/-! ## C30 -/

theorem expIsMax_iff (F : Fmt) (he : 1 ≤ F.e) (x : BitVec (width F)) :
    (rawExpExtraction F x == BitVec.ofNat _ (nanOrInfField F)) = true ↔ expField F x.toNat = 2 ^ F.e - 1 := by
  rw [beq_iff_eq, ← BitVec.toNat_inj, rawExp_toNat F he, BitVec.toNat_ofNat, Nat.mod_eq_of_lt]
  · rfl
  · unfold nanOrInfField
    have := pow_e_le F
    have := Nat.two_pow_pos F.e
    omega

theorem mant_zero_iff (F : Fmt) (hf : 1 ≤ F.f) (x : BitVec (width F)) :
    (rawMantissaExtraction F x == 0) = true ↔ trailField F x.toNat = 0 := by
  rw [beq_iff_eq, ← BitVec.toNat_inj, rawMant_toNat F hf]; simp

theorem mant_ne_iff (F : Fmt) (hf : 1 ≤ F.f) (x : BitVec (width F)) :
    (rawMantissaExtraction F x != 0) = true ↔ trailField F x.toNat ≠ 0 := by
  rw [bne_iff_ne, ne_eq, ← BitVec.toNat_inj, rawMant_toNat F hf]; simp

theorem quiet_zero_iff (F : Fmt) (hf : 1 ≤ F.f) (x : BitVec (width F)) :
    (fieldExtraction x (F.f - 1) (F.f - 1) == 0) = true ↔ trailField F x.toNat < 2 ^ (F.f - 1) := by
  rw [beq_iff_eq, ← BitVec.toNat_inj, quiet_toNat F hf]
  simp [Nat.div_eq_zero_iff]

theorem quiet_one_iff (F : Fmt) (hf : 1 ≤ F.f) (x : BitVec (width F)) :
    (fieldExtraction x (F.f - 1) (F.f - 1) == 1) = true ↔ 2 ^ (F.f - 1) ≤ trailField F x.toNat := by
  rw [beq_iff_eq, ← BitVec.toNat_inj, quiet_toNat F hf]
  have h1 : (1 : BitVec (width F)).toNat = 1 := by
    show (BitVec.ofNat _ 1).toNat = 1
    rw [BitVec.toNat_ofNat]
    apply Nat.mod_eq_of_lt
    exact Nat.one_lt_two_pow (by unfold width; omega)
  rw [h1]
  have hp : 0 < 2 ^ (F.f - 1) := Nat.two_pow_pos _
  have ht := trail_lt F x.toNat
  have h2 : 2 ^ F.f = 2 * 2 ^ (F.f - 1) := by
    rw [← pow_succ']; congr 1; omega
  constructor
  · intro h
    by_contra hlt
    rw [Nat.div_eq_of_lt (by omega)] at h
    omega
  · intro h
    apply Nat.div_eq_of_lt_le <;> omega

/-- **C30.**  For every format and every bit pattern: the expansions of IsNaN, IsQuietNaN,
IsSignalingNaN, IsInfty, IsInfOrNaN and IsZero answer true exactly on the patterns of the IEEE-754
class they are named after.

Partial: IsSubnormal is also true of zeros (`C30_subnormal_wrong`), and the sign comparison is only
right on non-zero numbers and infinities (`C30_comp_sign_partial`). -/
theorem C30_test_expansion_partial (F : Fmt) (he : 1 ≤ F.e) (hf : 1 ≤ F.f) (x : BitVec (width F)) :
    (testExpansion F .isNaN x = some true ↔ cls F x.toNat = .qNaN ∨ cls F x.toNat = .sNaN) ∧
    (testExpansion F .isQuietNaN x = some true ↔ cls F x.toNat = .qNaN) ∧
    (testExpansion F .isSignalingNaN x = some true ↔ cls F x.toNat = .sNaN) ∧
    (testExpansion F .isInfty x = some true ↔ cls F x.toNat = .inf) ∧
    (testExpansion F .isInfOrNaN x = some true ↔
      cls F x.toNat = .qNaN ∨ cls F x.toNat = .sNaN ∨ cls F x.toNat = .inf) ∧
    (testExpansion F .isZero x = some true ↔ cls F x.toNat = .zero) ∧
    (testExpansion F .isSubnormal x = some true ↔ cls F x.toNat = .zero ∨ cls F x.toNat = .subnormal) := by
  have hz : (fieldExtraction x 0 (width F - 2) == 0) = true ↔
      expField F x.toNat = 0 ∧ trailField F x.toNat = 0 := by
    rw [beq_iff_eq, ← BitVec.toNat_inj, allButSign_toNat F he]
    have : 2 ^ F.f ≠ 0 := (Nat.two_pow_pos _).ne'
    simp [this]
    exact and_comm
  have hs : (rawExpExtraction F x == 0) = true ↔ expField F x.toNat = 0 := by
    rw [beq_iff_eq, ← BitVec.toNat_inj, rawExp_toNat F he]; simp
  have hne : 2 ^ F.e - 1 ≠ 0 := by
    have : 2 ^ 1 ≤ 2 ^ F.e := Nat.pow_le_pow_right (by decide) he
    omega
  simp only [testExpansion, Option.some.injEq, Bool.and_eq_true, expIsMax_iff F he, mant_zero_iff F hf,
    mant_ne_iff F hf, quiet_zero_iff F hf, quiet_one_iff F hf, hz, hs]
  unfold cls
  have hp : 0 < 2 ^ (F.f - 1) := Nat.two_pow_pos _
  by_cases h1 : expField F x.toNat = 2 ^ F.e - 1
  · have h0 : expField F x.toNat ≠ 0 := by rw [h1]; exact hne
    by_cases h2 : trailField F x.toNat = 0
    · simp [h1, h2, hne]
    · by_cases h3 : 2 ^ (F.f - 1) ≤ trailField F x.toNat
      · simp [h1, h2, h3, hne, Nat.not_lt.2 h3]
      · simp [h1, h2, h3, hne, Nat.lt_of_not_le h3]
  · by_cases h0 : expField F x.toNat = 0
    · have h1' : ¬ (0 = 2 ^ F.e - 1) := fun h => hne h.symm
      by_cases h2 : trailField F x.toNat = 0
      · simp [h0, h2, h1']
      · simp [h0, h2, h1']
    · simp [h1, h0]

/-- Predicates that the expansion refuses although they are meant to be tested. -/
theorem C30_unsupported (F : Fmt) (x : BitVec (width F)) :
    testExpansion F .isPositiveInfty x = none ∧ testExpansion F .isNegativeInfty x = none ∧
    testExpansion F .isIEEENormalPositive x = none ∧ testExpansion F .isPositiveZero x = none ∧
    testExpansion F .isNegativeZero x = none := ⟨rfl, rfl, rfl, rfl, rfl⟩

/-- Zero is reported subnormal, in every format. -/
theorem C30_subnormal_wrong (F : Fmt) (he : 1 ≤ F.e) (hf : 1 ≤ F.f) :
    testExpansion F .isSubnormal 0 = some true ∧ cls F 0 = .zero := by
  have hz : cls F 0 = .zero := by
    have hne : (0 : ℕ) ≠ 2 ^ F.e - 1 := by
      have : 2 ^ 1 ≤ 2 ^ F.e := Nat.pow_le_pow_right (by decide) he
      omega
    simp [cls, expField, trailField, hne]
  refine ⟨(C30_test_expansion_partial F he hf 0).2.2.2.2.2.2.2 (Or.inl ?_), hz⟩
  simpa using hz

/-- Binary32 patterns of the various classes. -/
def b32 : Fmt := ⟨8, 23⟩
example : cls b32 0x7FC00000 = .qNaN ∧ cls b32 0x7F800001 = .sNaN ∧ cls b32 0xFF800000 = .inf ∧
  cls b32 0x80000000 = .zero ∧ cls b32 0x00000007 = .subnormal ∧ cls b32 0xC0490FDB = .normal := by decide
example : testExpansion b32 .isSignalingNaN 0x7F800001#32 = some true := by decide

/-- Sign comparison, on data other than zeros and NaNs. -/
theorem C30_comp_sign_partial (a b : Val) (ha : a ≠ .qNaN ∧ a ≠ .sNaN ∧ a ≠ .plusZero ∧ a ≠ .minusZero)
    (hb : b ≠ .qNaN ∧ b ≠ .sNaN ∧ b ≠ .plusZero ∧ b ≠ .minusZero) (ha0 : a ≠ .num 0) (hb0 : b ≠ .num 0) :
    compSign a b ↔ (isNeg a ↔ isNeg b) := by
  have key : ∀ a : Val, a ≠ .qNaN ∧ a ≠ .sNaN ∧ a ≠ .plusZero ∧ a ≠ .minusZero → a ≠ .num 0 →
      (lessEq .plusZero a ↔ ¬ isNeg a) ∧ (lessEq a .plusZero ↔ isNeg a) := by
    intro a ha ha0
    cases a with
    | qNaN => exact absurd rfl ha.1
    | sNaN => exact absurd rfl ha.2.1
    | plusZero => exact absurd rfl ha.2.2.1
    | minusZero => exact absurd rfl ha.2.2.2
    | plusInf =>
      simp [lessEq, ext, isNeg]
      intro h
      exact absurd (WithBot.coe_injective (a₁ := ((0 : ℚ) : WithTop ℚ)) (a₂ := ⊤) h) (WithTop.coe_ne_top)
    | minusInf => simp [lessEq, ext, isNeg]
    | num v =>
      have hv : v ≠ 0 := fun h => ha0 (by rw [h])
      simp only [lessEq, ext, isNeg, Option.some.injEq, exists_eq_left', not_lt]
      constructor
      · constructor
        · rintro h; simpa using h
        · intro h; simpa using h
      · constructor
        · intro h
          have : v ≤ 0 := by simpa using h
          exact lt_of_le_of_ne this hv
        · intro h
          have : v ≤ 0 := h.le
          simpa using this
  unfold compSign
  rw [(key a ha ha0).1, (key a ha ha0).2, (key b hb hb0).1, (key b hb hb0).2]
  tauto

example : compSign (.num 3) .plusInf ∧ ¬ compSign (.num (-3)) (.num 2) := by
  constructor
  · rw [C30_comp_sign_partial] <;> simp [isNeg]
  · rw [C30_comp_sign_partial] <;> simp [isNeg]

/-- `-0` and `5` are said to have the same sign, and a NaN is said to have another sign than itself. -/
theorem C30_comp_sign_wrong :
    (compSign .minusZero (.num 5) ∧ ¬ (isNeg .minusZero ↔ isNeg (.num 5))) ∧ ¬ compSign .qNaN .qNaN := by
  refine ⟨⟨Or.inl ⟨⟨_, _, rfl, rfl, le_refl _⟩, ⟨_, _, rfl, rfl, ?_⟩⟩, ?_⟩, ?_⟩
  · have : (0 : ℚ) ≤ 5 := by norm_num
    exact_mod_cast this
  · simp [isNeg]
  · simp [compSign, lessEq, ext]

/-! ## C31 -/

theorem bias_emax (F : Fmt) : bias F = -F.emax := by unfold bias Fmt.emax; ring

theorem normal_exp {F : Fmt} {c : ℕ} (h : cls F c = .normal) :
    expField F c ≠ 0 ∧ expField F c ≠ 2 ^ F.e - 1 := by
  unfold cls at h
  split at h
  · split at h
    · cases h
    · split at h <;> cases h
  · split at h
    · split at h <;> cases h
    · rename_i h1 h2; exact ⟨h2, h1⟩

theorem normal_of {F : Fmt} {c : ℕ} (h0 : expField F c ≠ 0) (h1 : expField F c ≠ 2 ^ F.e - 1) :
    cls F c = .normal := by
  unfold cls
  rw [if_neg h1, if_neg h0]

theorem emax_bounds (F : Fmt) (he : 1 ≤ F.e) : 0 ≤ F.emax ∧ 2 * (F.emax + 1) = 2 ^ F.e := by
  unfold Fmt.emax
  have h1 : (2 : ℤ) ^ F.e = 2 * 2 ^ (F.e - 1) := by rw [← pow_succ']; congr 1; omega
  have h2 : (1 : ℤ) ≤ 2 ^ (F.e - 1) := one_le_pow₀ (by norm_num)
  constructor <;> linarith

theorem pow_w (F : Fmt) : (2 : ℤ) ^ width F = 2 * 2 ^ (F.e + F.f) ∧ (2 : ℤ) ^ F.e ≤ 2 ^ (F.e + F.f) := by
  constructor
  · rw [← pow_succ']; congr 1; unfold width; omega
  · exact pow_le_pow_right₀ (by norm_num) (by omega)

theorem toInt_small {w : ℕ} (x : BitVec w) (h : 2 * x.toNat < 2 ^ w) : x.toInt = x.toNat :=
  BitVec.toInt_eq_toNat_of_lt h

theorem bmod_small (w : ℕ) (n : ℤ) (h1 : -2 ^ w ≤ 2 * n) (h2 : 2 * n < 2 ^ w) : n.bmod (2 ^ w) = n := by
  apply Int.bmod_eq_of_le
  · push_cast; omega
  · push_cast; omega

/-- **C31** (extraction).  For every normal pattern of every format, exponent extraction returns
`⌊log2 |x|⌋`. -/
theorem C31_exp_extraction (F : Fmt) (he : 1 ≤ F.e) (x : BitVec (width F)) (hx : cls F x.toNat = .normal) :
    (expExtraction F x).toInt = Int.log 2 |value F x.toNat| := by
  obtain ⟨h0, _⟩ := normal_exp hx
  rw [log_value F _ h0]
  unfold expExtraction
  obtain ⟨hm0, hm⟩ := emax_bounds F he
  obtain ⟨hw1, hw2⟩ := pow_w F
  have hE : (expField F x.toNat : ℤ) < 2 ^ F.e := by exact_mod_cast exp_lt F x.toNat
  have hraw : (rawExpExtraction F x).toInt = expField F x.toNat := by
    rw [toInt_small, rawExp_toNat F he]
    rw [rawExp_toNat F he]
    have : (2 * (expField F x.toNat : ℤ)) < 2 ^ width F := by linarith
    exact_mod_cast this
  have hb : (BitVec.ofInt (width F) (bias F)).toInt = -F.emax := by
    rw [BitVec.toInt_ofInt, bias_emax, bmod_small] <;> linarith
  rw [BitVec.toInt_add, hraw, hb, bmod_small]
  · ring
  · have : (0 : ℤ) ≤ expField F x.toNat := Int.natCast_nonneg _
    linarith
  · linarith

/-- Fields of the pattern made by exponent insertion. -/
theorem insertion_toNat (F : Fmt) (he : 1 ≤ F.e) (k : BitVec (width F)) (h1 : F.emin ≤ k.toInt)
    (h2 : k.toInt ≤ F.emax) :
    (expInsertion F k).toNat = (k.toInt + F.emax).toNat * 2 ^ F.f ∧
      0 < (k.toInt + F.emax).toNat ∧ (k.toInt + F.emax).toNat < 2 ^ F.e - 1 := by
  obtain ⟨hm0, hm⟩ := emax_bounds F he
  obtain ⟨hw1, hw2⟩ := pow_w F
  have hmin : F.emin = 1 - F.emax := rfl
  have hb : (BitVec.ofInt (width F) (-bias F)).toInt = F.emax := by
    rw [BitVec.toInt_ofInt, bias_emax, neg_neg, bmod_small] <;> linarith
  have hE1 : 1 ≤ k.toInt + F.emax := by linarith
  have hE2 : k.toInt + F.emax ≤ 2 ^ F.e - 2 := by linarith
  have hsum : (k + BitVec.ofInt (width F) (-bias F)).toInt = k.toInt + F.emax := by
    rw [BitVec.toInt_add, hb, bmod_small] <;> linarith
  have hpe : (2 : ℤ) ^ F.e = ((2 ^ F.e : ℕ) : ℤ) := by push_cast; rfl
  have hsumN : (k + BitVec.ofInt (width F) (-bias F)).toNat = (k.toInt + F.emax).toNat := by
    rw [← hsum]
    generalize k + BitVec.ofInt (width F) (-bias F) = z at *
    rcases Nat.lt_or_ge (2 * z.toNat) (2 ^ width F) with hlt | hge
    · rw [toInt_small z hlt]; rfl
    · exfalso
      rw [BitVec.toInt_eq_toNat_cond, if_neg (by omega)] at hsum
      have := z.isLt
      omega
  refine ⟨?_, by omega, by omega⟩
  unfold expInsertion
  rw [BitVec.toNat_shiftLeft, hsumN, Nat.shiftLeft_eq, Nat.mod_eq_of_lt]
  have h3 : (k.toInt + F.emax).toNat < 2 ^ F.e := by omega
  have h4 : 2 ^ width F = 2 * (2 ^ F.e * 2 ^ F.f) := by
    rw [← pow_add, ← pow_succ']; congr 1; unfold width; omega
  have h5 : 0 < 2 ^ F.f := Nat.two_pow_pos _
  rw [h4]
  nlinarith

theorem insertion_fields (F : Fmt) (he : 1 ≤ F.e) (k : BitVec (width F)) (h1 : F.emin ≤ k.toInt)
    (h2 : k.toInt ≤ F.emax) :
    signField F (expInsertion F k).toNat = 0 ∧ (expField F (expInsertion F k).toNat : ℤ) = k.toInt + F.emax ∧
    trailField F (expInsertion F k).toNat = 0 ∧ cls F (expInsertion F k).toNat = .normal := by
  obtain ⟨h3, h4, h5⟩ := insertion_toNat F he k h1 h2
  have := fields_of F 0 (k.toInt + F.emax).toNat 0 (by omega) (by omega) (Nat.two_pow_pos _)
  rw [Nat.zero_mul, Nat.add_zero, Nat.zero_add, ← h3] at this
  refine ⟨this.1, ?_, this.2.2, normal_of ?_ ?_⟩
  · rw [this.2.1]; omega
  · rw [this.2.1]; omega
  · rw [this.2.1]; omega

/-- **C31** (insertion).  For every format and every exponent of its normal range, exponent insertion
returns the pattern of the number `2^k`. -/
theorem C31_exp_insertion (F : Fmt) (he : 1 ≤ F.e) (k : BitVec (width F)) (h1 : F.emin ≤ k.toInt)
    (h2 : k.toInt ≤ F.emax) :
    value F (expInsertion F k).toNat = (2 : ℚ) ^ k.toInt ∧ cls F (expInsertion F k).toNat = .normal := by
  obtain ⟨h3, h4, h5, h6⟩ := insertion_fields F he k h1 h2
  refine ⟨?_, h6⟩
  obtain ⟨h0, _⟩ := normal_exp h6
  have hmax : ((max (expField F (expInsertion F k).toNat) 1 : ℕ) : ℤ) = k.toInt + F.emax := by
    rw [max_eq_left (by omega), h4]
  unfold value
  rw [hmax, h3, h5, if_neg h0]
  simp

/-- **C31** (round trip).  Extraction after insertion is the identity on the normal exponent range. -/
theorem C31_round_trip (F : Fmt) (he : 1 ≤ F.e) (k : BitVec (width F)) (h1 : F.emin ≤ k.toInt)
    (h2 : k.toInt ≤ F.emax) : expExtraction F (expInsertion F k) = k := by
  obtain ⟨h3, h4⟩ := C31_exp_insertion F he k h1 h2
  have h5 := C31_exp_extraction F he _ h4
  rw [h3, abs_of_pos (Verif.Float.zp _)] at h5
  have h6 : Int.log 2 ((2 : ℚ) ^ k.toInt) = k.toInt := by
    apply Verif.Float.log_eq (le_refl _)
    exact Verif.Float.zlt (by omega)
  rw [h6] at h5
  exact BitVec.eq_of_toInt_eq h5

example : b32.emin ≤ (-126#32).toInt ∧ (127#32).toInt ≤ b32.emax := by decide
example : (expInsertion b32 (127#32)).toNat = 0x7F000000 := by decide

/-- Outside the normal exponent range the result is not `2^k`: the exponent one above gives the
pattern of infinity. -/
theorem C31_insertion_overflow : cls b32 (expInsertion b32 (128#32)).toNat = .inf := by decide

theorem static_insertion_zero (F : Fmt) (he : 1 ≤ F.e) :
    (staticRawExpInsertion F 0).toNat = (2 ^ (F.e - 1) - 1) * 2 ^ F.f := by
  unfold staticRawExpInsertion
  have hb : 0 + -bias F = ((2 ^ (F.e - 1) - 1 : ℕ) : ℤ) := by
    unfold bias
    rw [Nat.cast_sub Nat.one_le_two_pow]
    push_cast; ring
  rw [hb]
  have h2 : (((2 ^ (F.e - 1) - 1 : ℕ) : ℤ) * 2 ^ F.f) = (((2 ^ (F.e - 1) - 1) * 2 ^ F.f : ℕ) : ℤ) := by
    push_cast; ring
  rw [h2, BitVec.ofInt_natCast, BitVec.toNat_ofNat, Nat.mod_eq_of_lt]
  have h3 : 2 ^ width F = (2 * 2 * 2 ^ (F.e - 1)) * 2 ^ F.f := by
    have : width F = 1 + 1 + (F.e - 1) + F.f := by unfold width; omega
    rw [this, pow_add, pow_add, pow_add]; ring
  rw [h3]
  apply Nat.mul_lt_mul_of_pos_right _ (Nat.two_pow_pos _)
  have := Nat.one_le_two_pow (n := F.e - 1)
  omega

/-- Fields of the pattern made by mantissa extraction. -/
theorem mantissa_toNat (F : Fmt) (he : 1 ≤ F.e) (x : BitVec (width F)) :
    (mantissaExtraction F x).toNat =
      trailField F x.toNat + (2 ^ (F.e - 1) - 1) * 2 ^ F.f + signField F x.toNat * 2 ^ (F.e + F.f) := by
  unfold mantissaExtraction
  have hw : width F - 1 = F.e + F.f := by unfold width; omega
  have hmask : (BitVec.ofNat (width F) ((2 ^ F.f - 1) ||| (1 <<< (width F - 1)))).toNat =
      (2 ^ F.f - 1) ||| (1 <<< (F.e + F.f)) := by
    rw [BitVec.toNat_ofNat, hw, Nat.mod_eq_of_lt]
    apply Nat.or_lt_two_pow
    · have : 2 ^ F.f ≤ 2 ^ width F := Nat.pow_le_pow_right (by decide) (by unfold width; omega)
      have := Nat.two_pow_pos F.f
      omega
    · rw [Nat.shiftLeft_eq, Nat.one_mul]
      exact Nat.pow_lt_pow_right (by decide) (by unfold width; omega)
  rw [BitVec.toNat_or, BitVec.toNat_and, hmask, static_insertion_zero F he]
  -- the right-hand side, bit by bit
  have hE : 2 ^ (F.e - 1) - 1 < 2 ^ F.e := by
    have : 2 ^ (F.e - 1) ≤ 2 ^ F.e := Nat.pow_le_pow_right (by decide) (by omega)
    have := Nat.two_pow_pos (F.e - 1)
    omega
  have hs : signField F x.toNat ≤ 1 := by
    unfold signField; omega
  have hpack := Verif.Float.pack_eq F (signField F x.toNat) (2 ^ (F.e - 1) - 1) (trailField F x.toNat)
    (trail_lt F _) hE
  have hrhs : trailField F x.toNat + (2 ^ (F.e - 1) - 1) * 2 ^ F.f + signField F x.toNat * 2 ^ (F.e + F.f) =
      trailField F x.toNat ||| ((2 ^ (F.e - 1) - 1) <<< F.f) ||| (signField F x.toNat <<< (F.f + F.e)) := by
    have h := hpack
    unfold Verif.Float.pack at h
    rw [h, Nat.add_comm F.e F.f]
    try ring
  rw [hrhs]
  apply Nat.eq_of_testBit_eq
  intro i
  simp only [Nat.testBit_or, Nat.testBit_and, Nat.testBit_shiftLeft, Nat.testBit_two_pow_sub_one,
    ← Nat.shiftLeft_eq]
  unfold trailField signField
  rw [Nat.testBit_mod_two_pow]
  have hsign : ∀ j, (x.toNat / 2 ^ (F.e + F.f) % 2).testBit j = (decide (j = 0) && x.toNat.testBit (F.e + F.f)) := by
    intro j
    have : x.toNat / 2 ^ (F.e + F.f) % 2 = x.toNat / 2 ^ (F.e + F.f) % 2 ^ 1 := by rw [pow_one]
    rw [this, Nat.testBit_mod_two_pow, Nat.testBit_div_two_pow]
    by_cases hj : j = 0
    · subst hj; simp
    · have : ¬ j < 1 := by omega
      simp [hj, this]
  rw [hsign]
  have hone : ∀ j, Nat.testBit 1 j = decide (j = 0) := by
    intro j
    have := Nat.testBit_two_pow_sub_one 1 j
    simp only [pow_one] at this
    rw [show (2 - 1 : ℕ) = 1 from rfl] at this
    rw [this]
    by_cases hj : j = 0 <;> simp [hj]
  rw [hone]
  by_cases hi : i = F.e + F.f
  · subst hi
    have h1 : ¬ F.e + F.f < F.f := by omega
    have h2 : F.f + F.e ≤ F.e + F.f := by omega
    simp [h1, h2, Nat.add_comm, Bool.or_comm]
  · by_cases hlt : i < F.f
    · have h1 : ¬ F.e + F.f ≤ i := by omega
      have h2 : ¬ F.f + F.e ≤ i := by omega
      have h3 : ¬ F.f ≤ i := by omega
      simp [hlt, h1, h2, h3]
    · have h5 : ¬ (F.e + F.f ≤ i ∧ i - (F.e + F.f) = 0) := by omega
      have h6 : ¬ (F.f + F.e ≤ i ∧ i - (F.f + F.e) = 0) := by omega
      by_cases h7 : F.e + F.f ≤ i
      · have h8 : i - (F.e + F.f) ≠ 0 := by omega
        have h9 : i - (F.f + F.e) ≠ 0 := by omega
        simp [hlt, h8, h9]
      · have h8 : ¬ F.f + F.e ≤ i := by omega
        simp [hlt, h7, h8]

/-- **C31** (mantissa).  For every normal pattern, mantissa extraction returns the pattern of
`x / 2^⌊log2 |x|⌋`. -/
theorem C31_mantissa_extraction (F : Fmt) (he : 2 ≤ F.e) (x : BitVec (width F)) (hx : cls F x.toNat = .normal) :
    value F (mantissaExtraction F x).toNat = value F x.toNat / (2 : ℚ) ^ Int.log 2 |value F x.toNat| ∧
    cls F (mantissaExtraction F x).toNat = .normal := by
  obtain ⟨h0, _⟩ := normal_exp hx
  have hp : 2 ^ F.e = 2 * 2 ^ (F.e - 1) := by rw [← pow_succ']; congr 1; omega
  have hp2 : 2 ^ 1 ≤ 2 ^ (F.e - 1) := Nat.pow_le_pow_right (by decide) (by omega)
  have hs : signField F x.toNat ≤ 1 := by unfold signField; omega
  obtain ⟨g1, g2, g3⟩ := fields_of F (signField F x.toNat) (2 ^ (F.e - 1) - 1) (trailField F x.toNat) hs
    (by omega) (trail_lt F _)
  rw [← mantissa_toNat F (by omega) x] at g1 g2 g3
  refine ⟨?_, normal_of (by omega) (by omega)⟩
  rw [log_value F _ h0]
  unfold value
  rw [g1, g2, g3, if_neg h0, if_neg (by omega), max_eq_left (by omega), max_eq_left (by omega)]
  have he' : ((2 ^ (F.e - 1) - 1 : ℕ) : ℤ) - F.emax = 0 := by
    unfold Fmt.emax
    rw [Nat.cast_sub Nat.one_le_two_pow]
    push_cast; ring
  rw [he', zpow_zero]
  have := (Verif.Float.zp ((expField F x.toNat : ℤ) - F.emax)).ne'
  field_simp

example : cls b32 (0xC0490FDB#32).toNat = .normal := by decide
example : (mantissaExtraction b32 (0xC0490FDB#32)).toNat = 0xBFC90FDB := by decide

/-! ## C32 -/

/-- **C32.**  On operands that are not NaNs, the lowering of Min returns one of the operands and no
operand is less than it; Max likewise.

Partial: with a NaN the result depends on the operand order (`C32_nan_wrong`). -/
theorem C32_minmax_partial (a b : Val) (ha : ext a ≠ none) (hb : ext b ≠ none) :
    (minLegalizer a b = a ∨ minLegalizer a b = b) ∧
    lessEq (minLegalizer a b) a ∧ lessEq (minLegalizer a b) b ∧
    (maxLegalizer a b = a ∨ maxLegalizer a b = b) ∧
    lessEq a (maxLegalizer a b) ∧ lessEq b (maxLegalizer a b) := by
  obtain ⟨x, hx⟩ := Option.ne_none_iff_exists'.1 ha
  obtain ⟨y, hy⟩ := Option.ne_none_iff_exists'.1 hb
  have hl : ∀ (a b : Val) (x y : WithBot (WithTop ℚ)), ext a = some x → ext b = some y → (less a b ↔ x < y) := by
    intro a b x y hx hy
    unfold less
    rw [hx, hy]; simp
  have hle : ∀ (a b : Val) (x y : WithBot (WithTop ℚ)), ext a = some x → ext b = some y → (lessEq a b ↔ x ≤ y) := by
    intro a b x y hx hy
    unfold lessEq
    rw [hx, hy]; simp
  unfold minLegalizer maxLegalizer
  refine ⟨?_, ?_, ?_, ?_, ?_, ?_⟩
  · split <;> simp
  · split
    · rw [hle a a x x hx hx]
    · rename_i h
      rw [hl a b x y hx hy, not_lt] at h
      rwa [hle b a y x hy hx]
  · split
    · rename_i h
      rw [hl a b x y hx hy] at h
      rw [hle a b x y hx hy]; exact h.le
    · rw [hle b b y y hy hy]
  · split <;> simp
  · split
    · rw [hle a a x x hx hx]
    · rename_i h
      rw [hl b a y x hy hx, not_lt] at h
      rwa [hle a b x y hx hy]
  · split
    · rename_i h
      rw [hl b a y x hy hx] at h
      rw [hle b a y x hy hx]; exact h.le
    · rw [hle b b y y hy hy]

example : ext (.num 3) ≠ none ∧ ext .minusInf ≠ none := by simp [ext]

/-- With a NaN operand the second operand is returned, whatever it is: min and max are not
commutative and a NaN may or may not be propagated. -/
theorem C32_nan_wrong (v : ℚ) :
    minLegalizer .qNaN (.num v) = .num v ∧ minLegalizer (.num v) .qNaN = .qNaN ∧
    maxLegalizer .qNaN (.num v) = .num v ∧ maxLegalizer (.num v) .qNaN = .qNaN := by
  simp [minLegalizer, maxLegalizer, less, ext]

end Verif.Legal
