import Verif.Float.Lemmas

/-!
# Property theorems on floating-point formats: C01, C02, C60
-/

namespace Verif.Float

/-! ## C01 bit coding -/

/-- Decoding of a packed pattern, case by case. -/
theorem decode_pack (F : Fmt) (s x m : ℕ) (hm : m < 2 ^ F.f) (hx : x < 2 ^ F.e) :
    valueFromCoding F (pack F s x m) =
      if x = 2 ^ F.e - 1 then
        if m = 0 ∧ s ≠ 0 then .minusInf else if m = 0 ∧ s = 0 then .plusInf
        else if m >>> (F.f - 1) ≠ 0 then .qNaN else .sNaN
      else if x = 0 ∧ m = 0 then (if s ≠ 0 then .minusZero else .plusZero)
      else .num ((if s ≠ 0 then -1 else 1) * (2 : ℚ) ^ ((x : ℤ) + bias F + (if x = 0 then 1 else 0)) *
        ((if x = 0 then 0 else 1) + m * (2 : ℚ) ^ (-(F.f : ℤ)))) := by
  unfold valueFromCoding nanOrInfField
  simp only [pack_mant F s x m hm hx, pack_exp F s x m hm hx, pack_sign F s x m hm hx]

/-- The special values are encoded as packings. -/
theorem special_pack (F : Fmt) (hf : 1 ≤ F.f) :
    integerCoding F .plusInf = .ok (pack F 0 (2 ^ F.e - 1) 0) ∧
    integerCoding F .minusInf = .ok (pack F 1 (2 ^ F.e - 1) 0) ∧
    integerCoding F .plusZero = .ok (pack F 0 0 0) ∧
    integerCoding F .minusZero = .ok (pack F 1 0 0) ∧
    integerCoding F .qNaN = .ok (pack F 1 (2 ^ F.e - 1) (2 ^ F.f - 1)) ∧
    integerCoding F .sNaN = .ok (pack F 1 (2 ^ F.e - 1) (2 ^ (F.f - 1) - 1)) := by
  have hfp : 0 < 2 ^ F.f := by positivity
  have hep : 0 < 2 ^ F.e := by positivity
  have hfp1 : 0 < 2 ^ (F.f - 1) := by positivity
  have hff : 2 ^ F.f = 2 * 2 ^ (F.f - 1) := by
    conv_lhs => rw [show F.f = (F.f - 1) + 1 by omega]
    rw [pow_succ]; ring
  have hor : (1 <<< F.e) ||| (2 ^ F.e - 1) = 2 ^ F.e + (2 ^ F.e - 1) := by
    rw [← Nat.shiftLeft_add_eq_or_of_lt (by omega), Nat.shiftLeft_eq, Nat.one_mul]
  have hnan : ∀ m, m < 2 ^ F.f → m ||| (((1 <<< F.e) ||| (2 ^ F.e - 1)) <<< F.f) = pack F 1 (2 ^ F.e - 1) m := by
    intro m hm
    rw [pack_eq F _ _ _ hm (by omega), hor, Nat.or_comm, ← Nat.shiftLeft_add_eq_or_of_lt hm, Nat.shiftLeft_eq, pow_add]
    ring
  refine ⟨?_, ?_, ?_, ?_, ?_, ?_⟩
  · simp only [integerCoding, nanOrInfField]
    rw [pack_eq F _ _ _ (by omega) (by omega), Nat.shiftLeft_eq]; simp
  · simp only [integerCoding, nanOrInfField]
    rw [← hnan 0 hfp, Nat.zero_or]
  · simp [integerCoding, pack]
  · simp [integerCoding, pack, Nat.add_comm]
  · simp only [integerCoding, nanOrInfField]
    rw [hnan]
    · congr 2
      rw [Nat.or_comm, ← Nat.shiftLeft_add_eq_or_of_lt (by omega), Nat.shiftLeft_eq]
      omega
    · rw [Nat.or_comm, ← Nat.shiftLeft_add_eq_or_of_lt (by omega), Nat.shiftLeft_eq]
      omega
  · simp only [integerCoding, nanOrInfField, Nat.or_zero]
    rw [hnan _ (by omega)]

/-- C01: every datum of a format is encoded in `1 + e + f` bits and decoding the pattern gives the datum back: numbers of
both signs, normal and subnormal, zeros, infinities, quiet and signaling NaNs. A signaling NaN needs two significand bits. -/
theorem C01_round_trip (F : Fmt) (he : 1 ≤ F.e) (hf : 1 ≤ F.f) (d : Val) (hd : F.Datum d) (hs : d = .sNaN → 2 ≤ F.f) :
    ∃ code, integerCoding F d = .ok code ∧ code < 2 ^ (1 + F.e + F.f) ∧ valueFromCoding F code = d := by
  have hfp : 0 < 2 ^ F.f := by positivity
  have hep : 2 ≤ 2 ^ F.e := by
    calc 2 = 2 ^ 1 := rfl
      _ ≤ _ := Nat.pow_le_pow_right (by norm_num) he
  have hff : 2 ^ F.f = 2 * 2 ^ (F.f - 1) := by
    conv_lhs => rw [show F.f = (F.f - 1) + 1 by omega]
    rw [pow_succ]; ring
  have hfp1 : 0 < 2 ^ (F.f - 1) := by positivity
  obtain ⟨p1, p2, p3, p4, p5, p6⟩ := special_pack F hf
  cases d with
  | plusInf =>
    refine ⟨_, p1, pack_lt F _ _ _ (by omega) (by omega) (by omega), ?_⟩
    rw [decode_pack F _ _ _ (by omega) (by omega)]; simp
  | minusInf =>
    refine ⟨_, p2, pack_lt F _ _ _ (by omega) (by omega) (by omega), ?_⟩
    rw [decode_pack F _ _ _ (by omega) (by omega)]; simp
  | plusZero =>
    refine ⟨_, p3, pack_lt F _ _ _ (by omega) (by omega) (by omega), ?_⟩
    rw [decode_pack F _ _ _ (by omega) (by omega), if_neg (by omega)]; simp
  | minusZero =>
    refine ⟨_, p4, pack_lt F _ _ _ (by omega) (by omega) (by omega), ?_⟩
    rw [decode_pack F _ _ _ (by omega) (by omega), if_neg (by omega)]; simp
  | qNaN =>
    refine ⟨_, p5, pack_lt F _ _ _ (by omega) (by omega) (by omega), ?_⟩
    rw [decode_pack F _ _ _ (by omega) (by omega), if_pos rfl, if_neg (by omega), if_neg (by omega), if_pos]
    rw [Nat.shiftRight_eq_div_pow, show 2 ^ F.f - 1 = (2 ^ (F.f - 1) - 1) + 2 ^ (F.f - 1) * 1 by omega,
      Nat.add_mul_div_left _ _ hfp1]
    exact Nat.succ_ne_zero _
  | sNaN =>
    have h2 := hs rfl
    have : 2 ≤ 2 ^ (F.f - 1) := by
      calc 2 = 2 ^ 1 := rfl
        _ ≤ _ := Nat.pow_le_pow_right (by norm_num) (by omega)
    refine ⟨_, p6, pack_lt F _ _ _ (by omega) (by omega) (by omega), ?_⟩
    rw [decode_pack F _ _ _ (by omega) (by omega), if_pos rfl, if_neg (by omega), if_neg (by omega), if_neg]
    rw [Nat.shiftRight_eq_div_pow, Nat.div_eq_of_lt (by omega)]
    simp
  | num v =>
    obtain ⟨hfin, h0⟩ := hd
    have habs : F.Finite |v| := by
      rcases abs_choice v with h' | h' <;> rw [h']
      · exact hfin
      · exact finite_neg hfin
    obtain ⟨n, k, hv, hn0, hn, h1, h2, hc, -⟩ := finite_canon habs (abs_pos.2 h0)
    have hform : v = if decide (v < 0) then -((n : ℚ) * (2 : ℚ) ^ (k - F.f)) else n * (2 : ℚ) ^ (k - F.f) := by
      rw [← hv]
      by_cases hneg : v < 0
      · simp [hneg, abs_of_neg hneg]
      · simp [hneg, abs_of_nonneg (not_lt.1 hneg)]
    generalize decide (v < 0) = neg at hform
    have hcode := numCoding_canon he neg n k hn0 hn h1 h2 hc v hform
    have hbias := emax_add F he
    have hbe := bias_eq F
    have hpz : (((2 ^ F.e : ℕ)) : ℤ) = 2 ^ F.e := by push_cast; rfl
    have hpz2 : (((2 ^ F.e : ℕ)) : ℤ) ≥ 2 := by exact_mod_cast hep
    rw [pow_succ] at hn
    have hss : (if neg = true then 1 else 0) ≤ 1 := by split <;> omega
    refine ⟨_, hcode, ?_, ?_⟩
    · split
      · exact pack_lt F _ _ _ hss (by omega) (by omega)
      · exact pack_lt F _ _ _ hss (by omega) (by omega)
    · split
      · rename_i h
        have hx0 : (k - bias F).toNat ≠ 0 := by omega
        have hx1 : (k - bias F).toNat ≠ 2 ^ F.e - 1 := by omega
        rw [decode_pack F _ _ _ (by omega) (by omega), if_neg hx1, if_neg (fun hh => hx0 hh.1)]
        simp only [hx0, if_false]
        congr 1
        rw [Int.toNat_of_nonneg (by omega), show k - bias F + bias F + 0 = k by ring, Nat.cast_sub h]
        push_cast
        rw [hform, zscale k F.f]
        have hinv : (2 : ℚ) ^ F.f * (2 : ℚ) ^ (-(F.f : ℤ)) = 1 := by
          rw [← znat, ← zadd]; simp
        cases neg
        · simp only [Bool.false_eq_true, if_false, ne_eq, not_true]
          linear_combination ((n : ℚ) - 2 ^ F.f) * (2 : ℚ) ^ (k - F.f) * hinv
        · simp only [if_true, ne_eq, one_ne_zero, not_false_eq_true]
          linear_combination (-(n : ℚ) + 2 ^ F.f) * (2 : ℚ) ^ (k - F.f) * hinv
      · rename_i h
        have hk : k = F.emin := by omega
        rw [decode_pack F _ _ _ (by omega) (by omega), if_neg (show ¬ 0 = 2 ^ F.e - 1 by omega),
          if_neg (show ¬ (0 = 0 ∧ n = 0) by omega)]
        simp only [if_true]
        congr 1
        rw [show ((0 : ℕ) : ℤ) + bias F + 1 = k by push_cast; omega, hform, zscale k F.f]
        have hinv : (2 : ℚ) ^ F.f * (2 : ℚ) ^ (-(F.f : ℤ)) = 1 := by
          rw [← znat, ← zadd]; simp
        cases neg
        · simp only [Bool.false_eq_true, if_false, ne_eq, not_true]
          linear_combination (n : ℚ) * (2 : ℚ) ^ (k - F.f) * hinv
        · simp only [if_true, ne_eq, one_ne_zero, not_false_eq_true]
          linear_combination (-(n : ℚ)) * (2 : ℚ) ^ (k - F.f) * hinv

/-- binary32: a normal number, a subnormal number, a negative number. -/
example : (⟨8, 23⟩ : Fmt).Datum (.num (3 / 2)) ∧ (⟨8, 23⟩ : Fmt).Datum (.num ((2 : ℚ) ^ (-149 : ℤ))) ∧
    (⟨8, 23⟩ : Fmt).Datum (.num (-5)) := by
  refine ⟨⟨⟨3, 22, by norm_num, by decide, by decide, by norm_num⟩, by norm_num⟩,
    ⟨⟨1, -126, by norm_num, by decide, by decide, by norm_num⟩, by positivity⟩,
    ⟨⟨-5, 23, by norm_num, by decide, by decide, by norm_num⟩, by norm_num⟩⟩

/-- C01: distinct data have distinct patterns. -/
theorem C01_injective (F : Fmt) (he : 1 ≤ F.e) (hf : 2 ≤ F.f) (d d' : Val) (hd : F.Datum d) (hd' : F.Datum d')
    (h : integerCoding F d = integerCoding F d') : d = d' := by
  obtain ⟨c, h1, -, h2⟩ := C01_round_trip F he (by omega) d hd (fun _ => hf)
  obtain ⟨c', h1', -, h2'⟩ := C01_round_trip F he (by omega) d' hd' (fun _ => hf)
  rw [h1, h1'] at h
  cases h
  rw [← h2, h2']

/-- C01, the other way round: every pattern decodes to a datum, and unless it is a NaN pattern encoding that datum gives
the pattern back. -/
theorem C01_pattern_round_trip (F : Fmt) (he : 2 ≤ F.e) (hf : 1 ≤ F.f) (c : ℕ) (hc : c < 2 ^ (1 + F.e + F.f)) :
    F.Datum (valueFromCoding F c) ∧
    (valueFromCoding F c = .qNaN ∨ valueFromCoding F c = .sNaN ∨ integerCoding F (valueFromCoding F c) = .ok c) := by
  obtain ⟨s, x, m, hs, hx, hm, rfl⟩ := exists_pack F c hc
  obtain ⟨p1, p2, p3, p4, p5, p6⟩ := special_pack F hf
  have hep : 4 ≤ 2 ^ F.e := by
    calc 4 = 2 ^ 2 := rfl
      _ ≤ _ := Nat.pow_le_pow_right (by norm_num) he
  have hpz : (((2 ^ F.e : ℕ)) : ℤ) = 2 ^ F.e := by push_cast; rfl
  have hbias := emax_add F (by omega)
  have hbe := bias_eq F
  have hinv : (2 : ℚ) ^ F.f * (2 : ℚ) ^ (-(F.f : ℤ)) = 1 := by
    rw [← znat, ← zadd]; simp
  have hs' : s = 0 ∨ s = 1 := by omega
  rw [decode_pack F s x m hm hx]
  by_cases hxs : x = 2 ^ F.e - 1
  · rw [if_pos hxs]
    subst hxs
    by_cases hm0 : m = 0
    · subst hm0
      rcases hs' with rfl | rfl
      · simp [Fmt.Datum, p1]
      · simp [Fmt.Datum, p2]
    · rw [if_neg (by omega), if_neg (by omega)]
      split <;> simp [Fmt.Datum]
  · rw [if_neg hxs]
    by_cases hz : x = 0 ∧ m = 0
    · rw [if_pos hz]
      obtain ⟨rfl, rfl⟩ := hz
      rcases hs' with rfl | rfl
      · simp [Fmt.Datum, p3]
      · simp [Fmt.Datum, p4]
    · rw [if_neg hz]
      have key : ∃ (n : ℕ) (k : ℤ), 0 < n ∧ n < 2 ^ (F.f + 1) ∧ F.emin ≤ k ∧ k ≤ F.emax ∧ (2 ^ F.f ≤ n ∨ k = F.emin) ∧
          (2 : ℚ) ^ ((x : ℤ) + bias F + (if x = 0 then 1 else 0)) *
            ((if x = 0 then 0 else 1) + m * (2 : ℚ) ^ (-(F.f : ℤ))) = n * (2 : ℚ) ^ (k - F.f) ∧
          (if 2 ^ F.f ≤ n then pack F s (k - bias F).toNat (n - 2 ^ F.f) else pack F s 0 n) = pack F s x m := by
        by_cases hx0 : x = 0
        · subst hx0
          refine ⟨m, F.emin, by omega, by rw [pow_succ]; omega, le_refl _, by omega, .inr rfl, ?_, ?_⟩
          · rw [if_pos rfl, if_pos rfl, show ((0 : ℕ) : ℤ) + bias F + 1 = F.emin by push_cast; omega, zscale F.emin F.f]
            linear_combination (m : ℚ) * (2 : ℚ) ^ (F.emin - F.f) * hinv
          · rw [if_neg (by omega)]
        · refine ⟨2 ^ F.f + m, x + bias F, by omega, by rw [pow_succ]; omega, by omega, by omega, .inl (by omega), ?_, ?_⟩
          · rw [if_neg hx0, if_neg hx0, add_zero, zscale (x + bias F) F.f]
            push_cast
            linear_combination (m : ℚ) * (2 : ℚ) ^ (x + bias F - F.f) * hinv
          · rw [if_pos (by omega), show 2 ^ F.f + m - 2 ^ F.f = m by omega, add_sub_cancel_right, Int.toNat_natCast]
      obtain ⟨n, k, hn0, hn, h1, h2, hcn, hval, hpk⟩ := key
      have hp : (0 : ℚ) < (n : ℚ) * (2 : ℚ) ^ (k - F.f) :=
        mul_pos (by exact_mod_cast hn0) (zp _)
      rw [mul_assoc, hval]
      rcases hs' with rfl | rfl
      · refine ⟨⟨?_, ?_⟩, .inr (.inr ?_)⟩
        · simpa using canon_finite n k hn h1 h2
        · simpa using hp.ne'
        · show numCoding F _ = _
          rw [numCoding_canon (by omega) false n k hn0 hn h1 h2 hcn _ (by simp)]
          simp only [Bool.false_eq_true, if_false]
          rw [hpk]
      · refine ⟨⟨?_, ?_⟩, .inr (.inr ?_)⟩
        · simpa using finite_neg (canon_finite n k hn h1 h2)
        · simpa using hp.ne'
        · show numCoding F _ = _
          rw [numCoding_canon (by omega) true n k hn0 hn h1 h2 hcn _ (by simp)]
          simp only [if_true]
          rw [hpk]

example : valueFromCoding ⟨5, 10⟩ 0x3c00 = .num 1 := by
  rw [show (0x3c00 : ℕ) = pack ⟨5, 10⟩ 0 15 0 by decide, decode_pack _ _ _ _ (by norm_num) (by norm_num)]
  norm_num [bias]

/-- C01: the decoding is the one of IEEE-754, on every pattern of the format's width. -/
theorem C01_decode_ieee (F : Fmt) (he : 1 ≤ F.e) (hf : 1 ≤ F.f) (c : ℕ) (hc : c < 2 ^ (1 + F.e + F.f)) :
    valueFromCoding F c = F.decode c := by
  have hs : c / 2 ^ (F.e + F.f) ≤ 1 := by
    rw [show 1 + F.e + F.f = 1 + (F.e + F.f) by ring, pow_add, pow_one] at hc
    have := Nat.div_lt_of_lt_mul (show c < 2 ^ (F.e + F.f) * 2 by linarith)
    omega
  have hbias : bias F = -F.emax := by unfold bias Fmt.emax; ring
  have hm : c % 2 ^ F.f < 2 ^ F.f := Nat.mod_lt _ (by positivity)
  have hpf : 2 ^ F.f = 2 * 2 ^ (F.f - 1) := by
    rw [← pow_succ']; congr 1; omega
  unfold valueFromCoding Fmt.decode nanOrInfField
  simp only [Nat.and_two_pow_sub_one_eq_mod, Nat.shiftRight_eq_div_pow, add_comm F.f F.e]
  generalize hE : c / 2 ^ F.f % 2 ^ F.e = E
  generalize c % 2 ^ F.f = m at hm
  generalize c / 2 ^ (F.e + F.f) = s at hs
  have hq : m / 2 ^ (F.f - 1) ≠ 0 ↔ 2 ^ (F.f - 1) ≤ m := by
    rw [Nat.div_ne_zero_iff]
    exact ⟨fun h => h.2, fun h => ⟨(by positivity), h⟩⟩
  have hz : ∀ t : ℚ, ∀ k : ℤ, t * (2:ℚ) ^ (k - F.f) = 2 ^ k * (t * 2 ^ (-(F.f:ℤ))) := by
    intro t k; rw [sub_eq_add_neg, zpow_add₀ (by norm_num)]; ring
  by_cases h1 : E = 2 ^ F.e - 1
  · rw [if_pos h1, if_pos h1]
    by_cases h2 : m = 0
    · have : s = 0 ∨ s = 1 := by omega
      rcases this with rfl | rfl <;> simp [h2]
    · simp only [h2, false_and, if_false, hq]
  · rw [if_neg h1, if_neg h1]
    by_cases h2 : E = 0
    · by_cases h3 : m = 0
      · have : s = 0 ∨ s = 1 := by omega
        rcases this with rfl | rfl <;> simp [h2, h3]
      · rw [if_neg (fun h => h3 h.2)]
        have e1 : ((E : ℤ) + -F.emax + 1) = F.emin := by
          rw [h2]; unfold Fmt.emin; push_cast; ring
        simp only [h2, h3, if_true, if_false, hz, hbias]
        rw [h2] at e1
        rw [e1]
        have : s = 0 ∨ s = 1 := by omega
        rcases this with rfl | rfl <;> simp
    · rw [if_neg (fun h => h2 h.1)]
      have e2 : ((2:ℚ) ^ F.f + m) * 2 ^ (-(F.f:ℤ)) = 1 + m * 2 ^ (-(F.f:ℤ)) := by
        rw [add_mul, ← zpow_natCast, ← zpow_add₀ (by norm_num)]; simp
      simp only [h2, if_false, hz, hbias, e2, add_zero, ← sub_eq_add_neg]
      have : s = 0 ∨ s = 1 := by omega
      rcases this with rfl | rfl <;> simp

/-- binary16: the pattern of `-1.5` and the smallest subnormal -/
example : (⟨5, 10⟩ : Fmt).decode 0xBE00 = .num (-3 / 2) ∧ (⟨5, 10⟩ : Fmt).decode 1 = .num (1 / 2 ^ 24) := by
  decide +kernel

/-- With a single significand bit the pattern of a signaling NaN is that of minus infinity. -/
theorem C01_snan_needs_two_bits (e : ℕ) :
    integerCoding ⟨e, 1⟩ .sNaN = integerCoding ⟨e, 1⟩ .minusInf := by
  obtain ⟨-, p2, -, -, -, p6⟩ := special_pack ⟨e, 1⟩ (le_refl 1)
  rw [p2, p6]; rfl

/-! ## C02 bounds -/

theorem emin_le_emax (F : Fmt) (he : 2 ≤ F.e) : F.emin ≤ F.emax := by
  unfold Fmt.emin Fmt.emax
  have h : (2 : ℤ) ^ 1 ≤ 2 ^ (F.e - 1) := pow_le_pow_right₀ (by norm_num) (by omega)
  norm_num at h
  omega

/-- C02: `get_omega` is the largest finite number of the format, and bounds the magnitude of all. -/
theorem C02_omega_is_greatest (F : Fmt) (he : 2 ≤ F.e) :
    F.Finite (omega F) ∧ ∀ v, F.Finite v → |v| ≤ omega F := by
  constructor
  · refine ⟨2 ^ (F.f + 1) - 1, F.emax, ?_, emin_le_emax F he, le_refl _, ?_⟩
    · rw [abs_of_nonneg]
      · omega
      · have : (1 : ℤ) ≤ 2 ^ (F.f + 1) := one_le_pow₀ (by norm_num)
        omega
    · rw [omega_eq F (by omega)]; push_cast; ring
  · intro v hv
    by_cases h0 : v = 0
    · subst h0
      rw [abs_zero, omega_eq F (by omega)]
      have : (1 : ℚ) ≤ 2 ^ (F.f + 1) := one_le_pow₀ (by norm_num)
      exact mul_nonneg (by linarith) (zp _).le
    · have habs : F.Finite |v| := by
        rcases abs_choice v with h' | h' <;> rw [h']
        · exact hv
        · exact finite_neg hv
      obtain ⟨n, k, hn, -, hlt, -, hk, -⟩ := finite_canon habs (abs_pos.2 h0)
      rw [hn]
      exact canon_le_omega (by omega) n k hlt hk

/-- C02: `get_min_normal_value` is the smallest positive normal number. -/
theorem C02_min_normal (F : Fmt) (he : 2 ≤ F.e) :
    F.Normal (minNormal F) ∧ ∀ v, F.Normal v → minNormal F ≤ |v| := by
  unfold minNormal
  rw [eminNormal_eq]
  refine ⟨⟨⟨2 ^ F.f, F.emin, ?_, le_refl _, emin_le_emax F he, ?_⟩, ?_⟩, fun v hv => hv.2⟩
  · rw [abs_of_pos (by positivity)]
    exact pow_lt_pow_right₀ (by norm_num) (by omega)
  · rw [zscale F.emin F.f]; push_cast; rfl
  · rw [abs_of_pos (zp _)]

/-- C02: `get_min_subnormal_value` is the smallest positive number of the format. -/
theorem C02_min_subnormal (F : Fmt) (he : 2 ≤ F.e) :
    F.Finite (minSubnormal F) ∧ 0 < minSubnormal F ∧ ∀ v, F.Finite v → 0 < v → minSubnormal F ≤ v := by
  unfold minSubnormal
  rw [eminSub_eq]
  refine ⟨⟨1, F.emin, ?_, le_refl _, emin_le_emax F he, by simp⟩, zp _, ?_⟩
  · rw [abs_one]; exact one_lt_pow₀ (by norm_num) (by omega)
  · intro v hv h0
    obtain ⟨n, k, hn, hn0, -, hk, -⟩ := finite_canon hv h0
    rw [hn]
    have h1 : (1 : ℚ) ≤ n := by exact_mod_cast hn0
    have h2 := zle (show F.emin - F.f ≤ k - F.f by omega)
    have h3 := zp (k - F.f)
    nlinarith

/-- C02 (part that holds): every subnormal number is below `get_max_subnormal_value`. Missing: that value is not itself
subnormal, `C02_max_subnormal_is_not_subnormal`. -/
theorem C02_max_subnormal_bounds_partial (F : Fmt) (v : ℚ) (hv : F.Subnormal v) : |v| ≤ maxSubnormal F := by
  unfold maxSubnormal
  rw [eminNormal_eq]
  have h1 := hv.2.2
  have h2 := zp F.emin
  have h3 := zp (-(F.f : ℤ))
  nlinarith

example : (⟨8, 23⟩ : Fmt).Subnormal ((2 : ℚ) ^ (-140 : ℤ)) := by
  refine ⟨⟨2 ^ 9, -126, by norm_num, by decide, by decide, by norm_num⟩, (zp _).ne', ?_⟩
  rw [abs_of_pos (zp _), show (⟨8, 23⟩ : Fmt).emin = -126 by decide]
  exact zlt (by norm_num)

/-- C02 is false of `get_max_subnormal_value`: in every format the value it returns is above the smallest normal number,
while the largest subnormal number is `2^emin * (1 - 2^-f)`. -/
theorem C02_max_subnormal_is_not_subnormal (F : Fmt) (he : 2 ≤ F.e) (hf : 1 ≤ F.f) :
    ¬ F.Subnormal (maxSubnormal F) ∧ F.Subnormal ((2 : ℚ) ^ F.emin * (1 - (2 : ℚ) ^ (-(F.f : ℤ)))) ∧
    ∀ v, F.Subnormal v → |v| ≤ (2 : ℚ) ^ F.emin * (1 - (2 : ℚ) ^ (-(F.f : ℤ))) := by
  have h2 := zp F.emin
  have h3 := zp (-(F.f : ℤ))
  have hinv : (2 : ℚ) ^ F.f * (2 : ℚ) ^ (-(F.f : ℤ)) = 1 := by
    rw [← znat, ← zadd]; simp
  have hval : (2 : ℚ) ^ F.emin * (1 - (2 : ℚ) ^ (-(F.f : ℤ))) = (2 ^ F.f - 1) * (2 : ℚ) ^ (F.emin - F.f) := by
    rw [zscale F.emin F.f]
    linear_combination (-(2 : ℚ) ^ (F.emin - F.f)) * hinv
  have h2f : (2 : ℚ) ≤ 2 ^ F.f := by
    calc (2 : ℚ) = 2 ^ 1 := by norm_num
      _ ≤ _ := pow_le_pow_right₀ (by norm_num) hf
  have hq := zp (F.emin - F.f)
  refine ⟨?_, ⟨⟨2 ^ F.f - 1, F.emin, ?_, le_refl _, emin_le_emax F he, ?_⟩, ?_, ?_⟩, ?_⟩
  · intro h
    have := h.2.2
    unfold maxSubnormal at this
    rw [eminNormal_eq, abs_of_pos (by positivity)] at this
    nlinarith
  · have : (1 : ℤ) ≤ 2 ^ F.f := one_le_pow₀ (by norm_num)
    rw [abs_of_nonneg (by omega), pow_succ]
    omega
  · rw [hval]; push_cast; rfl
  · rw [hval]
    exact (mul_pos (by linarith) hq).ne'
  · rw [hval, abs_of_pos (mul_pos (by linarith) hq), zscale F.emin F.f]
    linarith
  · intro v hv
    have habs : F.Finite |v| := by
      rcases abs_choice v with h' | h' <;> rw [h']
      · exact hv.1
      · exact finite_neg hv.1
    obtain ⟨n, k, hn, hn0, hlt, hk, -, hc, hkm⟩ := finite_canon habs (abs_pos.2 hv.2.1)
    have hlog := log_lt (abs_pos.2 hv.2.1) hv.2.2
    have hke : k = F.emin := by omega
    have hn2 : (n : ℚ) < 2 ^ F.f := by
      have h5 := hv.2.2
      rw [hn, hke, zscale F.emin F.f] at h5
      exact lt_of_mul_lt_mul_right h5 hq.le
    have hn3 : (n : ℚ) ≤ 2 ^ F.f - 1 := by
      have : n < 2 ^ F.f := by exact_mod_cast hn2
      have : (n : ℚ) + 1 ≤ 2 ^ F.f := by exact_mod_cast this
      linarith
    rw [hval, hn, hke]
    exact mul_le_mul_of_nonneg_right hn3 hq.le

/-- C02: saturation keeps the numbers of the format and sends everything above the largest number to infinity. -/
theorem C02_saturate (F : Fmt) (he : 2 ≤ F.e) (v : ℚ) :
    (F.Finite v → saturate F v = .num v) ∧ (omega F < v → saturate F v = .plusInf) ∧
    (v < -omega F → saturate F v = .minusInf) := by
  have hpos : 0 < omega F := lt_of_lt_of_le (C02_min_subnormal F he).2.1
    ((le_abs_self _).trans ((C02_omega_is_greatest F he).2 _ (C02_min_subnormal F he).1))
  unfold saturate
  refine ⟨fun h => ?_, fun h => ?_, fun h => ?_⟩
  · rw [if_neg (not_lt.2 ((C02_omega_is_greatest F he).2 v h))]
  · rw [if_pos (by rw [abs_of_pos (by linarith)]; exact h), if_pos (by linarith)]
  · rw [if_pos (by rw [abs_of_neg (by linarith)]; linarith), if_neg (by linarith)]

/-! ## C60 next and previous -/

/-- A number of the format above `2^j` is a multiple of the quantum of binade `j`. -/
theorem finite_multiple {F : Fmt} {x : ℚ} (hx : F.Finite x) (hpos : 0 < x) (j : ℤ) (hj : (2 : ℚ) ^ j ≤ x) :
    ∃ z : ℤ, x = z * (2 : ℚ) ^ (j - F.f) := by
  obtain ⟨n, k, hn, -, -, -, -, -, hk⟩ := finite_canon hx hpos
  have := le_log hpos hj
  obtain ⟨c, hc⟩ := zint (show 0 ≤ k - j by omega)
  refine ⟨n * c, ?_⟩
  push_cast
  rw [hn, ← hc, mul_assoc, ← zadd]
  congr 2; ring

/-- Shape of a normal number. -/
theorem normal_canon {F : Fmt} {v : ℚ} (h : F.Normal v) (h0 : 0 < v) :
    ∃ (n : ℕ) (k : ℤ), v = n * (2 : ℚ) ^ (k - F.f) ∧ 2 ^ F.f ≤ n ∧ n < 2 ^ (F.f + 1) ∧ F.emin ≤ k ∧ k ≤ F.emax := by
  obtain ⟨n, k, hn, hn0, hlt, h1, h2, hc, hk⟩ := finite_canon h.1 h0
  refine ⟨n, k, hn, ?_, hlt, h1, h2⟩
  by_contra hcon
  have h3 := (canon_log (F := F) n k hn0 hlt).2 (by omega)
  have h4 := h.2
  rw [abs_of_pos h0] at h4
  have h5 := le_log h0 h4
  rw [← hn] at h3
  omega

theorem clog_eq {a : ℚ} {k : ℤ} (h1 : (2 : ℚ) ^ k < a) (h2 : a ≤ (2 : ℚ) ^ (k + 1)) : ceilLog2 a = k + 1 := by
  have ha : 0 < a := lt_trans (zp k) h1
  unfold ceilLog2
  have h3 := (Int.zpow_lt_iff_lt_clog (b := 2) (by norm_num) ha (x := k)).1 (by exact_mod_cast h1)
  have h4 := (Int.le_zpow_iff_clog_le (b := 2) (by norm_num) ha (x := k + 1)).1 (by exact_mod_cast h2)
  omega

/-- C60 (part that holds): for a positive normal number that is not a power of two and not the largest number, `fp_next`
returns the adjacent number above. Missing: powers of two (`C60_next_of_power_is_stuck`) and subnormal numbers
(`C60_next_of_subnormal_is_stuck`). -/
theorem C60_next_partial (F : Fmt) (he : 2 ≤ F.e) (v : ℚ) (hv : F.Normal v) (h0 : 0 < v) (hlt : v < omega F)
    (hpow : ∀ k : ℤ, v ≠ (2 : ℚ) ^ k) : ∃ w, fpNext F v = some w ∧ F.NextAfter v w := by
  obtain ⟨n, k, hn, hn1, hn2, hk1, hk2⟩ := normal_canon hv h0
  have hq := zp (k - F.f)
  have hn1' : (2 : ℚ) ^ F.f ≤ n := by exact_mod_cast hn1
  have hn2' : (n : ℚ) + 1 ≤ 2 ^ F.f * 2 := by rw [← pow_succ]; exact_mod_cast hn2
  have hlo : (2 : ℚ) ^ k ≤ v := by
    rw [zscale k F.f, hn]; exact mul_le_mul_of_nonneg_right hn1' hq.le
  have hhi : v ≤ (2 : ℚ) ^ (k + 1) := by
    rw [zsucc, zscale k F.f, hn]; nlinarith
  have hcl := clog_eq (lt_of_le_of_ne hlo (hpow k).symm) hhi
  have hulp : ulp F v = (2 : ℚ) ^ (k - F.f) := by
    unfold ulp; rw [abs_of_pos h0, hcl]; congr 1; ring
  have hsum : v + ulp F v = ((n + 1 : ℕ) : ℚ) * (2 : ℚ) ^ (k - F.f) := by
    rw [hulp, hn]; push_cast; ring
  have hfin : F.Finite (v + ulp F v) := by
    by_cases hlast : n + 1 < 2 ^ (F.f + 1)
    · rw [hsum]; exact canon_finite _ _ hlast hk1 hk2
    · have hn3 : n + 1 = 2 ^ F.f * 2 := by rw [pow_succ] at hlast hn2; omega
      have hk3 : k < F.emax := by
        rcases lt_or_eq_of_le hk2 with h | h
        · exact h
        · exfalso
          rw [omega_eq F (by omega), hn, h, pow_succ] at hlt
          have : (n : ℚ) = 2 ^ F.f * 2 - 1 := by
            have : (n : ℚ) + 1 = 2 ^ F.f * 2 := by exact_mod_cast hn3
            linarith
          rw [this] at hlt
          exact lt_irrefl _ hlt
      rw [hsum, hn3]
      refine ⟨2 ^ F.f, k + 1, ?_, by omega, by omega, ?_⟩
      · rw [abs_of_pos (by positivity)]
        exact pow_lt_pow_right₀ (by norm_num) (by omega)
      · rw [show k + 1 - (F.f : ℤ) = (k - F.f) + 1 by ring, zsucc]; push_cast; ring
  refine ⟨v + ulp F v, ?_, hfin, ?_, ?_⟩
  · exact rnd_finite (by omega) hfin
  · rw [hulp]; linarith
  · intro x hx hvx
    obtain ⟨z, hz⟩ := finite_multiple hx (by linarith) k (by linarith)
    have h1 : (n : ℚ) < z := by
      rw [hz, hn] at hvx
      exact lt_of_mul_lt_mul_right hvx hq.le
    have h2 : ((n + 1 : ℕ) : ℚ) ≤ z := by
      have : (n : ℤ) < z := by exact_mod_cast h1
      exact_mod_cast this
    rw [hsum, hz]
    exact mul_le_mul_of_nonneg_right h2 hq.le

theorem three_not_pow (k : ℤ) : (3 : ℚ) ≠ (2 : ℚ) ^ k := by
  intro h
  rcases le_or_gt k 1 with h1 | h1
  · have := zle h1; rw [← h] at this; norm_num at this
  · have := zle (show (2 : ℤ) ≤ k by omega); rw [← h] at this; norm_num at this

example : (⟨8, 23⟩ : Fmt).Normal 3 ∧ ∀ k : ℤ, (3 : ℚ) ≠ (2 : ℚ) ^ k := by
  refine ⟨⟨⟨3 * 2 ^ 20, 3, by norm_num, by decide, by decide, by norm_num⟩, ?_⟩, three_not_pow⟩
  rw [show (⟨8, 23⟩ : Fmt).emin = -126 by decide]; norm_num

/-- C60 (part that holds): for a normal number above the smallest normal one, `fp_previous` returns the adjacent number
below. Missing: the smallest normal number and the subnormal ones (`C60_previous_of_min_normal_is_stuck`). -/
theorem C60_previous_partial (F : Fmt) (he : 2 ≤ F.e) (v : ℚ) (hv : F.Normal v) (h0 : (2 : ℚ) ^ F.emin < v) :
    ∃ w, fpPrevious F v = some w ∧ F.PrevBefore v w := by
  have hpos : 0 < v := lt_trans (zp _) h0
  obtain ⟨n, k, hn, hn1, hn2, hk1, hk2⟩ := normal_canon hv hpos
  have hq := zp (k - F.f)
  have hn2' : (n : ℚ) + 1 ≤ 2 ^ F.f * 2 := by rw [← pow_succ]; exact_mod_cast hn2
  by_cases hp : n = 2 ^ F.f
  · -- a power of two: the numbers below are twice as dense
    have hvk : v = (2 : ℚ) ^ k := by rw [hn, hp, zscale k F.f]; push_cast; rfl
    have hk3 : F.emin < k := by
      by_contra hcon
      have := zle (not_lt.1 hcon)
      rw [← hvk] at this
      linarith
    have hq' := zp (k - 1 - F.f)
    have hulp : ulp F v = (2 : ℚ) ^ (k - 1 - F.f) := by
      unfold ulp ceilLog2
      have hc : Int.clog 2 |v| = k := by
        rw [abs_of_pos hpos, hvk]
        have := Int.clog_zpow (R := ℚ) (b := 2) (by norm_num) k
        exact_mod_cast this
      rw [hc]; congr 1; ring
    have hvk' : v = 2 ^ F.f * 2 * (2 : ℚ) ^ (k - 1 - F.f) := by
      rw [hvk, zscale k F.f, show k - (F.f : ℤ) = (k - 1 - F.f) + 1 by ring, zsucc]; ring
    have hdiff : v - ulp F v = (2 ^ F.f * 2 - 1) * (2 : ℚ) ^ (k - 1 - F.f) := by
      rw [hulp, hvk']; ring
    have hone : (1 : ℚ) ≤ 2 ^ F.f := one_le_pow₀ (by norm_num)
    have hfin : F.Finite (v - ulp F v) := by
      refine ⟨2 ^ F.f * 2 - 1, k - 1, ?_, by omega, by omega, by rw [hdiff]; push_cast; rfl⟩
      have : (1 : ℤ) ≤ 2 ^ F.f := one_le_pow₀ (by norm_num)
      rw [abs_of_nonneg (by omega), pow_succ]; omega
    refine ⟨v - ulp F v, rnd_finite (by omega) hfin, hfin, by rw [hulp]; linarith, ?_⟩
    intro x hx hxv
    by_contra hcon
    push Not at hcon
    have hxlo : (2 : ℚ) ^ (k - 1) ≤ x := by
      rw [hdiff] at hcon
      rw [zscale (k - 1) F.f]
      have : (2 : ℚ) ^ F.f * (2 : ℚ) ^ (k - 1 - F.f) ≤ (2 ^ F.f * 2 - 1) * (2 : ℚ) ^ (k - 1 - F.f) :=
        mul_le_mul_of_nonneg_right (by linarith) hq'.le
      linarith
    obtain ⟨z, hz⟩ := finite_multiple hx (lt_of_lt_of_le (zp _) hxlo) (k - 1) hxlo
    rw [hdiff, hz] at hcon
    rw [hvk', hz] at hxv
    have h1 : ((2 ^ F.f * 2 - 1 : ℤ) : ℚ) < z := by
      push_cast
      exact lt_of_mul_lt_mul_right hcon hq'.le
    have h2 : (z : ℚ) < ((2 ^ F.f * 2 : ℤ) : ℚ) := by
      push_cast
      exact lt_of_mul_lt_mul_right hxv hq'.le
    have h1' : (2 ^ F.f * 2 - 1 : ℤ) < z := by exact_mod_cast h1
    have h2' : z < (2 ^ F.f * 2 : ℤ) := by exact_mod_cast h2
    omega
  · have hn1' : (2 : ℚ) ^ F.f + 1 ≤ n := by
      have : 2 ^ F.f + 1 ≤ n := by omega
      exact_mod_cast this
    have hlo : (2 : ℚ) ^ k < v := by
      rw [zscale k F.f, hn]; exact mul_lt_mul_of_pos_right (by linarith) hq
    have hhi : v ≤ (2 : ℚ) ^ (k + 1) := by
      rw [zsucc, zscale k F.f, hn]; nlinarith
    have hcl := clog_eq hlo hhi
    have hulp : ulp F v = (2 : ℚ) ^ (k - F.f) := by
      unfold ulp; rw [abs_of_pos hpos, hcl]; congr 1; ring
    have hdiff : v - ulp F v = ((n - 1 : ℕ) : ℚ) * (2 : ℚ) ^ (k - F.f) := by
      have : 1 ≤ n := by
        have := Nat.one_le_two_pow (n := F.f)
        omega
      rw [hulp, hn, Nat.cast_sub this]; push_cast; ring
    have hfin : F.Finite (v - ulp F v) := by
      rw [hdiff]; exact canon_finite _ _ (by omega) hk1 hk2
    refine ⟨v - ulp F v, rnd_finite (by omega) hfin, hfin, by rw [hulp]; linarith, ?_⟩
    intro x hx hxv
    by_contra hcon
    push Not at hcon
    have hxlo : (2 : ℚ) ^ k ≤ x := by
      rw [hulp, hn] at hcon
      rw [zscale k F.f]
      nlinarith
    obtain ⟨z, hz⟩ := finite_multiple hx (lt_of_lt_of_le (zp _) hxlo) k hxlo
    rw [hdiff, hz] at hcon
    rw [hn, hz] at hxv
    have h1 := lt_of_mul_lt_mul_right hcon hq.le
    have h2 := lt_of_mul_lt_mul_right hxv hq.le
    have h1' : ((n - 1 : ℕ) : ℤ) < z := by exact_mod_cast h1
    have h2' : z < (n : ℤ) := by exact_mod_cast h2
    omega

/-- An even integer plus at most one half rounds to itself. -/
theorem rne_even (n : ℤ) (hn : n % 2 = 0) (d : ℚ) (h1 : 0 ≤ d) (h2 : d ≤ 1 / 2) : rne (n + d) = n := by
  have hf : ⌊(n : ℚ) + d⌋ = n := by
    rw [Int.floor_eq_iff]; constructor <;> linarith
  unfold rne
  simp only [hf]
  by_cases h : d < 1 / 2
  · rw [if_pos (by linarith)]
  · rw [if_neg (by linarith), if_neg (by linarith), if_pos hn]

/-- C60 is false on powers of two: in every format, `fp_next` of a normal power of two is that power of two. -/
theorem C60_next_of_power_is_stuck (F : Fmt) (he : 2 ≤ F.e) (hf : 1 ≤ F.f) (k : ℤ) (h1 : F.emin ≤ k) (h2 : k ≤ F.emax) :
    fpNext F ((2 : ℚ) ^ k) = some ((2 : ℚ) ^ k) ∧ ¬ F.NextAfter ((2 : ℚ) ^ k) ((2 : ℚ) ^ k) := by
  refine ⟨?_, fun h => lt_irrefl _ h.2.1⟩
  have hulp : ulp F ((2 : ℚ) ^ k) = 1 / 2 * (2 : ℚ) ^ (k - F.f) := by
    unfold ulp ceilLog2
    have hc : Int.clog 2 |(2 : ℚ) ^ k| = k := by
      rw [abs_of_pos (zp k)]
      have := Int.clog_zpow (R := ℚ) (b := 2) (by norm_num) k
      exact_mod_cast this
    rw [hc, show k - (F.f : ℤ) = (k - (F.f + 1)) + 1 by ring, zsucc]; ring
  have hq := zp (k - F.f)
  have hsum : (2 : ℚ) ^ k + ulp F ((2 : ℚ) ^ k) = (((2 ^ F.f : ℤ) : ℚ) + 1 / 2) * (2 : ℚ) ^ (k - F.f) := by
    rw [hulp, zscale k F.f]; push_cast; ring
  have hone : (2 : ℚ) ≤ 2 ^ F.f := by
    calc (2 : ℚ) = 2 ^ 1 := by norm_num
      _ ≤ _ := pow_le_pow_right₀ (by norm_num) hf
  have hpos : 0 < (2 : ℚ) ^ k + ulp F ((2 : ℚ) ^ k) := by
    rw [hulp]; have := zp k; linarith
  have hlog : Int.log 2 |(2 : ℚ) ^ k + ulp F ((2 : ℚ) ^ k)| = k := by
    rw [abs_of_pos hpos]
    apply log_eq
    · rw [hulp]; linarith
    · rw [zsucc, hsum, zscale k F.f]; push_cast; nlinarith
  have hr : rndUnb F ((2 : ℚ) ^ k + ulp F ((2 : ℚ) ^ k)) = (2 : ℚ) ^ k := by
    unfold rndUnb
    rw [if_neg hpos.ne']
    simp only [hlog, max_eq_left h1]
    rw [hsum, mul_div_assoc, div_self hq.ne', mul_one, rne_even _ _ _ (by norm_num) (le_refl _), zscale k F.f]
    · push_cast; rfl
    · conv_lhs => rw [show F.f = (F.f - 1) + 1 by omega]
      rw [pow_succ]; omega
  unfold fpNext rnd
  simp only [hr]
  have hfin : F.Finite ((2 : ℚ) ^ k) := by
    have := canon_finite (F := F) (2 ^ F.f) k (Nat.pow_lt_pow_right (by norm_num) (by omega)) h1 h2
    rw [zscale k F.f]; exact_mod_cast this
  rw [if_pos ((C02_omega_is_greatest F he).2 _ hfin)]

example : (⟨8, 23⟩ : Fmt).emin ≤ 0 ∧ 0 ≤ (⟨8, 23⟩ : Fmt).emax := by decide

/-- C60 is false on subnormal numbers: `fp_next` of a subnormal number of even significand is the number itself. -/
theorem C60_next_of_subnormal_is_stuck (F : Fmt) (he : 2 ≤ F.e) (n : ℕ) (hn0 : 0 < n) (hn : n < 2 ^ F.f) (heven : n % 2 = 0) :
    fpNext F (n * (2 : ℚ) ^ (F.emin - F.f)) = some (n * (2 : ℚ) ^ (F.emin - F.f)) := by
  have hq := zp (F.emin - F.f)
  set q := (2 : ℚ) ^ (F.emin - F.f) with hqdef
  have hn0' : (0 : ℚ) < n := by exact_mod_cast hn0
  have hn' : (n : ℚ) + 1 ≤ 2 ^ F.f := by exact_mod_cast hn
  have hv0 : 0 < n * q := by positivity
  have hvlt : n * q ≤ (2 : ℚ) ^ F.emin := by
    rw [zscale F.emin F.f]; nlinarith
  have hulp : ∃ d : ℚ, ulp F (n * q) = d * q ∧ 0 ≤ d ∧ d ≤ 1 / 2 := by
    refine ⟨ulp F (n * q) / q, by field_simp, ?_, ?_⟩
    · unfold ulp; have := zp (ceilLog2 |n * q| - (F.f + 1)); positivity
    · rw [div_le_iff₀ hq]
      unfold ulp
      have hc : ceilLog2 |n * q| ≤ F.emin := by
        unfold ceilLog2
        rw [abs_of_pos hv0]
        exact (Int.le_zpow_iff_clog_le (b := 2) (by norm_num) hv0).1 (by exact_mod_cast hvlt)
      have h1 := zle (show ceilLog2 |n * q| - (F.f + 1) ≤ (F.emin - F.f) - 1 by omega)
      have h2 := zsucc ((F.emin - F.f) - 1)
      rw [sub_add_cancel] at h2
      linarith
  obtain ⟨d, hd, hd0, hd1⟩ := hulp
  have hsum : n * q + ulp F (n * q) = (((n : ℤ) : ℚ) + d) * q := by rw [hd]; push_cast; ring
  have hpos : 0 < n * q + ulp F (n * q) := by rw [hsum]; push_cast; positivity
  have hlog : Int.log 2 |n * q + ulp F (n * q)| < F.emin := by
    rw [abs_of_pos hpos]
    apply log_lt hpos
    rw [hsum, zscale F.emin F.f]
    push_cast
    exact mul_lt_mul_of_pos_right (by linarith) hq
  have hr : rndUnb F (n * q + ulp F (n * q)) = n * q := by
    unfold rndUnb
    rw [if_neg hpos.ne']
    simp only [max_eq_right hlog.le]
    rw [hsum, ← hqdef, mul_div_assoc, div_self hq.ne', mul_one, rne_even _ (by omega) _ hd0 hd1]
    push_cast; rfl
  unfold fpNext rnd
  simp only [hr]
  have hfin : F.Finite (n * q) :=
    canon_finite (F := F) n F.emin (by rw [pow_succ]; omega) (le_refl _) (emin_le_emax F he)
  rw [if_pos ((C02_omega_is_greatest F he).2 _ hfin)]

example : (0 : ℕ) < 6 ∧ (6 : ℕ) < 2 ^ (⟨8, 23⟩ : Fmt).f ∧ 6 % 2 = 0 := by decide

/-- C60 is false at the smallest normal number: `fp_previous` returns it unchanged. -/
theorem C60_previous_of_min_normal_is_stuck (F : Fmt) (he : 2 ≤ F.e) (hf : 1 ≤ F.f) :
    fpPrevious F ((2 : ℚ) ^ F.emin) = some ((2 : ℚ) ^ F.emin) := by
  have hq := zp (F.emin - F.f)
  have hulp : ulp F ((2 : ℚ) ^ F.emin) = 1 / 2 * (2 : ℚ) ^ (F.emin - F.f) := by
    unfold ulp ceilLog2
    have hc : Int.clog 2 |(2 : ℚ) ^ F.emin| = F.emin := by
      rw [abs_of_pos (zp F.emin)]
      have := Int.clog_zpow (R := ℚ) (b := 2) (by norm_num) F.emin
      exact_mod_cast this
    rw [hc, show F.emin - (F.f : ℤ) = (F.emin - (F.f + 1)) + 1 by ring, zsucc]; ring
  have hdiff : (2 : ℚ) ^ F.emin - ulp F ((2 : ℚ) ^ F.emin) = (((2 ^ F.f - 1 : ℤ) : ℚ) + 1 / 2) * (2 : ℚ) ^ (F.emin - F.f) := by
    rw [hulp, zscale F.emin F.f]; push_cast; ring
  have hone : (2 : ℚ) ≤ 2 ^ F.f := by
    calc (2 : ℚ) = 2 ^ 1 := by norm_num
      _ ≤ _ := pow_le_pow_right₀ (by norm_num) hf
  have hpos : 0 < (2 : ℚ) ^ F.emin - ulp F ((2 : ℚ) ^ F.emin) := by
    rw [hdiff]; push_cast; exact mul_pos (by linarith) hq
  have hlog : Int.log 2 |(2 : ℚ) ^ F.emin - ulp F ((2 : ℚ) ^ F.emin)| < F.emin := by
    rw [abs_of_pos hpos]
    apply log_lt hpos
    rw [hulp]; linarith
  have hodd : ((2 : ℤ) ^ F.f - 1) % 2 ≠ 0 := by
    conv_lhs => rw [show F.f = (F.f - 1) + 1 by omega]
    rw [pow_succ]; omega
  have hrne : rne (((2 ^ F.f - 1 : ℤ) : ℚ) + 1 / 2) = 2 ^ F.f := by
    have hfl : ⌊((2 ^ F.f - 1 : ℤ) : ℚ) + 1 / 2⌋ = 2 ^ F.f - 1 := by
      rw [Int.floor_eq_iff]; constructor <;> linarith
    unfold rne
    simp only [hfl]
    rw [if_neg (by linarith), if_neg (by linarith), if_neg hodd]; ring
  have hr : rndUnb F ((2 : ℚ) ^ F.emin - ulp F ((2 : ℚ) ^ F.emin)) = (2 : ℚ) ^ F.emin := by
    unfold rndUnb
    rw [if_neg hpos.ne']
    simp only [max_eq_right hlog.le]
    rw [hdiff, mul_div_assoc, div_self hq.ne', mul_one, hrne, zscale F.emin F.f]
    push_cast; rfl
  unfold fpPrevious rnd
  simp only [hr]
  have hfin := (C02_min_normal F he).1.1
  unfold minNormal at hfin
  rw [eminNormal_eq] at hfin
  rw [if_pos ((C02_omega_is_greatest F he).2 _ hfin)]

end Verif.Float
