import Verif.Fixed.Lemmas

/-!
# Property theorems on fixed-point formats: C03, C04, C05, C44, C45
-/

namespace Verif.Fixed

/-! ## C03 fixed-point coding round trip -/

/-- C03 (part that holds): every non-negative value of a format is encoded, and decoding gives it back. Missing with
respect to C03: negative values, for which the code does not round trip (`C03_negative_not_round_trip`). -/
theorem C03_round_trip_nonneg_partial (f : Fmt) (hb : 1 ≤ f.bits) (v : ℚ) (hv : f.Holds v) (h0 : 0 ≤ v) :
    ∃ code, integerCoding f v = .ok code ∧ 0 ≤ code ∧ (code : ℚ) < (2 : ℚ) ^ f.bits ∧ valueFromCoding f code = v := by
  obtain ⟨hg, hlo, hhi⟩ := (holds_iff_bounds f hb v).1 hv
  obtain ⟨n, hn⟩ := hg
  have hcode : v * (2 : ℚ) ^ f.frac = (n : ℚ) := by
    rw [hn, mul_assoc, zpow_mul_neg, mul_one]
  refine ⟨n, ?_, ?_, ?_, ?_⟩
  · unfold integerCoding
    rw [if_neg (by rintro (h | h) <;> linarith), if_neg (by linarith), hcode, pyInt_intCast]
  · have : (0 : ℚ) ≤ n := by
      rw [← hcode]; exact mul_nonneg h0 (two_zpow_pos _).le
    exact_mod_cast this
  · rw [← hcode]
    have hvlt : v < (2 : ℚ) ^ f.int := by
      rw [maxValue_eq] at hhi
      have h1 := two_zpow_pos (-f.frac)
      have h2 : (2 : ℚ) ^ (if f.signed then f.int - 1 else f.int) ≤ (2 : ℚ) ^ f.int :=
        two_zpow_le (by split <;> omega)
      linarith
    unfold Fmt.bits
    rw [zpow_add₀ (by norm_num)]
    exact mul_lt_mul_of_pos_right hvlt (two_zpow_pos _)
  · unfold valueFromCoding; rw [hn]

example : (⟨4, 3, true⟩ : Fmt).Holds (5 / 2) ∧ (0 : ℚ) ≤ 5 / 2 := by
  refine ⟨⟨⟨20, by norm_num⟩, ?_⟩, by norm_num⟩
  norm_num

/-- C03 for negative values: encoding succeeds, the code fits in the bit size, but decoding returns the value plus
`2^int_size`, never the value itself. This is what the code does, and it violates C03. -/
theorem C03_negative_off_by_modulus (f : Fmt) (hb : 1 ≤ f.bits) (v : ℚ) (hv : f.Holds v) (h0 : v < 0) :
    ∃ code, integerCoding f v = .ok code ∧ 0 ≤ code ∧ (code : ℚ) < (2 : ℚ) ^ f.bits ∧
      valueFromCoding f code = v + (2 : ℚ) ^ f.int := by
  obtain ⟨hg, hlo, hhi⟩ := (holds_iff_bounds f hb v).1 hv
  have hs : f.signed = true := by
    rw [minValue_eq] at hlo
    by_contra h
    rw [if_neg h] at hlo
    linarith
  obtain ⟨n, hn⟩ := hg
  have hp := two_zpow_pos (-f.frac)
  have hcode : |v| * (2 : ℚ) ^ f.frac = ((-n : ℤ) : ℚ) := by
    rw [abs_of_neg h0, hn, neg_mul, mul_assoc, zpow_mul_neg]; push_cast; ring
  have hbn : f.bits = (f.bits.toNat : ℤ) := by omega
  have hneg : n < 0 := by
    have : (n : ℚ) < 0 := by
      by_contra h
      push Not at h
      have := mul_nonneg h hp.le
      linarith
    exact_mod_cast this
  have hmin : -(2 : ℤ) ^ f.bits.toNat < n := by
    rw [minValue_eq, if_pos hs, hn] at hlo
    have h1 : -(2 : ℚ) ^ (f.bits - 1) ≤ n := by
      have h2 : (2 : ℚ) ^ (f.int - 1) = (2 : ℚ) ^ (f.bits - 1) * (2 : ℚ) ^ (-f.frac) := by
        rw [← zpow_add₀ (by norm_num)]; unfold Fmt.bits; congr 1; ring
      rw [h2, ← neg_mul] at hlo
      exact le_of_mul_le_mul_right hlo hp
    have h3 : (2 : ℚ) ^ (f.bits - 1) < (2 : ℚ) ^ f.bits := by
      rw [two_zpow_pred f.bits]
      have := two_zpow_pos (f.bits - 1)
      linarith
    have h4 : -((2 : ℚ) ^ f.bits.toNat) < n := by
      rw [zpow_toNat _ (by omega)]; linarith
    exact_mod_cast h4
  have hemod : n % (2 : ℤ) ^ f.bits.toNat = n + 2 ^ f.bits.toNat := by
    rw [← Int.add_emod_right, Int.emod_eq_of_lt (by omega) (by omega)]
  have hcast : ((2 : ℤ) ^ f.bits.toNat : ℚ) = (2 : ℚ) ^ f.bits := by
    push_cast; exact zpow_toNat _ (by omega)
  refine ⟨n + 2 ^ f.bits.toNat, ?_, by omega, ?_, ?_⟩
  · unfold integerCoding
    rw [if_neg (by rintro (h | h) <;> linarith), if_pos h0, if_neg (by simp [hs]), hcode, pyInt_intCast, neg_neg, hemod]
  · have : ((n + 2 ^ f.bits.toNat : ℤ) : ℚ) < ((2 ^ f.bits.toNat : ℤ) : ℚ) := by exact_mod_cast (by omega)
    calc ((n + 2 ^ f.bits.toNat : ℤ) : ℚ) < ((2 ^ f.bits.toNat : ℤ) : ℚ) := this
      _ = (2 : ℚ) ^ f.bits := by push_cast; exact zpow_toNat _ (by omega)
  · unfold valueFromCoding
    push_cast
    rw [zpow_toNat _ (by omega), add_mul, ← hn, ← zpow_add₀ (by norm_num)]
    unfold Fmt.bits
    congr 2; ring

example : (⟨8, 0, true⟩ : Fmt).Holds (-1) ∧ (-1 : ℚ) < 0 := by
  refine ⟨⟨⟨-1, by norm_num⟩, ?_⟩, by norm_num⟩
  norm_num

/-- The full C03 is false of the code: no negative value of a format survives encoding and decoding. -/
theorem C03_negative_not_round_trip :
    ¬ ∀ (f : Fmt) (v : ℚ), 1 ≤ f.bits → f.Holds v →
      ∃ code, integerCoding f v = .ok code ∧ valueFromCoding f code = v := by
  intro h
  have hv : (⟨8, 0, true⟩ : Fmt).Holds (-1) := ⟨⟨-1, by norm_num⟩, by norm_num⟩
  obtain ⟨c, hc, hd⟩ := h ⟨8, 0, true⟩ (-1) (by decide) hv
  obtain ⟨c', hc', _, _, hd'⟩ := C03_negative_off_by_modulus ⟨8, 0, true⟩ (by decide) (-1) hv (by norm_num)
  rw [hc] at hc'
  cases hc'
  rw [hd] at hd'
  norm_num at hd'

/-- C03: encoding is injective on the values of a format, so the integer coding itself loses nothing. -/
theorem C03_coding_injective (f : Fmt) (hb : 1 ≤ f.bits) (v w : ℚ) (hv : f.Holds v) (hw : f.Holds w)
    (h : integerCoding f v = integerCoding f w) : v = w := by
  have step : ∀ x, f.Holds x → ∃ c, integerCoding f x = .ok c ∧
      (valueFromCoding f c = x ∨ valueFromCoding f c = x + (2 : ℚ) ^ f.int) ∧
      (valueFromCoding f c = x ↔ 0 ≤ x) := by
    intro x hx
    by_cases h0 : 0 ≤ x
    · obtain ⟨c, h1, _, _, h2⟩ := C03_round_trip_nonneg_partial f hb x hx h0
      exact ⟨c, h1, .inl h2, by simp [h2, h0]⟩
    · obtain ⟨c, h1, _, _, h2⟩ := C03_negative_off_by_modulus f hb x hx (by linarith)
      refine ⟨c, h1, .inr h2, ?_⟩
      have := two_zpow_pos f.int
      constructor
      · intro h3; rw [h2] at h3; linarith
      · intro h3; exact absurd h3 h0
  have hrange : ∀ x, f.Holds x → 0 ≤ x → f.signed = true → x < (2 : ℚ) ^ (f.int - 1) := by
    intro x hx _ hs
    have := hx.2
    rw [if_pos hs] at this
    exact this.2
  have hrangeN : ∀ x, f.Holds x → x < 0 → f.signed = true ∧ -(2 : ℚ) ^ (f.int - 1) ≤ x := by
    intro x hx h0
    have := hx.2
    by_cases hs : f.signed = true
    · rw [if_pos hs] at this; exact ⟨hs, this.1⟩
    · rw [if_neg hs] at this; exact absurd this.1 (by linarith)
  obtain ⟨c, hc, hc1, hc2⟩ := step v hv
  obtain ⟨d, hd, hd1, hd2⟩ := step w hw
  rw [hc, hd] at h
  cases h
  have h2 := two_zpow_pred f.int
  by_cases hv0 : 0 ≤ v <;> by_cases hw0 : 0 ≤ w
  · rw [← hc2.2 hv0, hd2.2 hw0]
  · obtain ⟨hs, hb'⟩ := hrangeN w hw (by linarith)
    have h3 := hrange v hv hv0 hs
    rcases hd1 with h4 | h4
    · exact absurd (hd2.1 h4) hw0
    · rw [hc2.2 hv0] at h4; linarith
  · obtain ⟨hs, hb'⟩ := hrangeN v hv (by linarith)
    have h3 := hrange w hw hw0 hs
    rcases hc1 with h4 | h4
    · exact absurd (hc2.1 h4) hv0
    · rw [hd2.2 hw0] at h4; linarith
  · rcases hc1 with h4 | h4
    · exact absurd (hc2.1 h4) hv0
    · rcases hd1 with h5 | h5
      · exact absurd (hd2.1 h5) hw0
      · linarith

/-- C03: a value outside the range is rejected rather than silently encoded. -/
theorem C03_out_of_range_rejected (f : Fmt) (v : ℚ) (h : maxValue f < v ∨ v < minValue f) :
    integerCoding f v = .error .outOfRange := by
  unfold integerCoding
  rw [if_pos h]

/-! ## C04 range, saturation, truncation -/

/-- C04: `get_max_value` is the largest value of the format. -/
theorem C04_max_is_greatest (f : Fmt) (hb : 1 ≤ f.bits) :
    f.Holds (maxValue f) ∧ ∀ v, f.Holds v → v ≤ maxValue f := by
  refine ⟨?_, fun v hv => ((holds_iff_bounds f hb v).1 hv).2.2⟩
  rw [holds_iff_bounds f hb]
  refine ⟨?_, ?_, le_refl _⟩
  · rw [maxValue_eq]
    unfold Fmt.bits at hb
    exact (OnGrid.pow (by split <;> omega)).sub (OnGrid.pow (le_refl _))
  · rw [minValue_eq, maxValue_eq]
    unfold Fmt.bits at hb
    have h2 : (2 : ℚ) ^ (-f.frac) ≤ (2 : ℚ) ^ (if f.signed then f.int - 1 else f.int) :=
      two_zpow_le (by split <;> omega)
    have := two_zpow_pos (f.int - 1)
    cases hs : f.signed <;> simp only [hs, Bool.false_eq_true, if_false, if_true] at h2 ⊢ <;> linarith

/-- C04: `get_min_value` is the smallest value of the format. -/
theorem C04_min_is_least (f : Fmt) (hb : 1 ≤ f.bits) :
    f.Holds (minValue f) ∧ ∀ v, f.Holds v → minValue f ≤ v := by
  refine ⟨?_, fun v hv => ((holds_iff_bounds f hb v).1 hv).2.1⟩
  rw [holds_iff_bounds f hb]
  have hle : minValue f ≤ maxValue f := ((holds_iff_bounds f hb _).1 (C04_max_is_greatest f hb).1).2.1
  refine ⟨?_, le_refl _, hle⟩
  rw [minValue_eq]
  unfold Fmt.bits at hb
  split
  · exact (OnGrid.pow (by omega)).neg
  · exact ⟨0, by simp⟩

example : (1 : ℤ) ≤ (⟨3, 2, true⟩ : Fmt).bits ∧ maxValue ⟨3, 2, true⟩ = 15 / 4 ∧ minValue ⟨3, 2, true⟩ = -4 := by
  refine ⟨by decide, ?_, ?_⟩
  · rw [maxValue_eq]; norm_num
  · rw [minValue_eq]; norm_num

/-- C04: saturation lands in the range, is the identity on the range, and returns the nearest bound outside. -/
theorem C04_saturate (f : Fmt) (hb : 1 ≤ f.bits) (v : ℚ) :
    minValue f ≤ saturate f v ∧ saturate f v ≤ maxValue f ∧
    (minValue f ≤ v → v ≤ maxValue f → saturate f v = v) ∧
    (maxValue f < v → saturate f v = maxValue f) ∧ (v < minValue f → saturate f v = minValue f) := by
  have hle : minValue f ≤ maxValue f := (C04_min_is_least f hb).2 _ (C04_max_is_greatest f hb).1
  unfold saturate
  refine ⟨le_min (le_max_right _ _) hle, min_le_right _ _, ?_, ?_, ?_⟩
  · intro h1 h2; rw [max_eq_left h1, min_eq_left h2]
  · intro h; rw [max_eq_left (by linarith), min_eq_right h.le]
  · intro h; rw [max_eq_right h.le, min_eq_left hle]

/-- C04: saturating a grid value gives a value of the format. -/
theorem C04_saturate_holds (f : Fmt) (hb : 1 ≤ f.bits) (v : ℚ) (hg : OnGrid f.frac v) : f.Holds (saturate f v) := by
  obtain ⟨h1, h2, hid, hhi, hlo⟩ := C04_saturate f hb v
  rcases lt_or_ge (maxValue f) v with h | h
  · rw [hhi h]; exact (C04_max_is_greatest f hb).1
  · rcases lt_or_ge v (minValue f) with h' | h'
    · rw [hlo h']; exact (C04_min_is_least f hb).1
    · rw [holds_iff_bounds f hb]
      exact ⟨by rw [hid h' h]; exact hg, h1, h2⟩

/-- C04: truncation of a grid value wraps it around: the result is a value of the format and differs from the input by
a multiple of `2^int_size`. -/
theorem C04_truncate_wraps (f : Fmt) (hb : 1 ≤ f.bits) (v : ℚ) (hg : OnGrid f.frac v) :
    f.Holds (truncate f v) ∧ ∃ k : ℤ, v = truncate f v + k * (2 : ℚ) ^ f.int := by
  obtain ⟨n, hn⟩ := hg
  have hp := two_zpow_pos (-f.frac)
  have hcode : v * (2 : ℚ) ^ f.frac = (n : ℚ) := by
    rw [hn, mul_assoc, zpow_mul_neg, mul_one]
  have hpow : ((2 : ℤ) ^ f.bits.toNat : ℤ) > 0 := by positivity
  have hm0 := Int.emod_nonneg n hpow.ne'
  have hm1 := Int.emod_lt_of_pos n hpow
  have hdiv := Int.emod_add_mul_ediv n ((2 : ℤ) ^ f.bits.toNat)
  set m := n % (2 : ℤ) ^ f.bits.toNat with hm
  set q := n / (2 : ℤ) ^ f.bits.toNat with hq
  have hscale : (2 : ℚ) ^ f.int = (2 : ℚ) ^ f.bits.toNat * (2 : ℚ) ^ (-f.frac) := by
    rw [zpow_toNat _ (by omega), ← zpow_add₀ (by norm_num)]; unfold Fmt.bits; congr 1; ring
  have hv : v = (m : ℚ) * (2 : ℚ) ^ (-f.frac) + q * (2 : ℚ) ^ f.int := by
    rw [hscale, hn, ← hdiv]; push_cast; ring
  have hmlt : (m : ℚ) * (2 : ℚ) ^ (-f.frac) < (2 : ℚ) ^ f.int := by
    rw [hscale]
    apply mul_lt_mul_of_pos_right _ hp
    exact_mod_cast hm1
  have hmge : (0 : ℚ) ≤ (m : ℚ) * (2 : ℚ) ^ (-f.frac) := mul_nonneg (by exact_mod_cast hm0) hp.le
  have hgi : OnGrid f.frac ((2 : ℚ) ^ f.int) := OnGrid.pow (by unfold Fmt.bits at hb; omega)
  have htr : truncate f v = if (m : ℚ) * (2 : ℚ) ^ (-f.frac) > maxValue f
      then (m : ℚ) * (2 : ℚ) ^ (-f.frac) - (2 : ℚ) ^ f.int else (m : ℚ) * (2 : ℚ) ^ (-f.frac) := by
    unfold truncate
    simp only [hcode, pyInt_intCast]
    rfl
  have hmg : OnGrid f.frac ((m : ℚ) * (2 : ℚ) ^ (-f.frac)) := ⟨m, rfl⟩
  by_cases hgt : (m : ℚ) * (2 : ℚ) ^ (-f.frac) > maxValue f
  · rw [htr, if_pos hgt]
    refine ⟨?_, q + 1, by rw [hv]; push_cast; ring⟩
    rw [holds_iff_bounds f hb]
    refine ⟨hmg.sub hgi, ?_, ?_⟩
    · rw [maxValue_eq] at hgt
      rw [minValue_eq]
      by_cases hs : f.signed = true
      · rw [if_pos hs] at hgt ⊢
        have h3 : OnGrid f.frac ((2 : ℚ) ^ (f.int - 1) - (2 : ℚ) ^ (-f.frac)) :=
          (OnGrid.pow (by unfold Fmt.bits at hb; omega)).sub (OnGrid.pow (le_refl _))
        have h4 := h3.lt_step hmg hgt
        have h5 := two_zpow_pred f.int
        linarith
      · rw [if_neg hs] at hgt
        have := hmg.lt_step hgi hmlt
        linarith
    · have h1 := ((holds_iff_bounds f hb _).1 (C04_max_is_greatest f hb).1).2.1
      have h2 : minValue f ≤ 0 := by
        rw [minValue_eq]; split
        · have := two_zpow_pos (f.int - 1); linarith
        · exact le_refl _
      have h0 : (0 : ℚ) ≤ maxValue f := by
        rw [maxValue_eq]
        unfold Fmt.bits at hb
        have : (2 : ℚ) ^ (-f.frac) ≤ (2 : ℚ) ^ (if f.signed then f.int - 1 else f.int) :=
          two_zpow_le (by split <;> omega)
        linarith
      linarith
  · rw [htr, if_neg hgt]
    refine ⟨?_, q, hv⟩
    rw [holds_iff_bounds f hb]
    refine ⟨hmg, ?_, by linarith⟩
    rw [minValue_eq]; split
    · have := two_zpow_pos (f.int - 1); linarith
    · exact hmge

example : truncate ⟨4, 1, true⟩ (17 / 2) = -15 / 2 := by
  unfold truncate
  simp only
  rw [show (17 / 2 : ℚ) * 2 ^ (1 : ℤ) = ((17 : ℤ) : ℚ) by norm_num, pyInt_intCast, maxValue_eq]
  norm_num [show (17 : ℤ) % 2 ^ (⟨4, 1, true⟩ : Fmt).bits.toNat = 17 by decide]

/-- C04: truncation leaves the values of the format unchanged. -/
theorem C04_truncate_id (f : Fmt) (hb : 1 ≤ f.bits) (v : ℚ) (hv : f.Holds v) : truncate f v = v := by
  obtain ⟨ht, k, hk⟩ := C04_truncate_wraps f hb v hv.1
  have h1 := ht.2
  have h2 := hv.2
  have hp := two_zpow_pos f.int
  have hpred := two_zpow_pred f.int
  have hk0 : k = 0 := by
    have hlt : |(k : ℚ)| * (2 : ℚ) ^ f.int < (2 : ℚ) ^ f.int := by
      have h3 : (k : ℚ) * (2 : ℚ) ^ f.int = v - truncate f v := by linarith
      rw [← abs_of_pos hp, ← abs_mul, h3, abs_of_pos hp, abs_lt]
      cases hs : f.signed <;> simp only [hs, Bool.false_eq_true, if_false, if_true] at h1 h2 <;>
        constructor <;> linarith
    have h4 : |(k : ℚ)| < 1 := by
      by_contra h
      push Not at h
      have := mul_le_mul_of_nonneg_right h hp.le
      linarith
    rw [abs_lt] at h4
    have h5 : (-1 : ℤ) < k := by exact_mod_cast h4.1
    have h6 : k < 1 := by exact_mod_cast h4.2
    omega
  rw [hk0] at hk
  simp at hk
  exact hk.symm

/-! ## C05 software container -/

/-- C05: when a container is chosen it is one of the available sizes, at least the bit size, and no smaller available
size would do. -/
theorem C05_container_smallest (int frac : ℤ) (c : ℕ) (h : cBitSize int frac = some c) :
    c ∈ possibleSizes ∧ int + frac ≤ c ∧ ∀ n ∈ possibleSizes, int + frac ≤ n → c ≤ n := by
  unfold cBitSize at h
  simp only at h
  split at h
  · cases h
  · rw [List.min?_eq_some_iff] at h
    obtain ⟨hm, hle⟩ := h
    rw [List.mem_filter] at hm
    refine ⟨hm.1, by simpa using hm.2, fun n hn hb => hle n ?_⟩
    rw [List.mem_filter]
    exact ⟨hn, by simpa using hb⟩

/-- C05: a container exists exactly for bit sizes 1 to 128. -/
theorem C05_container_exists_iff (int frac : ℤ) :
    (∃ c, cBitSize int frac = some c) ↔ 1 ≤ int + frac ∧ int + frac ≤ 128 := by
  constructor
  · rintro ⟨c, h⟩
    unfold cBitSize at h
    simp only at h
    split at h
    · cases h
    · omega
  · rintro ⟨h1, h2⟩
    unfold cBitSize
    simp only
    rw [if_neg (by omega)]
    cases hm : (possibleSizes.filter (fun n : ℕ => decide (int + frac ≤ (n : ℤ)))).min? with
    | some c => exact ⟨c, rfl⟩
    | none =>
      rw [List.min?_eq_none_iff, List.filter_eq_nil_iff] at hm
      have := hm 128 (by decide)
      simp at this
      omega

example : cBitSize 10 7 = some 32 := by decide
example : cBitSize 100 29 = none := by decide

/-! ## C44 datapath sizing -/

/-- C44 multiplication: the inferred format holds every product. -/
theorem C44_mul_no_overflow (l r : Fmt) (v w : ℚ) (hv : l.Holds v) (hw : r.Holds w) :
    (solveMul l r).Holds (v * w) := by
  refine ⟨hv.1.mul hw.1, ?_⟩
  have h1 := hv.2
  have h2 := hw.2
  have hpl := two_zpow_pos l.int
  have hpr := two_zpow_pos r.int
  have hpl' := two_zpow_pos (l.int - 1)
  have hpr' := two_zpow_pos (r.int - 1)
  have hel := two_zpow_pred l.int
  have her := two_zpow_pred r.int
  unfold solveMul
  cases hl : l.signed <;> cases hr : r.signed <;>
    simp only [hl, hr, Bool.false_eq_true, if_false, if_true, Bool.or_self, Bool.or_true, Bool.or_false,
      Bool.xor_true, Bool.xor_false, Bool.not_false, bne_self_eq_false, add_zero] at h1 h2 ⊢
  · rw [zpow_add₀ (by norm_num)]
    exact ⟨mul_nonneg h1.1 h2.1, by nlinarith⟩
  · rw [add_sub_cancel_right, zpow_add₀ (by norm_num)]
    have h3 : v * w ≤ v * (2 : ℚ) ^ (r.int - 1) := mul_le_mul_of_nonneg_left h2.2.le h1.1
    have h4 : v * (-(2 : ℚ) ^ (r.int - 1)) ≤ v * w := mul_le_mul_of_nonneg_left h2.1 h1.1
    have h5 : v * (2 : ℚ) ^ (r.int - 1) < (2 : ℚ) ^ l.int * (2 : ℚ) ^ (r.int - 1) := mul_lt_mul_of_pos_right h1.2 hpr'
    have h6 : (0 : ℚ) < (2 : ℚ) ^ l.int * (2 : ℚ) ^ (r.int - 1) := by positivity
    rw [her]
    constructor <;> linarith
  · rw [add_sub_cancel_right, zpow_add₀ (by norm_num)]
    have h3 : v * w ≤ (2 : ℚ) ^ (l.int - 1) * w := mul_le_mul_of_nonneg_right h1.2.le h2.1
    have h4 : (-(2 : ℚ) ^ (l.int - 1)) * w ≤ v * w := mul_le_mul_of_nonneg_right h1.1 h2.1
    have h5 : (2 : ℚ) ^ (l.int - 1) * w < (2 : ℚ) ^ (l.int - 1) * (2 : ℚ) ^ r.int := mul_lt_mul_of_pos_left h2.2 hpl'
    have h6 : (0 : ℚ) < (2 : ℚ) ^ (l.int - 1) * (2 : ℚ) ^ r.int := by positivity
    rw [hel]
    constructor <;> linarith
  · have he : (2 : ℚ) ^ (l.int + r.int - 1) = 2 * ((2 : ℚ) ^ (l.int - 1) * (2 : ℚ) ^ (r.int - 1)) := by
      rw [← zpow_add₀ (by norm_num), ← two_zpow_succ]; congr 1; ring
    have ha : |v * w| ≤ (2 : ℚ) ^ (l.int - 1) * (2 : ℚ) ^ (r.int - 1) := by
      rw [abs_mul]
      exact mul_le_mul (abs_le.2 ⟨h1.1, h1.2.le⟩) (abs_le.2 ⟨h2.1, h2.2.le⟩) (abs_nonneg _) hpl'.le
    have h6 : (0 : ℚ) < (2 : ℚ) ^ (l.int - 1) * (2 : ℚ) ^ (r.int - 1) := by positivity
    rw [abs_le] at ha
    rw [he]
    constructor <;> linarith

example : (⟨4, 0, true⟩ : Fmt).Holds (-8) ∧ (⟨4, 0, false⟩ : Fmt).Holds 15 :=
  ⟨⟨⟨-8, by norm_num⟩, by norm_num⟩, ⟨15, by norm_num⟩, by norm_num⟩

/-- Operands on grids give sums on the finer grid. -/
theorem sum_grid {l r : Fmt} {v w : ℚ} (hv : l.Holds v) (hw : r.Holds w) :
    OnGrid (max l.frac r.frac) (v + w) ∧ OnGrid (max l.frac r.frac) (v - w) :=
  ⟨(hv.1.mono (le_max_left _ _)).add (hw.1.mono (le_max_right _ _)),
   (hv.1.mono (le_max_left _ _)).sub (hw.1.mono (le_max_right _ _))⟩

theorem holds_upper {f : Fmt} {v : ℚ} (hv : f.Holds v) : v < (2 : ℚ) ^ f.int := by
  have h := hv.2
  by_cases hs : f.signed = true
  · rw [if_pos hs] at h
    have := two_zpow_pred f.int
    have := two_zpow_pos (f.int - 1)
    linarith
  · rw [if_neg hs] at h; exact h.2

/-- C44 addition (part that holds). The inferred format holds every sum in each of these situations: both operands have
the same signedness and no range is known; a range is known and it shows the sum to be non-negative; the signednesses
differ, no range is known, and the signed operand has more integer bits than the unsigned one.
Missing with respect to C44: operands of different signedness in general, see `C44_add_mixed_overflow`. -/
theorem C44_add_no_overflow_partial (l r : Fmt) (v w : ℚ) (hv : l.Holds v) (hw : r.Holds w) (range : Option Range)
    (hrange : ∀ lo hi, range = some (lo, hi) → lo ≤ v + w ∧ v + w ≤ hi)
    (hcase : (range = none ∧ l.signed = r.signed) ∨ (∃ lo hi, range = some (lo, hi) ∧ 0 ≤ lo) ∨
      (range = none ∧ l.signed = true ∧ r.signed = false ∧ r.int < l.int) ∨
      (range = none ∧ l.signed = false ∧ r.signed = true ∧ l.int < r.int)) :
    (solveAdd l r range).Holds (v + w) := by
  refine ⟨(sum_grid hv hw).1, ?_⟩
  have h1 := hv.2
  have h2 := hw.2
  have hl := two_zpow_le (le_max_left l.int r.int)
  have hr := two_zpow_le (le_max_right l.int r.int)
  have hl' := two_zpow_le (sub_le_sub_right (le_max_left l.int r.int) 1)
  have hr' := two_zpow_le (sub_le_sub_right (le_max_right l.int r.int) 1)
  have hs := two_zpow_succ (max l.int r.int)
  have hp := two_zpow_pred (max l.int r.int)
  have hpos := two_zpow_pos (max l.int r.int - 1)
  rcases hcase with ⟨rfl, hsg⟩ | ⟨lo, hi, rfl, hlo⟩ | ⟨rfl, hls, hrs, hlt⟩ | ⟨rfl, hls, hrs, hlt⟩
  · unfold solveAdd addsubSigned
    cases hls : l.signed <;> rw [hls] at hsg <;> rw [← hsg] at h2 ⊢ <;>
      simp only [hls, Bool.false_eq_true, if_false, if_true, Bool.or_self] at h1 h2 ⊢
    · constructor <;> linarith
    · rw [add_sub_cancel_right]; constructor <;> linarith
  · have hq := (hrange lo hi rfl).1
    unfold solveAdd addsubSigned
    simp only [not_lt.2 hlo, if_false]
    have hu := holds_upper hv
    have hu' := holds_upper hw
    simp only [Bool.false_eq_true, if_false]
    constructor <;> linarith
  · unfold solveAdd addsubSigned
    simp only [hls, hrs, Bool.false_eq_true, if_false, if_true, Bool.or_false] at h1 h2 ⊢
    rw [add_sub_cancel_right]
    have := two_zpow_le (show r.int ≤ max l.int r.int - 1 by omega)
    constructor <;> linarith
  · unfold solveAdd addsubSigned
    simp only [hls, hrs, Bool.false_eq_true, if_false, if_true, Bool.or_true] at h1 h2 ⊢
    rw [add_sub_cancel_right]
    have := two_zpow_le (show l.int ≤ max l.int r.int - 1 by omega)
    constructor <;> linarith

example : (⟨8, 0, true⟩ : Fmt).Holds (-128) ∧ (solveAdd ⟨8, 0, true⟩ ⟨8, 0, true⟩ none).Holds (-256) := by
  constructor
  · exact ⟨⟨-128, by norm_num⟩, by norm_num⟩
  · exact ⟨⟨-256, by simp [solveAdd]⟩, by norm_num [solveAdd, addsubSigned]⟩

/-- C44 is false for additions of mixed signedness: 8-bit unsigned 255 plus 8-bit signed 127 does not fit the inferred
format. -/
theorem C44_add_mixed_overflow :
    ¬ ∀ (l r : Fmt) (v w : ℚ), l.Holds v → r.Holds w → (solveAdd l r none).Holds (v + w) := by
  intro h
  have := h ⟨8, 0, false⟩ ⟨8, 0, true⟩ 255 127 ⟨⟨255, by norm_num⟩, by norm_num⟩ ⟨⟨127, by norm_num⟩, by norm_num⟩
  have := this.2
  norm_num [solveAdd, addsubSigned] at this

/-- C44 subtraction (part that holds): unsigned minus unsigned always fits, signed result or not, as does any
subtraction whose range is known non-negative when the left operand is unsigned, or the right operand is unsigned too.
Missing with respect to C44: a signed left operand (`C44_sub_signed_overflow`), or unsigned minus signed
(`C44_sub_unsigned_signed_overflow`). -/
theorem C44_sub_no_overflow_partial (l r : Fmt) (v w : ℚ) (hv : l.Holds v) (hw : r.Holds w) (range : Option Range)
    (hrange : ∀ lo hi, range = some (lo, hi) → lo ≤ v - w ∧ v - w ≤ hi)
    (hl : l.signed = false) (hr : r.signed = false) :
    (solveSub l r range).Holds (v - w) := by
  refine ⟨(sum_grid hv hw).2, ?_⟩
  have h1 := hv.2
  have h2 := hw.2
  have hl' := two_zpow_le (le_max_left l.int r.int)
  have hr' := two_zpow_le (le_max_right l.int r.int)
  have hs := two_zpow_succ (max l.int r.int)
  have hpos := two_zpow_pos (max l.int r.int)
  simp only [hl, hr, Bool.false_eq_true, if_false] at h1 h2
  unfold solveSub addsubSigned
  simp only [hl, Bool.not_false, if_true]
  cases range with
  | none =>
    simp only [if_true, add_sub_cancel_right]
    constructor <;> linarith
  | some p =>
    obtain ⟨lo, hi⟩ := p
    have hq := hrange lo hi rfl
    simp only
    by_cases hlo : lo < 0
    · simp only [hlo, if_true, add_sub_cancel_right]
      constructor <;> linarith
    · simp only [hlo, if_false, Bool.false_eq_true]
      push Not at hlo
      constructor <;> linarith

example : (⟨8, 0, false⟩ : Fmt).Holds 0 ∧ (⟨8, 2, false⟩ : Fmt).Holds (1 / 4) :=
  ⟨⟨⟨0, by norm_num⟩, by norm_num⟩, ⟨1, by norm_num⟩, by norm_num⟩

/-- C44 is false for signed subtractions: -128 - 127 does not fit the inferred 8-bit signed format. -/
theorem C44_sub_signed_overflow :
    ¬ ∀ (l r : Fmt) (v w : ℚ), l.signed = true → r.signed = true → l.Holds v → r.Holds w →
      (solveSub l r none).Holds (v - w) := by
  intro h
  have := h ⟨8, 0, true⟩ ⟨8, 0, true⟩ (-128) 127 rfl rfl ⟨⟨-128, by norm_num⟩, by norm_num⟩
    ⟨⟨127, by norm_num⟩, by norm_num⟩
  have := this.2
  norm_num [solveSub, addsubSigned] at this

/-- C44 is false for unsigned minus signed: 255 - (-128) does not fit the inferred 9-bit signed format. -/
theorem C44_sub_unsigned_signed_overflow :
    ¬ ∀ (l r : Fmt) (v w : ℚ), l.signed = false → r.signed = true → l.Holds v → r.Holds w →
      (solveSub l r none).Holds (v - w) := by
  intro h
  have := h ⟨8, 0, false⟩ ⟨8, 0, true⟩ 255 (-128) rfl rfl ⟨⟨255, by norm_num⟩, by norm_num⟩
    ⟨⟨-128, by norm_num⟩, by norm_num⟩
  have := this.2
  norm_num [solveSub, addsubSigned] at this

/-- C44 negation (part that holds): the inferred format holds the opposite of every operand, except of the least value
of a signed format. Missing: that least value, see `C44_neg_overflow`. -/
theorem C44_neg_no_overflow_partial (x : Fmt) (v : ℚ) (hv : x.Holds v)
    (hmin : x.signed = true → v ≠ -(2 : ℚ) ^ (x.int - 1)) : (solveNeg x).Holds (-v) := by
  refine ⟨hv.1.neg, ?_⟩
  have h1 := hv.2
  unfold solveNeg
  cases hs : x.signed <;> simp only [hs, Bool.false_eq_true, if_false, if_true, Bool.not_false, Bool.not_true,
    add_sub_cancel_right, add_zero] at h1 ⊢
  · have := two_zpow_pos x.int
    constructor <;> linarith
  · have h2 : -(2 : ℚ) ^ (x.int - 1) < v := lt_of_le_of_ne h1.1 (Ne.symm (hmin hs))
    constructor <;> linarith

example : (⟨8, 0, true⟩ : Fmt).Holds (-127) ∧ (-127 : ℚ) ≠ -(2 : ℚ) ^ ((8 : ℤ) - 1) :=
  ⟨⟨⟨-127, by norm_num⟩, by norm_num⟩, by norm_num⟩

/-- C44 is false for the least signed value: the opposite of -128 does not fit the inferred 8-bit signed format. -/
theorem C44_neg_overflow : ¬ ∀ (x : Fmt) (v : ℚ), x.Holds v → (solveNeg x).Holds (-v) := by
  intro h
  have := (h ⟨8, 0, true⟩ (-128) ⟨⟨-128, by norm_num⟩, by norm_num⟩).2
  norm_num [solveNeg] at this

/-- C44 leading zeros: the inferred unsigned format holds every possible count `0 .. n` of an `n`-bit operand. -/
theorem C44_clz_fits (n c : ℕ) (hc : c ≤ n) : (solveClz n).Holds c := by
  refine ⟨⟨c, by simp [solveClz]⟩, ?_⟩
  unfold solveClz
  simp only [Bool.false_eq_true, if_false]
  refine ⟨by positivity, ?_⟩
  have h := Nat.lt_pow_succ_log_self (b := 2) (by norm_num) n
  have : (c : ℚ) < (2 : ℚ) ^ (Nat.log 2 n + 1) := by exact_mod_cast lt_of_le_of_lt hc h
  exact_mod_cast this

example : (32 : ℕ) ≤ 32 ∧ solveClz 32 = ⟨6, 0, false⟩ := by
  refine ⟨le_refl _, ?_⟩
  have : Nat.log 2 32 = 5 := by
    rw [Nat.log_eq_iff] <;> norm_num
  simp [solveClz, this]

/-- C44 concatenation: the inferred format has exactly the total number of bits. -/
theorem C44_concat_bits (sizes : List ℕ) : (solveConcat sizes).bits = sizes.sum := by
  unfold solveConcat Fmt.bits
  simp only [add_zero]
  have : ∀ (l : List ℕ) (a : ℕ), l.foldl (· + ·) a = a + l.sum := by
    intro l
    induction l with
    | nil => simp
    | cons x t ih => intro a; simp [List.foldl_cons, ih]; omega
  rw [this, Nat.zero_add]

/-- C44 slice selection: when it succeeds, the inferred format has exactly `sup - inf + 1` bits and its grid is that of the
selected low bit. -/
theorem C44_subsignal_bits (x : Fmt) (inf sup : ℤ) (f : Fmt) (h : solveSubSignal x inf sup = .ok f) :
    f.bits = sup - inf + 1 ∧ f.frac = x.frac - inf ∧ 0 < f.bits := by
  unfold solveSubSignal at h
  simp only at h
  have hx : x.bits = x.int + x.frac := rfl
  by_cases hc : x.frac - inf + (x.int - (x.bits - 1 - sup)) ≤ 0
  · rw [if_pos hc] at h; cases h
  · rw [if_neg hc] at h
    cases h
    refine ⟨?_, rfl, ?_⟩
    · show x.int - (x.bits - 1 - sup) + (x.frac - inf) = sup - inf + 1
      omega
    · show 0 < x.int - (x.bits - 1 - sup) + (x.frac - inf)
      omega

example : solveSubSignal ⟨4, 4, true⟩ 2 5 = .ok ⟨2, 2, true⟩ := by decide

theorem findFrac_spec {v : ℚ} {i : ℕ} (h : findFrac v = some i) : OnGrid i v := by
  unfold findFrac at h
  have := List.find?_some h
  simp only [decide_eq_true_eq] at this
  refine ⟨pyInt (v * 2 ^ i), ?_⟩
  rw [this, zpow_neg, zpow_natCast]
  field_simp

theorem le_ceilLog2 (q : ℚ) : q ≤ (2 : ℚ) ^ ceilLog2 q := by
  have h1 : q ≤ (⌈q⌉₊ : ℚ) := Nat.le_ceil q
  have h2 : ⌈q⌉₊ ≤ 2 ^ Nat.clog 2 ⌈q⌉₊ := Nat.le_pow_clog (by norm_num) _
  have h3 : (⌈q⌉₊ : ℚ) ≤ (2 : ℚ) ^ ceilLog2 q := by
    unfold ceilLog2
    exact_mod_cast h2
  linarith

/-- C44 constants: the format inferred for a constant holds the constant. -/
theorem C44_constant_fits (v : ℚ) (f : Fmt) (h : minimalCstFmt v = .ok f) : f.Holds v := by
  unfold minimalCstFmt at h
  cases hf : findFrac v with
  | none => rw [hf] at h; cases h
  | some i =>
    rw [hf] at h
    simp only at h
    cases h
    refine ⟨findFrac_spec hf, ?_⟩
    have hlog := le_ceilLog2 (|v| + 1)
    by_cases hneg : v < 0
    · simp only [hneg, decide_true, if_true]
      rw [if_neg (by omega)]
      push_cast
      rw [add_sub_cancel_right, zpow_natCast]
      rw [abs_of_neg hneg] at hlog ⊢
      constructor <;> linarith
    · simp only [hneg, decide_false, Bool.false_eq_true, if_false, add_zero]
      push Not at hneg
      rw [abs_of_nonneg hneg] at hlog ⊢
      refine ⟨hneg, ?_⟩
      rw [zpow_natCast]
      split
      · rename_i h0
        rw [h0.2] at hlog
        norm_num at hlog ⊢
        linarith
      · linarith

/-- C44 constants: a format is found for every number with at most 99 fractional bits. -/
theorem C44_constant_found (v : ℚ) (i : ℕ) (hi : i < 100) (hg : OnGrid i v) : ∃ f, minimalCstFmt v = .ok f := by
  unfold minimalCstFmt
  have : (findFrac v).isSome := by
    unfold findFrac
    rw [List.find?_isSome]
    refine ⟨i, by simpa using hi, ?_⟩
    obtain ⟨n, hn⟩ := hg
    have : v * (2 : ℚ) ^ i = n := by
      rw [hn, mul_assoc, ← zpow_natCast, zpow_mul_neg, mul_one]
    rw [this, pyInt_intCast]
    simp
  obtain ⟨j, hj⟩ := Option.isSome_iff_exists.1 this
  rw [hj]
  exact ⟨_, rfl⟩

example : OnGrid ((2 : ℕ) : ℤ) (-13 / 4) := ⟨-13, by norm_num⟩

/-- C44 constants: a constant accepted by the fit test is held by the format it is propagated to. -/
theorem C44_fit_test_sound (v : ℚ) (f : Fmt) (h : formatDoesFit v f = .ok true) : f.Holds v := by
  unfold formatDoesFit at h
  cases hm : minimalCstFmt v with
  | error e => rw [hm] at h; cases h
  | ok m =>
    rw [hm] at h
    have hh := C44_constant_fits v m hm
    simp only [Except.ok.injEq, Bool.and_eq_true, Bool.or_eq_true, decide_eq_true_eq, Bool.not_eq_true'] at h
    obtain ⟨⟨h1, h2⟩, h3⟩ := h
    refine ⟨hh.1.mono h2, ?_⟩
    have h4 := hh.2
    cases hs : f.signed <;> cases hs' : m.signed <;> simp only [hs, hs', Bool.false_eq_true, if_false, if_true,
      and_self, and_true, and_false, false_and, or_false, false_or,
      sub_zero, true_or, Bool.true_eq_false] at h1 h3 h4 ⊢
    · have := two_zpow_le h1; exact ⟨h4.1, by linarith⟩
    · have := two_zpow_le h1
      have := two_zpow_pos (f.int - 1)
      constructor <;> linarith
    · have := two_zpow_le (show m.int - 1 ≤ f.int - 1 by omega)
      constructor <;> linarith

/-! ## C45 unification -/

/-- C45: every value of either format is a value of the unified format. -/
theorem C45_largest_contains (f0 f1 : Fmt) (v : ℚ) (h : f0.Holds v ∨ f1.Holds v) : (largestFixed f0 f1).Holds v := by
  unfold largestFixed
  have key : ∀ (f : Fmt) (int frac : ℤ) (s : Bool), f.Holds v → f.frac ≤ frac →
      ((f.signed = s ∧ f.int ≤ int) ∨ (f.signed = false ∧ s = true ∧ f.int + 1 ≤ int)) →
      (⟨int, frac, s⟩ : Fmt).Holds v := by
    intro f int frac s hf hfr hc
    refine ⟨hf.1.mono hfr, ?_⟩
    have h2 := hf.2
    rcases hc with ⟨rfl, hi⟩ | ⟨hs, rfl, hi⟩
    · by_cases hs : f.signed = true
      · simp only [hs, if_true] at h2 ⊢
        have := two_zpow_le (show f.int - 1 ≤ int - 1 by omega)
        constructor <;> linarith
      · simp only [hs, Bool.false_eq_true, if_false] at h2 ⊢
        have := two_zpow_le hi
        exact ⟨h2.1, by linarith⟩
    · simp only [hs, Bool.false_eq_true, if_false, if_true] at h2 ⊢
      have := two_zpow_le (show f.int ≤ int - 1 by omega)
      have := two_zpow_pos (int - 1)
      constructor <;> linarith
  rcases h with h | h
  · refine key f0 _ _ _ h (le_max_left _ _) ?_
    cases h0 : f0.signed <;> cases h1 : f1.signed <;> simp <;> split <;> omega
  · refine key f1 _ _ _ h (le_max_right _ _) ?_
    cases h0 : f0.signed <;> cases h1 : f1.signed <;> simp <;> split <;> omega

example : largestFixed ⟨4, 0, false⟩ ⟨4, 2, true⟩ = ⟨5, 2, true⟩ := by decide

/-- A precision that leaves the format free, or a fixed-point one. -/
def Prec.Soft : Prec → Prop
  | .other _ _ => False
  | _ => True

/-- C45 on lists (part that holds): when all the precisions of the list are fixed-point, undefined or abstract integers,
the unified format holds every value of every fixed-point format of the list.
Missing: lists mixing other formats, where a failed unification is forgotten (`C45_failure_is_forgotten`). -/
theorem C45_solve_equal_contains_partial (ps : List Prec) (hsoft : ∀ p ∈ ps, p.Soft) (p : Prec)
    (h : solveEqual ps = some p) (f : Fmt) (hf : Prec.fixed f ∈ ps) (v : ℚ) (hv : f.Holds v) :
    ∃ g, p = .fixed g ∧ g.Holds v := by
  have key : ∀ (l : List Prec) (acc : Prec), acc.Soft → (∀ p ∈ l, p.Soft) →
      ((∃ g, acc = .fixed g ∧ g.Holds v) ∨ Prec.fixed f ∈ l) → ∃ g, l.foldl largestPrec acc = .fixed g ∧ g.Holds v := by
    intro l
    induction l with
    | nil =>
      intro acc _ _ hc
      rcases hc with ⟨g, rfl, hg⟩ | hc
      · exact ⟨g, rfl, hg⟩
      · simp at hc
    | cons q t ih =>
      intro acc hacc hl hc
      rw [List.foldl_cons]
      have hq := hl q (by simp)
      refine ih _ ?_ (fun p hp => hl p (by simp [hp])) ?_
      · cases acc <;> cases q <;> simp_all [largestPrec, Prec.Soft]
      · rcases hc with ⟨g, rfl, hg⟩ | hc
        · left
          cases q with
          | undef => exact ⟨g, rfl, hg⟩
          | integer => exact ⟨g, rfl, hg⟩
          | fixed f' => exact ⟨_, rfl, C45_largest_contains g f' v (.inl hg)⟩
          | other _ _ => exact absurd hq (by simp [Prec.Soft])
        · rcases List.mem_cons.1 hc with rfl | hc
          · left
            cases acc with
            | undef => exact ⟨f, rfl, hv⟩
            | integer => exact ⟨f, rfl, hv⟩
            | fixed f' => exact ⟨_, rfl, C45_largest_contains f' f v (.inr hv)⟩
            | other _ _ => exact absurd hacc (by simp [Prec.Soft])
          · exact .inr hc
  cases ps with
  | nil => simp at hf
  | cons q t =>
    simp only [solveEqual, Option.some.injEq] at h
    rw [← h]
    exact key (q :: t) q (hsoft q (by simp)) hsoft (.inr hf)

example : solveEqual [.integer, .fixed ⟨4, 0, false⟩, .undef, .fixed ⟨3, 1, true⟩] = some (.fixed ⟨5, 1, true⟩) := by
  decide

/-- The failure to unify two incompatible formats is forgotten when a third operand follows: the result is the format of
the third operand alone, which cannot hold an 8-bit value. -/
theorem C45_failure_is_forgotten :
    largestPrec (.fixed ⟨8, 0, false⟩) (.other 1 16) = .undef ∧
    solveEqual [.fixed ⟨8, 0, false⟩, .other 1 16, .fixed ⟨2, 0, false⟩] = some (.fixed ⟨2, 0, false⟩) ∧
    (⟨8, 0, false⟩ : Fmt).Holds 200 ∧ ¬ (⟨2, 0, false⟩ : Fmt).Holds 200 := by
  refine ⟨by decide, by decide, ⟨⟨200, by norm_num⟩, by norm_num⟩, ?_⟩
  intro h
  have := h.2
  norm_num at this

end Verif.Fixed
