import Verif.Subnorm.Lemmas
import Verif.Float.Spec

/-! # C100: the C function that subnormalizes a double-double -/

namespace Verif.Subnorm

open Verif.Float (Fmt Val)

/-- the rounding done on an integer significand -/
theorem int_core {N D : ℤ} (hD : 1 ≤ D) {lam : ℚ} (hl : |lam| ≤ 1 / 2) {ls : Bool} (h1 : ls = true → lam ≤ 0) (h2 : ls = false → 0 ≤ lam)
    (h3 : ls = true → lam = 0 → N % (2 * D) = D → Even (N / (2 * D))) (par z : Prop) [Decidable par] [Decidable z] (hpar : par ↔ Even (N / (2 * D))) (hz : z ↔ lam = 0) :
    GridNearest ((2 * D : ℤ) : ℚ) (N + lam)
      (((if (N % D = 0 ∧ par ∧ z) ∨ (N % D = 0 ∧ ls = true) then N else N + D) / (2 * D) * (2 * D) : ℤ) : ℚ) := by
  obtain ⟨a, ha⟩ : ∃ a, a = N / (2 * D) := ⟨_, rfl⟩
  obtain ⟨b, hb⟩ : ∃ b, b = N % (2 * D) := ⟨_, rfl⟩
  have hN : N = 2 * D * a + b := by rw [ha, hb]; exact (Int.mul_ediv_add_emod N (2 * D)).symm
  have hb0 : 0 ≤ b := hb ▸ Int.emod_nonneg _ (by omega)
  have hb1 : b < 2 * D := hb ▸ Int.emod_lt_of_pos _ (by omega)
  obtain ⟨l1, l2⟩ := abs_le.1 hl
  have cD : (1 : ℚ) ≤ D := by exact_mod_cast hD
  have cN : (N : ℚ) = 2 * D * a + b := by exact_mod_cast hN
  rw [← ha, ← hb] at h3
  rw [← ha] at hpar
  have divlow : N / (2 * D) = a := ha.symm
  have divmid : b < D → (N + D) / (2 * D) = a := by
    intro h
    rw [show N + D = (b + D) + 2 * D * a by rw [hN]; ring, Int.add_mul_ediv_left _ _ (by omega), Int.ediv_eq_zero_of_lt (by omega) (by omega)]; ring
  have divhigh : D ≤ b → (N + D) / (2 * D) = a + 1 := by
    intro h
    rw [show N + D = (b - D) + 2 * D * (a + 1) by rw [hN]; ring, Int.add_mul_ediv_left _ _ (by omega), Int.ediv_eq_zero_of_lt (by omega) (by omega)]; ring
  -- what the result is at a distance of
  have mk : ∀ k : ℤ, |(N : ℚ) + lam - k * (2 * D)| ≤ D → (|(N : ℚ) + lam - k * (2 * D)| = D → Even k) →
      GridNearest ((2 * D : ℤ) : ℚ) (N + lam) ((k * (2 * D) : ℤ) : ℚ) := by
    intro k k1 k2
    refine ⟨k, by push_cast; ring, ?_, ?_⟩
    · push_cast; rw [mul_div_cancel_left₀ _ (by norm_num)]; exact k1
    · push_cast; rw [mul_div_cancel_left₀ _ (by norm_num)]; exact k2
  have modD : N % D = b % D := by rw [hN, show 2 * D * a + b = b + D * (2 * a) by ring, Int.add_mul_emod_self_left]
  rw [modD]
  have da : (N : ℚ) + lam - a * (2 * D) = b + lam := by rw [cN]; ring
  have da1 : (N : ℚ) + lam - ((a + 1 : ℤ) : ℚ) * (2 * D) = b + lam - 2 * D := by rw [cN]; push_cast; ring
  rcases lt_trichotomy b D with hlt | heq | hgt
  · -- below the middle: the result is the multiple below
    have cb : (b : ℚ) + 1 ≤ D := by exact_mod_cast hlt
    have cb0 : (0 : ℚ) ≤ b := by exact_mod_cast hb0
    have fin : GridNearest ((2 * D : ℤ) : ℚ) (N + lam) ((a * (2 * D) : ℤ) : ℚ) := by
      have hs : |(b : ℚ) + lam| < D := by rw [abs_lt]; constructor <;> linarith
      exact mk a (by rw [da]; exact hs.le) (by rw [da]; intro h; exact absurd h hs.ne)
    split_ifs
    · rw [divlow]; exact fin
    · rw [divmid hlt]; exact fin
  · -- the middle
    have hmod : b % D = 0 := by rw [heq]; exact Int.emod_self
    rw [hmod]
    simp only [true_and]
    have cb : (b : ℚ) = D := by exact_mod_cast heq
    split_ifs with hc
    · rw [divlow]
      have hle : lam ≤ 0 := by
        rcases hc with ⟨-, h⟩ | h
        · exact (hz.1 h).le
        · exact h1 h
      have hs : |(b : ℚ) + lam| = D + lam := by rw [cb, abs_of_nonneg (by linarith)]
      refine mk a (by rw [da, hs]; linarith) ?_
      rw [da, hs]
      intro h
      have h0 : lam = 0 := by linarith
      rcases hc with ⟨h, -⟩ | h
      · exact hpar.1 h
      · exact h3 h h0 heq
    · rw [divhigh (by omega)]
      push Not at hc
      have hls : ls = false := by simpa using hc.2
      have hge := h2 hls
      have hs : |(b : ℚ) + lam - 2 * D| = D - lam := by rw [cb, abs_of_nonpos (by linarith)]; ring
      refine mk (a + 1) (by rw [da1, hs]; linarith) ?_
      rw [da1, hs]
      intro h
      have h0 : lam = 0 := by linarith
      have : ¬ par := fun hp => hc.1 hp (hz.2 h0)
      rw [hpar, Int.not_even_iff_odd] at this
      exact this.add_one
  · -- above the middle
    have hmod : b % D ≠ 0 := by
      rw [Int.emod_eq_sub_self_emod, Int.emod_eq_of_lt (by omega) (by omega)]; omega
    have cb : (D : ℚ) + 1 ≤ b := by exact_mod_cast hgt
    have cb1 : (b : ℚ) + 1 ≤ 2 * D := by exact_mod_cast hb1
    rw [if_neg (by rintro (h | h) <;> exact hmod h.1), divhigh (by omega)]
    have hs : |(b : ℚ) + lam - 2 * D| < D := by rw [abs_lt]; constructor <;> linarith
    exact mk (a + 1) (by rw [da1]; exact hs.le) (by rw [da1]; intro h; exact absurd h hs.ne)

/-- the value of the encoding of a finite number -/
def value (c : ℕ) : ℚ :=
  match (⟨11, 52⟩ : Fmt).decode c with
  | .num v => v
  | _ => 0

theorem value_num {c : ℕ} {v : ℚ} (h : (⟨11, 52⟩ : Fmt).decode c = .num v) : value c = v := by unfold value; rw [h]

theorem value_normal {s E m : ℕ} (hs : s < 2) (hE1 : 1 ≤ E) (hE2 : E ≤ 2046) (hm : m < 2 ^ 52) :
    value (s * 2 ^ 63 + E * 2 ^ 52 + m) = (if s = 1 then -1 else 1) * ((2 ^ 52 + m) * (2 : ℚ) ^ ((E : ℤ) - 1075)) := by
  have e63 : (2 : ℕ) ^ 63 = 9223372036854775808 := by norm_num
  have e52 : (2 : ℕ) ^ 52 = 4503599627370496 := by norm_num
  have e11 : (2 : ℕ) ^ 11 = 2048 := by norm_num
  have d1 : (s * 2 ^ 63 + E * 2 ^ 52 + m) / 2 ^ 63 = s := by rw [e63, e52]; rw [e52] at hm; omega
  have d2 : (s * 2 ^ 63 + E * 2 ^ 52 + m) / 2 ^ 52 % 2 ^ 11 = E := by rw [e63, e52, e11]; rw [e52] at hm; omega
  have d3 : (s * 2 ^ 63 + E * 2 ^ 52 + m) % 2 ^ 52 = m := by rw [e63, e52]; rw [e52] at hm; omega
  have hmax : (⟨11, 52⟩ : Fmt).emax = 1023 := by norm_num [Fmt.emax]
  generalize s * 2 ^ 63 + E * 2 ^ 52 + m = c at *
  have hdec : (⟨11, 52⟩ : Fmt).decode c = .num ((if s = 1 then -1 else 1) * ((2 ^ 52 + m) * (2 : ℚ) ^ ((E : ℤ) - 1023 - (52 : ℕ)))) := by
    unfold Fmt.decode
    dsimp only
    rw [show 11 + 52 = 63 from rfl, d1, d2, d3, hmax, if_neg (show ¬ (E = 2 ^ 11 - 1) by rw [e11]; omega), if_neg (show ¬ (E = 0) by omega)]
  rw [show (E : ℤ) - 1023 - (52 : ℕ) = E - 1075 by push_cast; ring] at hdec
  exact value_num hdec

theorem shl64_zero {c : ℕ} {d : ℕ} (hd1 : 2 ≤ d) (hd2 : d ≤ 30) : c * 2 ^ (65 - d) % 2 ^ 64 = 0 ↔ c % 2 ^ (d - 1) = 0 := by
  have : (2 : ℕ) ^ 64 = 2 ^ (d - 1) * 2 ^ (65 - d) := by rw [← pow_add]; congr 1; omega
  rw [this, Nat.mul_mod_mul_right]
  constructor
  · intro h
    rcases Nat.mul_eq_zero.1 h with h | h
    · exact h
    · exact absurd h (by positivity)
  · intro h; rw [h, zero_mul]

theorem land_pow {c d : ℕ} : Nat.land c (2 ^ d) = 0 ↔ Even (c / 2 ^ d) := by
  have h0 : Nat.land c (2 ^ d) = c &&& 2 ^ d := rfl
  rw [h0, Nat.even_iff]
  have ht : c.testBit d = decide (c / 2 ^ d % 2 = 1) := Nat.testBit_eq_decide_div_mod_eq
  constructor
  · intro h
    have : (c &&& 2 ^ d).testBit d = false := by rw [h]; simp
    rw [Nat.testBit_and, Nat.testBit_two_pow_self, Bool.and_true, ht] at this
    have := of_decide_eq_false this
    omega
  · intro h
    apply Nat.eq_of_testBit_eq
    intro i
    rw [Nat.testBit_and, Nat.zero_testBit, Nat.testBit_two_pow]
    by_cases hi : d = i
    · subst hi; rw [ht]; simp; omega
    · simp [hi]

theorem grid_scale {g x y : ℚ} (h : GridNearest g x y) {k : ℚ} (hk : 0 < k) {σ : ℚ} (hσ : σ = 1 ∨ σ = -1) : GridNearest (g * k) (σ * x * k) (σ * y * k) := by
  obtain ⟨m, h1, h2, h3⟩ := h
  have hσ' : |σ| = 1 := by rcases hσ with rfl | rfl <;> simp
  have hd : |σ * x * k - σ * y * k| = |x - y| * k := by
    rw [show σ * x * k - σ * y * k = σ * ((x - y) * k) by ring, abs_mul, hσ', abs_mul, abs_of_pos hk, one_mul]
  obtain ⟨n, hn, hn2⟩ : ∃ n : ℤ, (n : ℚ) = σ * m ∧ (Even m → Even n) := by
    rcases hσ with rfl | rfl
    · exact ⟨m, by ring, id⟩
    · exact ⟨-m, by push_cast; ring, fun h => h.neg⟩
  refine ⟨n, by rw [hn, h1]; ring, ?_, ?_⟩
  · rw [hd]; have := mul_le_mul_of_nonneg_right h2 hk.le; linarith
  · rw [hd]
    intro h
    refine hn2 (h3 (mul_right_cancel₀ hk.ne' ?_))
    rw [h]; ring

/-- the sign of a finite number is that of its encoding -/
theorem value_facts {c : ℕ} (hc : c < 2 ^ 64) (hf : c / 2 ^ 52 % 2 ^ 11 ≠ 2047) :
    (value c = 0 ↔ c % 2 ^ 63 = 0) ∧ (c / 2 ^ 63 = 1 → value c ≤ 0) ∧ (c / 2 ^ 63 = 0 → 0 ≤ value c) := by
  have e64 : (2 : ℕ) ^ 64 = 18446744073709551616 := by norm_num
  have e63 : (2 : ℕ) ^ 63 = 9223372036854775808 := by norm_num
  have e52 : (2 : ℕ) ^ 52 = 4503599627370496 := by norm_num
  have e11 : (2 : ℕ) ^ 11 = 2048 := by norm_num
  have hmax : (⟨11, 52⟩ : Fmt).emax = 1023 := by norm_num [Fmt.emax]
  have hdec : ∃ v : ℚ, value c = (if c / 2 ^ 63 = 1 then -1 else 1) * v ∧ 0 ≤ v ∧ (v = 0 ↔ c % 2 ^ 63 = 0) := by
    by_cases hE : c / 2 ^ 52 % 2 ^ 11 = 0
    · by_cases hm : c % 2 ^ 52 = 0
      · refine ⟨0, ?_, le_refl _, ⟨fun _ => by rw [e63]; rw [e52] at hE hm; rw [e11] at hE; omega, fun _ => rfl⟩⟩
        have : (⟨11, 52⟩ : Fmt).decode c = (if c / 2 ^ 63 = 1 then .minusZero else .plusZero) := by
          unfold Fmt.decode
          dsimp only
          rw [show 11 + 52 = 63 from rfl, hE, if_neg (show ¬ (0 = 2 ^ 11 - 1) by rw [e11]; omega), if_pos rfl, if_pos hm]
        unfold value
        rw [this, mul_zero]
        split_ifs <;> rfl
      · refine ⟨((c % 2 ^ 52 : ℕ) : ℚ) * (2 : ℚ) ^ ((⟨11, 52⟩ : Fmt).emin - (52 : ℕ)), ?_, mul_nonneg (Nat.cast_nonneg _) (p2 _).le, ?_⟩
        · apply value_num
          unfold Fmt.decode
          dsimp only
          rw [show 11 + 52 = 63 from rfl, hE, if_neg (show ¬ (0 = 2 ^ 11 - 1) by rw [e11]; omega), if_pos rfl, if_neg hm]
        · rw [mul_eq_zero, Nat.cast_eq_zero]
          constructor
          · rintro (h | h)
            · exact absurd h hm
            · exact absurd h (p2 _).ne'
          · intro h
            exfalso
            apply hm
            rw [e52]; rw [e63] at h; omega
    · refine ⟨(2 ^ 52 + ((c % 2 ^ 52 : ℕ) : ℚ)) * (2 : ℚ) ^ (((c / 2 ^ 52 % 2 ^ 11 : ℕ) : ℤ) - 1023 - (52 : ℕ)), ?_,
        mul_nonneg (add_nonneg (by norm_num) (Nat.cast_nonneg _)) (p2 _).le, ?_⟩
      · apply value_num
        unfold Fmt.decode
        dsimp only
        rw [show 11 + 52 = 63 from rfl, hmax, if_neg (show ¬ (c / 2 ^ 52 % 2 ^ 11 = 2 ^ 11 - 1) by rw [e11] at hf ⊢; omega), if_neg hE]
      · constructor
        · intro h
          exfalso
          rcases mul_eq_zero.1 h with h | h
          · have : (0 : ℚ) ≤ ((c % 2 ^ 52 : ℕ) : ℚ) := Nat.cast_nonneg _
            have h2 : (0 : ℚ) < 2 ^ 52 := by norm_num
            linarith
          · exact absurd h (p2 _).ne'
        · intro h
          exfalso
          apply hE
          rw [e52, e11]; rw [e63] at h; omega
  obtain ⟨v, h1, h2, h3⟩ := hdec
  refine ⟨?_, ?_, ?_⟩
  · rw [← h3, h1]
    split_ifs <;> simp
  · intro h; rw [h1, if_pos h]; linarith
  · intro h; rw [h1, if_neg (by omega)]; linarith

/-- **C100, partial.** When 2 to 30 bits have to be dropped, the C function returns the encoding of the double-double rounded once to the grid of the subnormal numbers
(after scaling), unless the low part is a zero of the other sign. -/
theorem C100_rounds_partial {s E m : ℕ} (hs : s < 2) (hE1 : 1 ≤ E) (hE2 : E ≤ 2045) (hm : m < 2 ^ 52) {lo : ℕ} (hlo : lo < 2 ^ 64) (hfin : lo / 2 ^ 52 % 2 ^ 11 ≠ 2047)
    {scale : ℤ} (hl : |value lo| ≤ (2 : ℚ) ^ ((E : ℤ) - 1076)) (hz : value lo = 0 → lo / 2 ^ 63 = s)
    (h1 : (E : ℤ) - 1023 + scale ≤ -1024) (h2 : -1052 ≤ (E : ℤ) - 1023 + scale) :
    ∃ r, subnormalizeC (s * 2 ^ 63 + E * 2 ^ 52 + m) lo scale = some r ∧
      SubRound 53 (-1022) ((value (s * 2 ^ 63 + E * 2 ^ 52 + m) + value lo) * (2 : ℚ) ^ scale) (value r * (2 : ℚ) ^ scale) := by
  have e64 : (2 : ℕ) ^ 64 = 18446744073709551616 := by norm_num
  have e63 : (2 : ℕ) ^ 63 = 9223372036854775808 := by norm_num
  have e52 : (2 : ℕ) ^ 52 = 4503599627370496 := by norm_num
  obtain ⟨f1, f2, f3⟩ := value_facts hlo hfin
  have hv := value_normal hs hE1 (by omega) hm
  obtain ⟨hi, hhi⟩ : ∃ hi, hi = s * 2 ^ 63 + E * 2 ^ 52 + m := ⟨_, rfl⟩
  rw [← hhi] at hv ⊢
  obtain ⟨d, hd⟩ := Int.eq_ofNat_of_zero_le (show 0 ≤ -1022 - ((E : ℤ) - 1023 + scale) by omega)
  have hd2 : 2 ≤ d := by omega
  have hd30 : d ≤ 30 := by omega
  have hexp : expDirty hi = (E : ℤ) - 1023 := by
    unfold expDirty
    have : hi / 2 ^ 52 % 2048 = E := by rw [hhi, e52, e63]; rw [e52] at hm; omega
    rw [this]
  obtain ⟨j, hj⟩ : ∃ j, d = j + 1 := ⟨d - 1, by omega⟩
  -- the powers of two
  have hpj : (2 : ℕ) ^ d = 2 * 2 ^ j := by rw [hj, pow_succ]; ring
  obtain ⟨P, hP⟩ : ∃ P, P = (2 : ℕ) ^ j := ⟨_, rfl⟩
  obtain ⟨Q, hQ⟩ : ∃ Q, Q = (2 : ℕ) ^ (52 - d - 1) := ⟨_, rfl⟩
  have hP1 : 1 ≤ P := hP ▸ Nat.one_le_two_pow
  have hPQ : 4503599627370496 = 4 * P * Q := by
    rw [← e52, hP, hQ, show (4 : ℕ) = 2 ^ 2 by norm_num, ← pow_add, ← pow_add]; congr 1; omega
  have hPle : P ≤ 2 ^ 30 := by rw [hP]; exact Nat.pow_le_pow_right (by norm_num) (by omega)
  have e30 : (2 : ℕ) ^ 30 = 1073741824 := by norm_num
  rw [e30] at hPle
  obtain ⟨N, hN⟩ : ∃ N, N = 4503599627370496 + m := ⟨_, rfl⟩
  obtain ⟨B, hB⟩ : ∃ B, B = s * 9223372036854775808 + (E - 1) * 4503599627370496 := ⟨_, rfl⟩
  have hiB : hi = B + N := by rw [hhi, hB, hN, e63, e52]; obtain ⟨E', rfl⟩ : ∃ E', E = E' + 1 := ⟨E - 1, by omega⟩; simp only [Nat.add_sub_cancel]; ring
  obtain ⟨b, hb⟩ : ∃ b, B = 4 * P * b := ⟨s * 2048 * Q + (E - 1) * Q, by rw [hB, show (9223372036854775808 : ℕ) = 2048 * 4503599627370496 by norm_num, hPQ]; ring⟩
  rw [e52] at hm
  have hN1 : 4503599627370496 ≤ N := by omega
  have hN2 : N < 9007199254740992 := by omega
  have hhi64 : hi + P < 18446744073709551616 := by
    rw [hhi, e63, e52]; omega
  unfold subnormalizeC
  rw [hexp, hd]
  have s1 : shl1 ((d : ℤ) - 1) = some P := by
    unfold shl1
    rw [if_pos (by constructor <;> omega), hP]
    congr 2; omega
  have s2 : shl64 hi (64 - ((d : ℤ) - 1)) = some (hi * 2 ^ (65 - d) % 2 ^ 64) := by
    unfold shl64
    rw [if_pos (by constructor <;> omega)]
    congr 3; congr 1; omega
  have s3 : shl1 (d : ℤ) = some (2 ^ d) := by
    unfold shl1
    rw [if_pos (by constructor <;> omega)]; rfl
  dsimp only
  rw [s1, s2, s3]
  dsimp only
  -- the tests
  have t1 : (hi * 2 ^ (65 - d) % 2 ^ 64 = 0) ↔ ((N : ℤ) % (P : ℤ) = 0) := by
    rw [shl64_zero hd2 hd30, show d - 1 = j by omega, ← hP, hiB, hb, show 4 * P * b + N = N + P * (4 * b) by ring, Nat.add_mul_mod_self_left]
    exact_mod_cast Iff.rfl
  have t2 : (Nat.land hi (2 ^ d) = 0) ↔ Even ((N : ℤ) / (2 * P : ℤ)) := by
    rw [land_pow, hpj, ← hP, hiB, hb, show 4 * P * b + N = N + 2 * P * (2 * b) by ring, Nat.add_mul_div_left _ _ (by omega)]
    have : ((N : ℤ) / (2 * P : ℤ)) = ((N / (2 * P) : ℕ) : ℤ) := by push_cast; rfl
    rw [this, Int.even_coe_nat, Nat.even_add]
    simp
  obtain ⟨ls, hls⟩ : ∃ ls : Bool, ls = (xor (decide (hi / 2 ^ 63 % 2 = 1)) (decide (lo / 2 ^ 63 % 2 = 1))) := ⟨_, rfl⟩
  have hhis : hi / 2 ^ 63 = s := by rw [hhi, e63, e52]; omega
  have hlos : lo / 2 ^ 63 < 2 := by rw [e63]; rw [e64] at hlo; omega
  have hls2 : ls = decide (s ≠ lo / 2 ^ 63) := by
    rw [hls, hhis]
    generalize lo / 2 ^ 63 = l at hlos
    interval_cases s <;> interval_cases l <;> rfl
  rw [← hls]
  -- the low part, in units of the last place of the double
  obtain ⟨σ, hσ⟩ : ∃ σ : ℚ, σ = (if s = 1 then -1 else 1) := ⟨_, rfl⟩
  have hσ1 : σ = 1 ∨ σ = -1 := by rw [hσ]; split_ifs <;> simp
  have hσσ : σ * σ = 1 := by rcases hσ1 with h | h <;> rw [h] <;> norm_num
  obtain ⟨U, hU⟩ : ∃ U, U = (2 : ℚ) ^ ((E : ℤ) - 1075) := ⟨_, rfl⟩
  have hU0 : 0 < U := hU ▸ p2 _
  obtain ⟨lam, hlam⟩ : ∃ lam, lam = σ * value lo / U := ⟨_, rfl⟩
  have hlv : value lo = σ * lam * U := by
    rw [hlam, mul_assoc, div_mul_cancel₀ _ hU0.ne', ← mul_assoc, hσσ, one_mul]
  have hlam0 : (lo % 2 ^ 63 = 0) ↔ lam = 0 := by
    rw [← f1, hlv]
    constructor
    · intro h
      rcases mul_eq_zero.1 h with h | h
      · rcases mul_eq_zero.1 h with h | h
        · rw [h] at hσσ; norm_num at hσσ
        · exact h
      · exact absurd h hU0.ne'
    · intro h; rw [h]; ring
  have hlabs : |lam| ≤ 1 / 2 := by
    have hu2 : (2 : ℚ) ^ ((E : ℤ) - 1076) = U / 2 := by
      rw [hU, show (E : ℤ) - 1075 = (E - 1076) + 1 by ring, p2s]; ring
    rw [hu2, hlv, abs_mul, abs_mul, abs_of_pos hU0] at hl
    have : |σ| = 1 := by rcases hσ1 with h | h <;> rw [h] <;> norm_num
    rw [this, one_mul] at hl
    have : |lam| * U ≤ 1 / 2 * U := by linarith
    exact le_of_mul_le_mul_right this hU0
  have sgn1 : ls = true → lam ≤ 0 := by
    intro h
    rw [hls2] at h
    have h := of_decide_eq_true h
    have : σ * value lo ≤ 0 := by
      rw [hσ]
      split_ifs with h'
      · have := f3 (by omega); linarith
      · have := f2 (by omega); linarith
    rw [hlam]; exact div_nonpos_of_nonpos_of_nonneg this hU0.le
  have sgn2 : ls = false → 0 ≤ lam := by
    intro h
    rw [hls2] at h
    have h := of_decide_eq_false h
    push Not at h
    have : 0 ≤ σ * value lo := by
      rw [hσ]
      split_ifs with h'
      · have := f2 (by omega); linarith
      · have := f3 (by omega); linarith
    rw [hlam]; exact div_nonneg this hU0.le
  have sgn3 : ls = true → lam = 0 → False := by
    intro h h0
    have := hz (by rw [hlv, h0]; ring)
    rw [hls2] at h
    exact of_decide_eq_true h this.symm
  have core := int_core (N := N) (D := P) (by exact_mod_cast hP1) hlabs sgn1 sgn2 (fun h h0 => (sgn3 h h0).elim) (Nat.land hi (2 ^ d) = 0) (lo % 2 ^ 63 = 0) t2 hlam0
  -- the significand of the result
  obtain ⟨N', hN'⟩ : ∃ N', N' = (if (hi * 2 ^ (65 - d) % 2 ^ 64 = 0 ∧ Nat.land hi (2 ^ d) = 0 ∧ lo % 2 ^ 63 = 0) ∨ (hi * 2 ^ (65 - d) % 2 ^ 64 = 0 ∧ ls = true) then N else N + P) / (2 * P) * (2 * P) := ⟨_, rfl⟩
  have hcore : GridNearest ((2 * P : ℕ) : ℚ) (N + lam) (N' : ℚ) := by
    have : ((N' : ℕ) : ℚ) = (((if ((N : ℤ) % (P : ℤ) = 0 ∧ Nat.land hi (2 ^ d) = 0 ∧ lo % 2 ^ 63 = 0) ∨ ((N : ℤ) % (P : ℤ) = 0 ∧ ls = true) then (N : ℤ) else (N : ℤ) + P) / (2 * P) * (2 * P) : ℤ) : ℚ) := by
      rw [hN']
      simp only [t1]
      split_ifs <;> push_cast <;> rfl
    rw [this]
    exact_mod_cast core
  have hr : (if (hi * 2 ^ (65 - d) % 2 ^ 64 = 0 ∧ Nat.land hi (2 ^ d) = 0 ∧ lo % 2 ^ 63 = 0) ∨ (hi * 2 ^ (65 - d) % 2 ^ 64 = 0 ∧ ls = true) then hi else (hi + P) % 2 ^ 64) / 2 ^ d * 2 ^ d % 2 ^ 64 = B + N' := by
    have a1 : (hi + P) % 2 ^ 64 = hi + P := by rw [e64]; exact Nat.mod_eq_of_lt hhi64
    have a2 : ∀ x, (B + x) / (2 * P) * (2 * P) = B + x / (2 * P) * (2 * P) := by
      intro x
      rw [hb, show 4 * P * b + x = x + 2 * P * (2 * b) by ring, Nat.add_mul_div_left _ _ (by omega)]; ring
    have a3 : ∀ x, x ≤ hi + P → x / (2 * P) * (2 * P) % 2 ^ 64 = x / (2 * P) * (2 * P) := by
      intro x hx
      rw [e64]; exact Nat.mod_eq_of_lt (lt_of_le_of_lt (le_trans (Nat.div_mul_le_self _ _) hx) hhi64)
    rw [a1, hN', hpj, ← hP]
    split_ifs
    · rw [a3 _ (by omega), hiB, a2]
    · rw [a3 _ (by omega), hiB, add_assoc, a2]
  rw [Int.toNat_natCast, hr]
  refine ⟨_, rfl, ?_⟩
  -- its value
  have hN'1 : 4503599627370496 ≤ N' := by
    have h1 : (N / (2 * P)) ≤ (if (hi * 2 ^ (65 - d) % 2 ^ 64 = 0 ∧ Nat.land hi (2 ^ d) = 0 ∧ lo % 2 ^ 63 = 0) ∨ (hi * 2 ^ (65 - d) % 2 ^ 64 = 0 ∧ ls = true) then N else N + P) / (2 * P) := by
      apply Nat.div_le_div_right; split_ifs <;> omega
    have h2 : 2 * Q ≤ N / (2 * P) := by
      rw [Nat.le_div_iff_mul_le (by omega)]
      calc 2 * Q * (2 * P) = 4 * P * Q := by ring
        _ ≤ N := by omega
    rw [hN']
    calc 4503599627370496 = 2 * Q * (2 * P) := by rw [hPQ]; ring
      _ ≤ _ := Nat.mul_le_mul_right _ (le_trans h2 h1)
  have hN'2 : N' ≤ 9007199254740992 := by
    have h1 : (if (hi * 2 ^ (65 - d) % 2 ^ 64 = 0 ∧ Nat.land hi (2 ^ d) = 0 ∧ lo % 2 ^ 63 = 0) ∨ (hi * 2 ^ (65 - d) % 2 ^ 64 = 0 ∧ ls = true) then N else N + P) / (2 * P) ≤ (N + P) / (2 * P) := by
      apply Nat.div_le_div_right; split_ifs <;> omega
    have h2 : (N + P) / (2 * P) < 4 * Q + 1 := by
      rw [Nat.div_lt_iff_lt_mul (by omega)]
      calc N + P < 9007199254740992 + 2 * P := by omega
        _ = 2 * (4 * P * Q) + 2 * P := by rw [← hPQ]
        _ = (4 * Q + 1) * (2 * P) := by ring
    rw [hN']
    calc _ ≤ 4 * Q * (2 * P) := Nat.mul_le_mul_right _ (by omega)
      _ = 2 * (4 * P * Q) := by ring
      _ = 9007199254740992 := by rw [← hPQ]
  have hval : value (B + N') = σ * (N' * U) := by
    rcases lt_or_eq_of_le hN'2 with h | h
    · have := value_normal hs hE1 (by omega : E ≤ 2046) (m := N' - 4503599627370496) (by rw [e52]; omega)
      have h3 : B + N' = s * 2 ^ 63 + E * 2 ^ 52 + (N' - 4503599627370496) := by
        rw [hB, e63, e52]; omega
      rw [h3, this, ← hσ, hU, Nat.cast_sub hN'1]; push_cast; ring
    · have := value_normal hs (by omega : 1 ≤ E + 1) (by omega : E + 1 ≤ 2046) (m := 0) (by norm_num)
      have h3 : B + N' = s * 2 ^ 63 + (E + 1) * 2 ^ 52 + 0 := by
        rw [hB, e63, e52, h]; omega
      rw [h3, this, ← hσ, hU, h]
      push_cast
      rw [show ((E : ℤ) + 1 - 1075) = ((E : ℤ) - 1075) + 1 by ring, p2s]; ring
  have hvh : value hi = σ * (N * U) := by
    rw [hv, ← hσ, hU, hN]; push_cast; ring
  rw [hval, hvh, hlv]
  have hsc := grid_scale hcore (k := U * (2 : ℚ) ^ scale) (mul_pos hU0 (p2 _)) hσ1
  unfold SubRound
  have hG : (2 : ℚ) ^ (-1022 - ((53 : ℕ) : ℤ) + 1) = ((2 * P : ℕ) : ℚ) * (U * (2 : ℚ) ^ scale) := by
    rw [hP, ← hpj, hU]; push_cast
    rw [← zpow_natCast, ← zpow_add₀ (by norm_num), ← zpow_add₀ (by norm_num)]; congr 1
    omega
  rw [hG]
  convert hsc using 1 <;> ring

/-- the hypotheses are met: the double `1 + 6·2^-52` with a low part just above zero, scaled by `2^-1024`, is rounded up, to `1 + 8·2^-52` -/
example : subnormalizeC (0 * 2 ^ 63 + 1023 * 2 ^ 52 + 6) 1 (-1024) = some (1023 * 2 ^ 52 + 8) := by decide +kernel

example : subnormalizeC (0 * 2 ^ 63 + 1023 * 2 ^ 52 + 2) 0 (-1024) = some (1023 * 2 ^ 52) := by decide +kernel

/-- **C100, a disagreement.** With a negative high part and a low part `+0`, as the exact difference of two doubles gives, a tie is rounded to the odd neighbour: the sign of the
zero is taken for the sign of a remainder. -/
theorem C100_tie_wrong : ∃ hi lo r : ℕ, ∃ scale : ℤ, value lo = 0 ∧ value hi < 0 ∧ subnormalizeC hi lo scale = some r ∧
    ¬ SubRound 53 (-1022) ((value hi + value lo) * (2 : ℚ) ^ scale) (value r * (2 : ℚ) ^ scale) := by
  have v0 : value 0 = 0 := (value_facts (c := 0) (by norm_num) (by norm_num)).1.2 (by norm_num)
  have v1 := value_normal (s := 1) (E := 1023) (m := 6) (by norm_num) (by norm_num) (by norm_num) (by norm_num)
  have v2 := value_normal (s := 1) (E := 1023) (m := 4) (by norm_num) (by norm_num) (by norm_num) (by norm_num)
  refine ⟨1 * 2 ^ 63 + 1023 * 2 ^ 52 + 6, 0, 1 * 2 ^ 63 + 1023 * 2 ^ 52 + 4, -1024, v0, ?_, by decide +kernel, ?_⟩
  · rw [v1]; norm_num
  rw [v1, v2, v0]
  rintro ⟨k, hk, -, h3⟩
  have hU : (2 : ℚ) ^ (((1023 : ℕ) : ℤ) - 1075) * (2 : ℚ) ^ (-1024 : ℤ) = (2 : ℚ) ^ (-1022 - ((53 : ℕ) : ℤ) + 1) / 4 := by
    rw [← zpow_add₀ (by norm_num), show (((1023 : ℕ) : ℤ) - 1075 + -1024) = (-1022 - ((53 : ℕ) : ℤ) + 1) - 2 by norm_num, zpow_sub₀ (by norm_num)]
    norm_num
  have hg := p2 (-1022 - ((53 : ℕ) : ℤ) + 1)
  generalize (2 : ℚ) ^ (-1022 - ((53 : ℕ) : ℤ) + 1) = g at *
  generalize (2 : ℚ) ^ (((1023 : ℕ) : ℤ) - 1075) = a at *
  generalize (2 : ℚ) ^ (-1024 : ℤ) = b at *
  rw [if_pos rfl] at *
  have e1 : -1 * ((2 ^ 52 + ((4 : ℕ) : ℚ)) * a) * b = -(2 ^ 50 + 1) * g := by
    have : -1 * ((2 ^ 52 + ((4 : ℕ) : ℚ)) * a) * b = -(2 ^ 52 + 4) * (a * b) := by push_cast; ring
    rw [this, hU]; ring
  have e2 : (-1 * ((2 ^ 52 + ((6 : ℕ) : ℚ)) * a) + 0) * b = -(2 ^ 50 + 3 / 2) * g := by
    have : (-1 * ((2 ^ 52 + ((6 : ℕ) : ℚ)) * a) + 0) * b = -(2 ^ 52 + 6) * (a * b) := by push_cast; ring
    rw [this, hU]; ring
  rw [e1] at hk h3
  rw [e2] at h3
  have hkk : k = -(2 ^ 50 + 1) := by
    have := mul_right_cancel₀ hg.ne' hk
    exact_mod_cast this.symm
  have hev := h3 (by
    rw [show -(2 ^ 50 + 3 / 2) * g - -(2 ^ 50 + 1) * g = -(g / 2) by ring, abs_neg, abs_of_pos (by linarith)])
  rw [hkk] at hev
  revert hev
  decide

/-- **C100, a disagreement.** When one bit or more than 30 have to be dropped, or when the number is not subnormal after scaling, the behaviour of the C function is undefined:
it shifts a 64-bit integer by 64 or more, or an `int` by more than 30.  Up to 53 bits of a double may have to be dropped. -/
theorem C100_undefined_wrong (hi lo : ℕ) (scale : ℤ) :
    subnormalizeC hi lo scale = none ↔ ¬ (2 ≤ -1022 - (expDirty hi + scale) ∧ -1022 - (expDirty hi + scale) ≤ 30) := by
  unfold subnormalizeC
  generalize -1022 - (expDirty hi + scale) = d
  dsimp only
  unfold shl1 shl64
  by_cases h1 : 2 ≤ d
  · by_cases h2 : d ≤ 30
    · rw [if_pos (by omega), if_pos (by omega), if_pos (by omega)]
      simp [h1, h2]
    · rw [if_neg (show ¬ (0 ≤ d ∧ d ≤ 30) by omega)]
      simp only [h1, h2, and_false, not_false_iff, iff_true]
      split <;> simp_all
  · rw [if_neg (show ¬ (0 ≤ 64 - (d - 1) ∧ 64 - (d - 1) ≤ 63) by omega)]
    simp only [h1, false_and, not_false_iff, iff_true]
    split <;> simp_all

end Verif.Subnorm
