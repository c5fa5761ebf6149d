import Verif.FpHw.Model
import Verif.FpHw.Spec
import Verif.Check.Theorems

/-! # Fields, normalization and rounding -/

namespace Verif.FpHw

open Verif.Float (Fmt Val)
open Verif.Check

/-- the sign of a datum -/
def sg (s : Bool) : ℚ := if s then -1 else 1

theorem sg_abs (s : Bool) : |sg s| = 1 := by cases s <;> simp [sg]

theorem sg_ne (s : Bool) : sg s ≠ 0 := by cases s <;> simp [sg]

/-- the encoding of a normal number -/
theorem decode_normal {F : Fmt} {c : ℕ} (hc : c < 2 ^ (1 + F.e + F.f)) {a : ℚ} (h : F.decode c = .num a) (hn : (2 : ℚ) ^ F.emin ≤ |a|) :
    1 ≤ expField F c ∧ expField F c + 2 ≤ 2 ^ F.e ∧ 2 ^ F.f ≤ mant F c ∧ mant F c < 2 ^ (F.f + 1) ∧
      a = sg (signBit F c) * (mant F c * (2 : ℚ) ^ ((expField F c : ℤ) - F.emax - F.f)) := by
  have hE : expField F c < 2 ^ F.e := Nat.mod_lt _ (Nat.two_pow_pos _)
  have hm : c % 2 ^ F.f < 2 ^ F.f := Nat.mod_lt _ (Nat.two_pow_pos _)
  have hs : c / 2 ^ (F.e + F.f) < 2 := by
    rw [Nat.div_lt_iff_lt_mul (Nat.two_pow_pos _)]
    calc c < _ := hc
      _ = _ := by rw [show 1 + F.e + F.f = (F.e + F.f) + 1 by ring, pow_succ]; ring
  have hs' : signBit F c = decide (c / 2 ^ (F.e + F.f) = 1) := by rw [signBit, Nat.mod_eq_of_lt hs]
  have hsg : sg (signBit F c) = if c / 2 ^ (F.e + F.f) = 1 then -1 else 1 := by rw [hs', sg]; simp
  unfold Fmt.decode at h
  dsimp only at h
  rw [show c / 2 ^ F.f % 2 ^ F.e = expField F c from rfl] at h
  split_ifs at h with h1 h2 h3 h4 h5 h6 h7 h8 h9
  all_goals first | (exfalso; simp at h; done) | skip
  all_goals rw [Val.num.injEq] at h
  all_goals first
    | (exfalso
       rw [← h, abs_mul, abs_mul, abs_of_pos (zpow_pos (by norm_num : (0 : ℚ) < 2) (F.emin - F.f))] at hn
       have h0 : |((c % 2 ^ F.f : ℕ) : ℚ)| = ((c % 2 ^ F.f : ℕ) : ℚ) := abs_of_nonneg (by positivity)
       rw [h0] at hn
       have h1 : ((c % 2 ^ F.f : ℕ) : ℚ) < 2 ^ F.f := by exact_mod_cast hm
       have h2 : (2 : ℚ) ^ F.emin = (2 : ℚ) ^ F.f * (2 : ℚ) ^ (F.emin - F.f) := by
         rw [← zpow_natCast, ← zpow_add₀ (by norm_num)]; congr 1; ring
       rw [h2] at hn
       have h3 := mul_lt_mul_of_pos_right h1 (zpow_pos (by norm_num : (0 : ℚ) < 2) (F.emin - F.f))
       norm_num at hn
       linarith)
    | skip
  all_goals
    have hmant : mant F c = 2 ^ F.f + c % 2 ^ F.f := by rw [mant, if_neg ‹¬ expField F c = 0›]
    refine ⟨by omega, by omega, by omega, by rw [hmant, pow_succ]; omega, ?_⟩
    rw [← h, hmant, hsg]
    simp_all

theorem decode_build {F : Fmt} (s : Bool) {e m : ℕ} (he : 1 ≤ e) (he2 : e + 2 ≤ 2 ^ F.e) (hm : m < 2 ^ F.f) :
    F.decode (build F s e m) = .num (sg s * ((2 ^ F.f + m : ℕ) * (2 : ℚ) ^ ((e : ℤ) - F.emax - F.f))) := by
  have hf := Nat.two_pow_pos F.f
  have h1 : build F s e m % 2 ^ F.f = m := by
    rw [build, pow_add, show (if s then 1 else 0) * (2 ^ F.e * 2 ^ F.f) + e * 2 ^ F.f + m = m + 2 ^ F.f * ((if s then 1 else 0) * 2 ^ F.e + e) by ring,
      Nat.add_mul_mod_self_left, Nat.mod_eq_of_lt hm]
  have h2 : build F s e m / 2 ^ F.f = (if s then 1 else 0) * 2 ^ F.e + e := by
    rw [build, pow_add, show (if s then 1 else 0) * (2 ^ F.e * 2 ^ F.f) + e * 2 ^ F.f + m = m + 2 ^ F.f * ((if s then 1 else 0) * 2 ^ F.e + e) by ring,
      Nat.add_mul_div_left _ _ hf, Nat.div_eq_of_lt hm, Nat.zero_add]
  have h3 : build F s e m / 2 ^ F.f % 2 ^ F.e = e := by
    rw [h2, Nat.mul_add_mod_self_right, Nat.mod_eq_of_lt (by omega)]
  have h4 : build F s e m / 2 ^ (F.e + F.f) = if s then 1 else 0 := by
    rw [pow_add, mul_comm, ← Nat.div_div_eq_div_mul, h2, mul_comm, Nat.mul_add_div (Nat.two_pow_pos _), Nat.div_eq_of_lt (by omega), Nat.add_zero]
  unfold Fmt.decode
  dsimp only
  rw [h1, h3, h4, if_neg (by omega), if_neg (by omega)]
  cases s <;> simp [sg]

/-- What the rounding stage computes, for the exact value `s` the normalized significand `R` stands for: either it is exact, or `s` and
`R` lie between the same two consecutive multiples of the half unit of the last place (strictly, but `s` may be a multiple of the
unit). -/
theorem round_key {N o R : ℕ} (ho : 2 ≤ o) (hN : o + 1 ≤ N) (h1 : 2 ^ (N - 1) ≤ R) (h2 : R < 2 ^ N) {s : ℝ}
    (hs : s = R ∨ ∃ a : ℕ, (a : ℝ) * 2 ^ (N - o - 1) ≤ s ∧ (a % 2 = 1 → (a : ℝ) * 2 ^ (N - o - 1) < s) ∧ s < (a + 1) * 2 ^ (N - o - 1) ∧
      a * 2 ^ (N - o - 1) < R ∧ R < (a + 1) * 2 ^ (N - o - 1)) :
    (2 : ℝ) ^ (N - 1) ≤ s ∧ s < (2 : ℝ) ^ N ∧ (roundField N o R).1 < 2 ^ (o - 1) ∧
      (((roundField N o R).2 = 0 ∧ toInt .RN (s / 2 ^ (N - o)) = ((2 ^ (o - 1) + (roundField N o R).1 : ℕ) : ℤ)) ∨
        ((roundField N o R).2 = 1 ∧ (roundField N o R).1 = 2 ^ (o - 2) ∧ toInt .RN (s / 2 ^ (N - o)) = 2 ^ o)) := by
  obtain ⟨L, rfl⟩ : ∃ L, N = o + (L + 1) := ⟨N - o - 1, by omega⟩
  obtain ⟨q, rfl⟩ : ∃ q, o = q + 2 := ⟨o - 2, by omega⟩
  have e1 : q + 2 + (L + 1) - (q + 2) = L + 1 := by omega
  have e2 : q + 2 + (L + 1) - 1 = (q + 1) + (L + 1) := by omega
  have e3 : L + 1 - 1 = L := by omega
  have e4 : q + 2 - 1 = q + 1 := by omega
  have e5 : q + 2 - 2 = q := by omega
  unfold roundField
  dsimp only
  rw [e2] at h1
  simp only [e1, e3] at hs
  simp only [e1, e2, e3, e4, e5]
  have hh := Nat.two_pow_pos L
  -- quotient and remainders
  obtain ⟨M, hM⟩ : ∃ M, R / 2 ^ (L + 1) = M := ⟨_, rfl⟩
  obtain ⟨b, hb⟩ : ∃ b, R / 2 ^ L % 2 = b := ⟨_, rfl⟩
  obtain ⟨t, ht⟩ : ∃ t, R % 2 ^ L = t := ⟨_, rfl⟩
  have hb2 : b < 2 := by rw [← hb]; exact Nat.mod_lt _ (by decide)
  have ht2 : t < 2 ^ L := by rw [← ht]; exact Nat.mod_lt _ hh
  have hMd : M = R / 2 ^ L / 2 := by rw [← hM, pow_succ, Nat.div_div_eq_div_mul]
  have hRL : R / 2 ^ L = 2 * M + b := by omega
  have hR : R = (2 * M + b) * 2 ^ L + t := by rw [← hRL, ← ht, mul_comm]; exact (Nat.div_add_mod R (2 ^ L)).symm
  have hMl : 2 ^ (q + 1) ≤ M := by
    rw [← hM, Nat.le_div_iff_mul_le (Nat.two_pow_pos _), ← pow_add]; exact h1
  have hMu : M < 2 ^ (q + 2) := by
    rw [← hM, Nat.div_lt_iff_lt_mul (Nat.two_pow_pos _), ← pow_add]; exact h2
  have hq2 : (2 : ℕ) ^ (q + 2) = 2 * 2 ^ (q + 1) := by rw [pow_succ]; ring
  have hfield : M % 2 ^ (q + 1) = M - 2 ^ (q + 1) := by
    rw [Nat.mod_eq_sub_mod hMl, Nat.mod_eq_of_lt (by omega)]
  -- position of the exact value
  have hpos : (s = R) ∨ (t ≠ 0 ∧ ((2 * M + b : ℕ) : ℝ) * 2 ^ L ≤ s ∧ (b = 1 → ((2 * M + b : ℕ) : ℝ) * 2 ^ L < s) ∧
      s < ((2 * M + b : ℕ) + 1 : ℝ) * 2 ^ L) := by
    rcases hs with h | ⟨a, ha1, ha1', ha2, ha3, ha4⟩
    · exact .inl h
    · right
      have hae : a = 2 * M + b := by
        rw [← hRL]
        apply Nat.le_antisymm
        · rw [Nat.le_div_iff_mul_le hh]; exact ha3.le
        · have : R / 2 ^ L < a + 1 := by rw [Nat.div_lt_iff_lt_mul hh]; exact ha4
          omega
      subst hae
      refine ⟨?_, ha1, fun h => ha1' (by omega), ha2⟩
      rintro rfl
      omega
  have hLr : (0 : ℝ) < 2 ^ L := by positivity
  have hRr : (R : ℝ) = ((2 * M + b : ℕ) : ℝ) * 2 ^ L + t := by rw [hR]; push_cast; ring
  have htr : (t : ℝ) < 2 ^ L := by exact_mod_cast ht2
  have ht0 : (0 : ℝ) ≤ t := by positivity
  have hlo : ((2 * M + b : ℕ) : ℝ) * 2 ^ L ≤ s := by
    rcases hpos with h | h
    · rw [h, hRr]; linarith
    · exact h.2.1
  have hup : s < ((2 * M + b : ℕ) + 1 : ℝ) * 2 ^ L := by
    rcases hpos with h | h
    · rw [h, hRr]; linarith
    · exact h.2.2.2
  have hP : (2 : ℝ) ^ (L + 1) = 2 * 2 ^ L := by rw [pow_succ]; ring
  have hMr : (2 : ℝ) ^ (q + 1) ≤ M := by exact_mod_cast hMl
  have hMr2 : (M : ℝ) + 1 ≤ (2 : ℝ) ^ (q + 2) := by exact_mod_cast hMu
  have hbr : (b : ℝ) ≤ 1 := by exact_mod_cast Nat.le_of_lt_succ hb2
  have hb0 : (0 : ℝ) ≤ b := by positivity
  push_cast at hlo hup
  refine ⟨?_, ?_, ?_⟩
  · rw [pow_add, hP]
    calc (2 : ℝ) ^ (q + 1) * (2 * 2 ^ L) ≤ M * (2 * 2 ^ L) := by apply mul_le_mul_of_nonneg_right hMr; positivity
      _ ≤ (2 * M + b) * 2 ^ L := by nlinarith
      _ ≤ s := hlo
  · rw [pow_add, hP]
    calc s < _ := hup
      _ ≤ (M + 1) * (2 * 2 ^ L) := by nlinarith
      _ ≤ _ := by apply mul_le_mul_of_nonneg_right hMr2; positivity
  -- the integer part
  have hfl : ⌊s / 2 ^ (L + 1)⌋ = (M : ℤ) := by
    rw [Int.floor_eq_iff, hP, le_div_iff₀ (by positivity), div_lt_iff₀ (by positivity)]
    push_cast
    constructor <;> nlinarith
  have hfr : s / 2 ^ (L + 1) - (⌊s / 2 ^ (L + 1)⌋ : ℤ) = (s - 2 * M * 2 ^ L) / (2 * 2 ^ L) := by
    rw [hfl, hP]; push_cast; field_simp
  have hlt : s / 2 ^ (L + 1) - (⌊s / 2 ^ (L + 1)⌋ : ℤ) < 1 / 2 ↔ s < (2 * M + 1) * 2 ^ L := by
    rw [hfr, div_lt_iff₀ (by positivity)]
    constructor <;> intro h <;> linarith
  have hgt : 1 / 2 < s / 2 ^ (L + 1) - (⌊s / 2 ^ (L + 1)⌋ : ℤ) ↔ (2 * M + 1) * 2 ^ L < s := by
    rw [hfr, lt_div_iff₀ (by positivity)]
    constructor <;> intro h <;> linarith
  have tlt : s < (2 * M + 1) * 2 ^ L → toInt .RN (s / 2 ^ (L + 1)) = M := fun h => by
    simp only [toInt]; rw [if_pos (hlt.2 h), hfl]
  have tgt : (2 * M + 1) * 2 ^ L < s → toInt .RN (s / 2 ^ (L + 1)) = M + 1 := fun h => by
    simp only [toInt]; rw [if_neg (fun h' => lt_asymm h (hlt.1 h')), if_pos (hgt.2 h), hfl]
  have teq : s = (2 * M + 1) * 2 ^ L → toInt .RN (s / 2 ^ (L + 1)) = if (M : ℤ) % 2 = 0 then (M : ℤ) else M + 1 := fun h => by
    simp only [toInt]; rw [if_neg (fun h' => (hlt.1 h').ne h), if_neg (fun h' => (hgt.1 h').ne' h), hfl]
  rw [hM, hb, ht, hfield]
  -- the increment
  have key : ∃ i : ℕ, b &&& ((if t ≠ 0 then 1 else 0) ||| M % 2) = i ∧ i ≤ 1 ∧ toInt .RN (s / 2 ^ (L + 1)) = ((M + i : ℕ) : ℤ) := by
    obtain rfl | rfl : b = 0 ∨ b = 1 := by omega
    · refine ⟨0, by simp, by omega, ?_⟩
      rw [tlt (by push_cast at hup; linarith), Nat.add_zero]
    · by_cases ht' : t = 0
      · have hsR : s = (2 * M + 1) * 2 ^ L := by
          rcases hpos with h | h
          · rw [h, hRr, ht']; push_cast; ring
          · exact absurd ht' h.1
        rw [teq hsR, if_neg (not_not.2 ht')]
        rcases Nat.mod_two_eq_zero_or_one M with h | h
        · refine ⟨0, by rw [h]; decide, by omega, ?_⟩
          rw [if_pos (by omega)]; simp
        · refine ⟨1, by rw [h]; decide, by omega, ?_⟩
          rw [if_neg (by omega)]; simp
      · refine ⟨1, ?_, by omega, ?_⟩
        · rw [if_pos ht']
          rcases Nat.mod_two_eq_zero_or_one M with h | h <;> rw [h] <;> decide
        · have hg : (2 * M + 1) * 2 ^ L < s := by
            rcases hpos with h | h
            · rw [h, hRr]
              have : (0 : ℝ) < t := by exact_mod_cast Nat.pos_of_ne_zero ht'
              push_cast; linarith
            · have := h.2.2.1 rfl; push_cast at this; exact this
          rw [tgt hg]; simp
  obtain ⟨i, hi, hi1, hti⟩ := key
  rw [hi, hti]
  have hsum : (M - 2 ^ (q + 1) + i) % 2 ^ (q + 2) = M - 2 ^ (q + 1) + i := Nat.mod_eq_of_lt (by have := Nat.two_pow_pos (q + 1); omega)
  rw [hsum]
  have hq1 : (2 : ℕ) ^ (q + 1) = 2 * 2 ^ q := by rw [pow_succ]; ring
  have hq0 := Nat.two_pow_pos q
  by_cases hov : M - 2 ^ (q + 1) + i < 2 ^ (q + 1)
  · rw [Nat.div_eq_of_lt hov, Nat.mod_eq_of_lt hov]
    simp only [Nat.zero_mod, zero_ne_one, if_false]
    refine ⟨hov, .inl ⟨trivial, ?_⟩⟩
    congr 1
    omega
  · have he : M - 2 ^ (q + 1) + i = 2 ^ (q + 1) := by omega
    rw [he, Nat.div_self (Nat.two_pow_pos _)]
    simp only [Nat.one_mod, if_true]
    have : 2 ^ (q + 1) / 2 % 2 ^ (q + 1) = 2 ^ q := by
      rw [hq1, Nat.mul_div_cancel_left _ (by decide), Nat.mod_eq_of_lt (by omega)]
    rw [this]
    refine ⟨by omega, .inr ⟨trivial, rfl, ?_⟩⟩
    have : M + i = 2 ^ (q + 2) := by omega
    rw [this]; push_cast; rfl

theorem nearest_neg {F : Fmt} {x : ℝ} {v : ℚ} (h : NearestEven F x v) : NearestEven F (-x) (-v) := by
  obtain ⟨h1, h2, h3⟩ := h
  have e : ∀ w : ℚ, |-x - (w : ℝ)| = |x - ((-w : ℚ) : ℝ)| := fun w => by
    rw [← abs_neg]; congr 1; push_cast; ring
  refine ⟨unb_neg h1, fun w hw => ?_, fun w hw hne heq => ?_⟩
  · rw [e, e, neg_neg]; exact h2 _ (unb_neg hw)
  · rw [e, e, neg_neg] at heq
    obtain ⟨m, E, a1, a2, a3, a4, a5⟩ := h3 (-w) (unb_neg hw) (fun h => hne (by rw [← h, neg_neg])) heq
    exact ⟨-m, E, by rwa [abs_neg], a2, by rwa [abs_neg], a4.neg, by rw [a5]; push_cast; ring⟩

theorem nearest_sg {F : Fmt} {x : ℝ} {v : ℚ} (t : Bool) (h : NearestEven F ((sg t : ℚ) * x) v) : NearestEven F x (sg t * v) := by
  cases t
  · simpa [sg] using h
  · have := nearest_neg h
    simpa [sg] using this

theorem zp (k : ℤ) : (0 : ℚ) < (2 : ℚ) ^ k := zpow_pos (by norm_num) k

theorem zcast (k : ℤ) : (2 : ℝ) ^ k = (((2 : ℚ) ^ k : ℚ) : ℝ) := by push_cast; rfl

theorem zadd (a b : ℤ) : (2 : ℚ) ^ (a + b) = (2 : ℚ) ^ a * (2 : ℚ) ^ b := zpow_add₀ (by norm_num) _ _

/-- The end of the data path: normalization by the leading-zero count `k`, rounding, and the exponent of the result. -/
theorem finish {F : Fmt} (hf : 1 ≤ F.f) {N S k : ℕ} (hN : F.f + 2 ≤ N) (hS : 0 < S) (hk : HW.IsLzc N S k) {s : ℝ}
    (hs : s = S ∨ ∃ j a : ℕ, 2 ^ (j + F.f + 1) ≤ S ∧ S < 2 ^ (j + F.f + 2) ∧ (a : ℝ) * 2 ^ j ≤ s ∧
      (a % 2 = 1 → (a : ℝ) * 2 ^ j < s) ∧ s < (a + 1) * 2 ^ j ∧ a * 2 ^ j < S ∧ S < (a + 1) * 2 ^ j) (t : Bool) (K : ℤ) {x v : ℚ} (hx : (x : ℝ) = sg t * (s * (2 : ℝ) ^ K)) {E : ℤ} (hE : InBinade E x)
    (hmin : F.emin ≤ E) (hv : NearestEven F (x : ℝ) v) :
    E = K + (N - 1 - k) ∧ (roundField N (F.f + 1) (S * 2 ^ k % 2 ^ N)).1 < 2 ^ F.f ∧
      (((roundField N (F.f + 1) (S * 2 ^ k % 2 ^ N)).2 = 0 ∧
          v = sg t * ((2 ^ F.f + (roundField N (F.f + 1) (S * 2 ^ k % 2 ^ N)).1 : ℕ) * (2 : ℚ) ^ (E - F.f)) ∧ |v| < (2 : ℚ) ^ (E + 1)) ∨
        ((roundField N (F.f + 1) (S * 2 ^ k % 2 ^ N)).2 = 1 ∧ (roundField N (F.f + 1) (S * 2 ^ k % 2 ^ N)).1 = 2 ^ (F.f - 1) ∧
          v = sg t * (2 : ℚ) ^ (E + 1))) := by
  obtain ⟨hk1, hk2, hk3⟩ := hk
  have hkN : k < N := by
    rcases Nat.lt_or_ge k N with h | h
    · exact h
    · rw [show N - k = 0 by omega] at hk2; omega
  have hk3 := hk3 hkN
  have hSR : S * 2 ^ k < 2 ^ N := by
    calc S * 2 ^ k < 2 ^ (N - k) * 2 ^ k := Nat.mul_lt_mul_of_pos_right hk2 (Nat.two_pow_pos _)
      _ = 2 ^ N := by rw [← pow_add]; congr 1; omega
  have hRl : 2 ^ (N - 1) ≤ S * 2 ^ k := by
    calc 2 ^ (N - 1) = 2 ^ (N - 1 - k) * 2 ^ k := by rw [← pow_add]; congr 1; omega
      _ ≤ _ := Nat.mul_le_mul_right _ hk3
  rw [Nat.mod_eq_of_lt hSR]
  have key := round_key (N := N) (o := F.f + 1) (R := S * 2 ^ k) (s := s * 2 ^ k) (by omega) (by omega) hRl hSR (by
    rcases hs with h | ⟨j, a, h1, h2, h3, h3', h4, h5, h6⟩
    · left; rw [h]; push_cast; rfl
    · right
      have hj : N - (F.f + 1) - 1 = j + k := by
        have a1 : j + F.f + 1 < N - k := by
          by_contra hc
          have := Nat.pow_le_pow_right (n := 2) (by decide) (not_lt.1 hc)
          omega
        have a2 : N - 1 - k < j + F.f + 2 := by
          by_contra hc
          have := Nat.pow_le_pow_right (n := 2) (by decide) (not_lt.1 hc)
          omega
        omega
      have hp := Nat.two_pow_pos k
      have hpr : (0 : ℝ) < 2 ^ k := by positivity
      refine ⟨a, ?_, fun hodd => ?_, ?_, ?_, ?_⟩
      · rw [hj, pow_add, ← mul_assoc]; exact mul_le_mul_of_nonneg_right h3 hpr.le
      · rw [hj, pow_add, ← mul_assoc]; exact mul_lt_mul_of_pos_right (h3' hodd) hpr
      · rw [hj, pow_add, ← mul_assoc]; exact mul_lt_mul_of_pos_right h4 hpr
      · rw [hj, pow_add, ← mul_assoc]; exact Nat.mul_lt_mul_of_pos_right h5 hp
      · rw [hj, pow_add, ← mul_assoc]; exact Nat.mul_lt_mul_of_pos_right h6 hp)
  obtain ⟨b1, b2, b3, b4⟩ := key
  rw [show F.f + 1 - 1 = F.f by omega, show F.f + 1 - 2 = F.f - 1 by omega] at *
  -- the absolute value
  set y : ℝ := s * (2 : ℝ) ^ K with hy
  clear_value y
  have hsk : s * 2 ^ k = y * (2 : ℝ) ^ ((k : ℤ) - K) := by
    rw [hy, mul_assoc, ← radd]; congr 1; rw [← zpow_natCast]; congr 1; ring
  have hyp : 0 < y := by
    have : 0 < s * 2 ^ k := lt_of_lt_of_le (by positivity) b1
    rw [hsk] at this
    exact pos_of_mul_pos_left this (rp _).le
  have hay : |y| = y := abs_of_pos hyp
  have hxy : ((|x| : ℚ) : ℝ) = y := by
    rw [Rat.cast_abs, hx, abs_mul, hay, ← Rat.cast_abs, sg_abs]; simp
  have c1 : (2 : ℝ) ^ (K + (N - 1 - k)) ≤ |y| := by
    have : y = s * 2 ^ k * (2 : ℝ) ^ (K - k) := by rw [hsk, mul_assoc, ← radd]; simp
    rw [hay, this, show K + ((N : ℤ) - 1 - k) = ((N - 1 : ℕ) : ℤ) + (K - k) by rw [Nat.cast_sub (by omega)]; push_cast; ring, radd, zpow_natCast]
    exact mul_le_mul_of_nonneg_right b1 (rp _).le
  have c2 : |y| < (2 : ℝ) ^ (K + (N - 1 - k) + 1) := by
    have : y = s * 2 ^ k * (2 : ℝ) ^ (K - k) := by rw [hsk, mul_assoc, ← radd]; simp
    rw [hay, this, show K + ((N : ℤ) - 1 - k) + 1 = ((N : ℕ) : ℤ) + (K - k) by ring, radd, zpow_natCast]
    exact mul_lt_mul_of_pos_right b2 (rp _)
  have hEy1 : (2 : ℝ) ^ E ≤ |y| := by rw [hay, ← hxy, zcast]; exact Rat.cast_le.2 hE.1
  have hEy2 : |y| < (2 : ℝ) ^ (E + 1) := by rw [hay, ← hxy, zcast]; exact Rat.cast_lt.2 hE.2
  have hEK : E = K + (N - 1 - k) := by rw [← log_of hEy1 hEy2, log_of c1 c2]
  refine ⟨hEK, b3, ?_⟩
  -- the rounded value
  have hvy : sg t * v = roundUnb F .RN y := nearest_unique hf (nearest_sg t (by rw [← hx]; exact hv))
  have hlp : lastPlace F y = E - F.f := by unfold lastPlace; rw [log_of hEy1 hEy2, max_eq_left hmin]
  have hq : y / (2 : ℝ) ^ (E - F.f) = s * 2 ^ k / 2 ^ (N - (F.f + 1)) := by
    rw [hsk, div_eq_div_iff (rp _).ne' (by positivity), ← zpow_natCast (2 : ℝ) (N - (F.f + 1)), mul_assoc, ← radd]
    congr 2
    omega
  have hv2 : v = sg t * (toInt .RN (s * 2 ^ k / 2 ^ (N - (F.f + 1))) * (2 : ℚ) ^ (E - F.f)) := by
    have : v = sg t * (sg t * v) := by cases t <;> simp [sg]
    rw [this, hvy, roundUnb, if_neg hyp.ne', hlp, hq]
  rcases b4 with ⟨d1, d2⟩ | ⟨d1, d2, d3⟩
  · left
    refine ⟨d1, ?_, ?_⟩
    · rw [hv2, d2]; push_cast; rfl
    · rw [hv2, d2, abs_mul, sg_abs, one_mul, abs_mul, abs_of_pos (zp _), Int.cast_natCast, Nat.abs_cast,
        show E + 1 = ((F.f + 1 : ℕ) : ℤ) + (E - F.f) by push_cast; ring, zadd, zpow_natCast]
      apply mul_lt_mul_of_pos_right _ (zp _)
      have : 2 ^ F.f + (roundField N (F.f + 1) (S * 2 ^ k)).1 < 2 ^ (F.f + 1) := by rw [pow_succ]; omega
      exact_mod_cast this
  · right
    refine ⟨d1, d2, ?_⟩
    rw [hv2, d3, show E + 1 = ((F.f + 1 : ℕ) : ℤ) + (E - F.f) by push_cast; ring, zadd, zpow_natCast]
    push_cast; rfl

end Verif.FpHw
