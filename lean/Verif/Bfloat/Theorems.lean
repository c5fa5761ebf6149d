import Verif.Bfloat.Model
import Verif.Kulisch.Spec
import Verif.Float.Theorems
import Mathlib.Tactic.NormNum
import Mathlib.Tactic.Positivity
import Mathlib.Tactic.FieldSimp

/-! # C108: the Brain Float format -/

namespace Verif.Bfloat

open Verif.Float (Fmt Val rndUnb rnd integerCoding Err zp zadd znat)
open Verif.Kulisch (number)

/-- the decoding of a word in the format with `k` more bits of significand -/
theorem decode_shift (e f k w : ℕ) (hf : 1 ≤ f) : (Fmt.mk e (f + k)).decode (w * 2 ^ k) = (Fmt.mk e f).decode w := by
  have p : 0 < 2 ^ k := by positivity
  have h1 : w * 2 ^ k / 2 ^ (e + (f + k)) = w / 2 ^ (e + f) := by
    rw [show e + (f + k) = (e + f) + k by ring, pow_add, Nat.mul_div_mul_right _ _ p]
  have h2 : w * 2 ^ k / 2 ^ (f + k) = w / 2 ^ f := by rw [pow_add, Nat.mul_div_mul_right _ _ p]
  have h3 : w * 2 ^ k % 2 ^ (f + k) = w % 2 ^ f * 2 ^ k := by rw [pow_add, Nat.mul_mod_mul_right]
  have h4 : 2 ^ (f + k - 1) = 2 ^ (f - 1) * 2 ^ k := by rw [← pow_add]; congr 1; omega
  have em : (Fmt.mk e (f + k)).emax = (Fmt.mk e f).emax := rfl
  have em2 : (Fmt.mk e (f + k)).emin = (Fmt.mk e f).emin := rfl
  have z : ∀ z : ℤ, (2 : ℚ) ^ k * (2 : ℚ) ^ (z - ((f + k : ℕ) : ℤ)) = (2 : ℚ) ^ (z - (f : ℤ)) := by
    intro z
    rw [← znat, ← zadd]
    congr 1
    push_cast
    ring
  unfold Fmt.decode
  simp only [h1, h2, h3, h4, em, em2]
  have m0 : (w % 2 ^ f * 2 ^ k = 0) ↔ (w % 2 ^ f = 0) := by
    rw [Nat.mul_eq_zero]
    constructor
    · rintro (h | h)
      · exact h
      · exact absurd h p.ne'
    · exact Or.inl
  have mq : (2 ^ (f - 1) * 2 ^ k ≤ w % 2 ^ f * 2 ^ k) ↔ (2 ^ (f - 1) ≤ w % 2 ^ f) := Nat.mul_le_mul_right_iff p
  simp only [m0, mq]
  have a1 : ((w % 2 ^ f * 2 ^ k : ℕ) : ℚ) * (2 : ℚ) ^ ((Fmt.mk e f).emin - ((f + k : ℕ) : ℤ))
      = ((w % 2 ^ f : ℕ) : ℚ) * (2 : ℚ) ^ ((Fmt.mk e f).emin - (f : ℤ)) := by
    rw [← z, Nat.cast_mul, Nat.cast_pow, Nat.cast_ofNat]; ring
  have a2 : ((2 : ℚ) ^ (f + k) + ((w % 2 ^ f * 2 ^ k : ℕ) : ℚ)) * (2 : ℚ) ^ (((w / 2 ^ f % 2 ^ e : ℕ) : ℤ) - (Fmt.mk e f).emax - ((f + k : ℕ) : ℤ))
      = ((2 : ℚ) ^ f + ((w % 2 ^ f : ℕ) : ℚ)) * (2 : ℚ) ^ (((w / 2 ^ f % 2 ^ e : ℕ) : ℤ) - (Fmt.mk e f).emax - (f : ℤ)) := by
    rw [← z, Nat.cast_mul, Nat.cast_pow, Nat.cast_ofNat, pow_add]; ring
  rw [a1, a2]

/-- **C108 (widening)**: the conversion to binary32 preserves every datum, zeros, infinities and NaNs included. -/
theorem C108_widen (w : ℕ) (hw : w < 2 ^ 16) : b32.decode (widen w) = bf16.decode w := by
  unfold widen
  rw [Nat.mod_eq_of_lt (by omega)]
  exact decode_shift 8 7 16 w (by norm_num)

/-- **C108 (round trip)**: narrowing what was widened gives the word back. -/
theorem C108_narrow_widen (w : ℕ) (hw : w < 2 ^ 16) : truncate (widen w) = w := by
  unfold widen truncate
  omega

/-- fields of the decoding of a number -/
theorem number_of_fields (F : Fmt) (c : ℕ) (h : c / 2 ^ F.f % 2 ^ F.e ≠ 2 ^ F.e - 1) :
    number (F.decode c) = some ((if c / 2 ^ (F.e + F.f) = 1 then -1 else 1) *
      ((((if c / 2 ^ F.f % 2 ^ F.e = 0 then 0 else 2 ^ F.f) + c % 2 ^ F.f : ℕ) : ℚ) *
      (2 : ℚ) ^ (F.emin - 1 + ((max (c / 2 ^ F.f % 2 ^ F.e) 1 : ℕ) : ℤ) - F.f))) := by
  unfold Fmt.decode
  simp only
  rw [if_neg h]
  have em : F.emin - 1 = - F.emax := by unfold Fmt.emin; ring
  obtain ⟨E, hE⟩ : ∃ E, E = c / 2 ^ F.f % 2 ^ F.e := ⟨_, rfl⟩
  obtain ⟨m, hm⟩ : ∃ m, m = c % 2 ^ F.f := ⟨_, rfl⟩
  rw [← hE, ← hm]
  by_cases h0 : E = 0
  · rw [if_pos h0, if_pos h0]
    by_cases hm0 : m = 0
    · rw [if_pos hm0, hm0]
      split_ifs <;> simp [number]
    · rw [if_neg hm0, h0]
      simp [number]
  · rw [if_neg h0, if_neg h0, number, max_eq_left (Nat.one_le_iff_ne_zero.2 h0), em,
      show - F.emax + (E : ℤ) - F.f = (E : ℤ) - F.emax - F.f by ring]
    push_cast
    rfl

theorem not_number (F : Fmt) (c : ℕ) (h : c / 2 ^ F.f % 2 ^ F.e = 2 ^ F.e - 1) : number (F.decode c) = none := by
  unfold Fmt.decode
  simp only
  rw [if_pos h]
  split_ifs <;> rfl

theorem finite_le {F : Fmt} (M k : ℕ) (q : ℤ) (hM : q = F.emin - F.f ∨ 2 ^ (F.f + k) ≤ M) (x : ℚ) (hx : F.Finite x)
    (hle : |x| ≤ M * (2 : ℚ) ^ (q - k)) : |x| ≤ (M / 2 ^ k : ℕ) * (2 : ℚ) ^ q := by
  obtain ⟨n, E, hn, hE1, hE2, rfl⟩ := hx
  rw [abs_mul, abs_of_pos (zp _)] at hle ⊢
  have hna : |(n : ℚ)| = (n.natAbs : ℚ) := by rw [← Int.cast_abs, Int.abs_eq_natAbs]; rfl
  have hnn : n.natAbs < 2 ^ (F.f + 1) := by
    rw [Int.abs_eq_natAbs] at hn
    exact_mod_cast hn
  rw [hna] at hle ⊢
  by_cases hc : q ≤ E - F.f
  · obtain ⟨t, ht⟩ : ∃ t : ℕ, E - F.f = q + t := ⟨(E - F.f - q).toNat, by omega⟩
    rw [ht, zadd, znat] at hle ⊢
    have e : (2 : ℚ) ^ q = 2 ^ k * (2 : ℚ) ^ (q - k) := by rw [← znat, ← zadd]; congr 1; ring
    rw [e] at hle
    have pp := zp (q - k)
    have h1 : (n.natAbs : ℚ) * 2 ^ t * 2 ^ k ≤ M := by
      refine le_of_mul_le_mul_right ?_ pp
      linarith
    have h2 : n.natAbs * 2 ^ t * 2 ^ k ≤ M := by exact_mod_cast h1
    have h3 : n.natAbs * 2 ^ t ≤ M / 2 ^ k := (Nat.le_div_iff_mul_le (by positivity)).2 h2
    have h4 : (n.natAbs : ℚ) * 2 ^ t ≤ (M / 2 ^ k : ℕ) := by exact_mod_cast h3
    calc (n.natAbs : ℚ) * ((2 : ℚ) ^ q * 2 ^ t) = ((n.natAbs : ℚ) * 2 ^ t) * (2 : ℚ) ^ q := by ring
      _ ≤ _ := mul_le_mul_of_nonneg_right h4 (zp q).le
  · rcases hM with hM | hM
    · omega
    · have h1 : 2 ^ F.f ≤ M / 2 ^ k := by
        rw [Nat.le_div_iff_mul_le (by positivity), ← pow_add]; exact hM
      have h2 : (2 : ℚ) ^ F.f ≤ (M / 2 ^ k : ℕ) := by exact_mod_cast h1
      have h3 : (n.natAbs : ℚ) ≤ 2 ^ (F.f + 1) := by exact_mod_cast hnn.le
      calc (n.natAbs : ℚ) * (2 : ℚ) ^ (E - F.f) ≤ 2 ^ (F.f + 1) * (2 : ℚ) ^ (E - F.f) := mul_le_mul_of_nonneg_right h3 (zp _).le
        _ = (2 : ℚ) ^ (E + 1) := by rw [← znat, ← zadd]; congr 1; push_cast; ring
        _ ≤ (2 : ℚ) ^ (F.f + q) := zpow_le_zpow_right₀ (by norm_num) (by omega)
        _ = 2 ^ F.f * (2 : ℚ) ^ q := by rw [zadd, znat]
        _ ≤ _ := mul_le_mul_of_nonneg_right h2 (zp q).le

/-- dropping the `k` low bits of a word rounds toward zero -/
theorem truncate_general (e f k c : ℕ) (he : 2 ≤ e) (v : ℚ)
    (hv : number ((Fmt.mk e (f + k)).decode c) = some v) :
    ∃ r, number ((Fmt.mk e f).decode (c / 2 ^ k)) = some r ∧ TowardZero (Fmt.mk e f) v r := by
  have p : 0 < 2 ^ k := by positivity
  have h1 : c / 2 ^ k / 2 ^ f = c / 2 ^ (f + k) := by rw [Nat.div_div_eq_div_mul, ← pow_add, add_comm]
  have h2 : c / 2 ^ k / 2 ^ (e + f) = c / 2 ^ (e + (f + k)) := by
    rw [Nat.div_div_eq_div_mul, ← pow_add]; congr 2; ring
  have h3 : c / 2 ^ k % 2 ^ f = c % 2 ^ (f + k) / 2 ^ k := by
    rw [show f + k = k + f by ring, pow_add, Nat.mod_mul_right_div_self]
  have hfin : c / 2 ^ (f + k) % 2 ^ e ≠ 2 ^ e - 1 := by
    intro h
    rw [not_number (Fmt.mk e (f + k)) c h] at hv
    cases hv
  rw [number_of_fields (Fmt.mk e (f + k)) c hfin] at hv
  have hr := number_of_fields (Fmt.mk e f) (c / 2 ^ k) (by
    simp only
    rw [h1]
    exact hfin)
  simp only [h1, h2, h3] at hr
  refine ⟨_, hr, ?_⟩
  simp only [Option.some.injEq] at hv
  obtain ⟨E, hE⟩ : ∃ E, E = c / 2 ^ (f + k) % 2 ^ e := ⟨_, rfl⟩
  obtain ⟨m, hm⟩ : ∃ m, m = c % 2 ^ (f + k) := ⟨_, rfl⟩
  obtain ⟨s, hs⟩ : ∃ s : ℚ, s = if c / 2 ^ (e + (f + k)) = 1 then -1 else 1 := ⟨_, rfl⟩
  have s2 : s * s = 1 := by rw [hs]; split_ifs <;> norm_num
  have sa : |s| = 1 := by rw [hs]; split_ifs <;> norm_num
  rw [← hE, ← hm, ← hs] at hv ⊢
  rw [← hE] at hfin
  have hmlt : m < 2 ^ (f + k) := by rw [hm]; exact Nat.mod_lt _ (by positivity)
  have hElt : E < 2 ^ e := by rw [hE]; exact Nat.mod_lt _ (by positivity)
  have em : (Fmt.mk e (f + k)).emin = (Fmt.mk e f).emin := rfl
  rw [em] at hv
  obtain ⟨M, hM⟩ : ∃ M, M = (if E = 0 then 0 else 2 ^ (f + k)) + m := ⟨_, rfl⟩
  rw [← hM] at hv
  have hMd : (if E = 0 then 0 else 2 ^ f) + m / 2 ^ k = M / 2 ^ k := by
    rw [hM]
    split_ifs
    · simp
    · rw [pow_add, mul_comm (2 ^ f), Nat.mul_add_div p]
  rw [hMd]
  obtain ⟨q, hq⟩ : ∃ q : ℤ, q = (Fmt.mk e f).emin - 1 + ((max E 1 : ℕ) : ℤ) - f := ⟨_, rfl⟩
  rw [← hq]
  have hqk : (Fmt.mk e f).emin - 1 + ((max E 1 : ℕ) : ℤ) - ((f + k : ℕ) : ℤ) = q - k := by rw [hq]; push_cast; ring
  rw [hqk] at hv
  have vabs : |v| = M * (2 : ℚ) ^ (q - k) := by
    rw [← hv, abs_mul, sa, one_mul, abs_of_nonneg (by have := zp (q - k); positivity)]
  have rabs : |s * ((M / 2 ^ k : ℕ) * (2 : ℚ) ^ q)| = (M / 2 ^ k : ℕ) * (2 : ℚ) ^ q := by
    rw [abs_mul, sa, one_mul, abs_of_nonneg (by have := zp q; positivity)]
  have eqk : (2 : ℚ) ^ q = 2 ^ k * (2 : ℚ) ^ (q - k) := by rw [← znat, ← zadd]; congr 1; ring
  have hMle : ((M / 2 ^ k : ℕ) : ℚ) * 2 ^ k ≤ M := by exact_mod_cast Nat.div_mul_le_self M (2 ^ k)
  have hMlt : M / 2 ^ k < 2 ^ (f + 1) := by
    rw [Nat.div_lt_iff_lt_mul p, hM]
    have : 2 ^ (f + 1) * 2 ^ k = 2 * 2 ^ (f + k) := by rw [← pow_add]; ring
    rw [this]
    split_ifs <;> omega
  refine ⟨⟨if s = -1 then -((M / 2 ^ k : ℕ) : ℤ) else ((M / 2 ^ k : ℕ) : ℤ), q + f, ?_, ?_, ?_, ?_⟩, ?_, ?_, ?_⟩
  · have : (((M / 2 ^ k : ℕ) : ℤ)) < 2 ^ (f + 1) := by exact_mod_cast hMlt
    split_ifs
    · rw [abs_neg, abs_of_nonneg (by positivity)]; exact this
    · rw [abs_of_nonneg (by positivity)]; exact this
  · rw [hq]
    have : 1 ≤ max E 1 := le_max_right _ _
    omega
  · rw [hq]
    have h5 : max E 1 ≤ 2 ^ e - 2 := by
      have : 4 ≤ 2 ^ e := by
        calc 4 = 2 ^ 2 := by norm_num
          _ ≤ 2 ^ e := Nat.pow_le_pow_right (by norm_num) he
      rcases max_choice E 1 with h | h <;> rw [h] <;> omega
    have h6 : (2 : ℤ) ^ e = 2 * 2 ^ (e - 1) := by
      rw [← pow_succ']; congr 1; omega
    have h7 : ((max E 1 : ℕ) : ℤ) ≤ 2 ^ e - 2 := by
      have : 2 ≤ 2 ^ e := by
        calc 2 = 2 ^ 1 := by norm_num
          _ ≤ 2 ^ e := Nat.pow_le_pow_right (by norm_num) (by omega)
      have h8 : ((max E 1 : ℕ) : ℤ) ≤ ((2 ^ e - 2 : ℕ) : ℤ) := by exact_mod_cast h5
      rw [Nat.cast_sub this] at h8
      push_cast at h8 ⊢
      exact h8
    unfold Fmt.emin Fmt.emax
    simp only
    rw [h6] at h7
    linarith
  · simp only [add_sub_cancel_right]
    rcases (by rw [hs]; split_ifs <;> simp : s = -1 ∨ s = 1) with h | h
    · rw [if_pos h, h, Int.cast_neg, Int.cast_natCast]; ring
    · rw [if_neg (by rw [h]; norm_num), h, Int.cast_natCast]; ring
  · rw [← hv]
    have e1 : s * ((M / 2 ^ k : ℕ) * (2 : ℚ) ^ q) * (s * (M * (2 : ℚ) ^ (q - k))) = (s * s) * ((M / 2 ^ k : ℕ) * (2 : ℚ) ^ q * (M * (2 : ℚ) ^ (q - k))) := by ring
    rw [e1, s2, one_mul]
    have := zp q
    have := zp (q - k)
    positivity
  · rw [rabs, vabs, eqk, ← mul_assoc]
    exact mul_le_mul_of_nonneg_right hMle (zp _).le
  · intro x hx hxv
    rw [rabs]
    rw [vabs] at hxv
    refine finite_le (F := Fmt.mk e f) M k q ?_ x hx hxv
    by_cases h0 : E = 0
    · left; rw [hq, h0]; simp
    · right; rw [hM, if_neg h0]; exact Nat.le_add_right _ _

/-- **C108 (narrowing)**: the conversion of a number of binary32 rounds it toward zero. -/
theorem C108_narrow (c : ℕ) (hc : c < 2 ^ 32) (v : ℚ) (hv : number (b32.decode c) = some v) :
    ∃ r, number (bf16.decode (truncate c)) = some r ∧ TowardZero bf16 v r := by
  have : truncate c = c / 2 ^ 16 := by unfold truncate; omega
  rw [this]
  exact truncate_general 8 7 16 c (by norm_num) v hv

/-- **C108 (narrowing, infinities)**. -/
theorem C108_narrow_infinity : bf16.decode (truncate 0x7f800000) = .plusInf ∧ bf16.decode (truncate 0xff800000) = .minusInf ∧
    b32.decode 0x7f800000 = .plusInf ∧ b32.decode 0xff800000 = .minusInf := by
  refine ⟨?_, ?_, ?_, ?_⟩ <;> norm_num [truncate, Fmt.decode, bf16, b32]

/-- **C108 (narrowing, NaN) is false**: a NaN whose payload is in the low bits becomes an infinity. -/
theorem C108_narrow_nan_wrong (p : ℕ) (h0 : 0 < p) (hp : p < 2 ^ 16) :
    b32.decode (0x7f800000 + p) = .sNaN ∧ bf16.decode (truncate (0x7f800000 + p)) = .plusInf := by
  have e1 : (0x7f800000 + p) / 2 ^ 23 = 255 := by omega
  have e2 : (0x7f800000 + p) % 2 ^ 23 = p := by omega
  have e3 : (0x7f800000 + p) / 2 ^ 31 = 0 := by omega
  have e4 : truncate (0x7f800000 + p) = 0x7f80 := by unfold truncate; omega
  constructor
  · have q1 : (255 : ℕ) % 2 ^ 8 = 2 ^ 8 - 1 := by norm_num
    have q2 : ¬ 2 ^ (23 - 1) ≤ p := by norm_num; omega
    unfold Fmt.decode b32
    simp only
    rw [e1, e2, if_pos q1, if_neg h0.ne', if_neg q2]
  · rw [e4]
    norm_num [Fmt.decode, bf16]

/-- **C108 (narrowing, NaN), partial**: a quiet NaN stays a quiet NaN. -/
theorem C108_narrow_nan_partial (c : ℕ) (hc : c < 2 ^ 32) (h : b32.decode c = .qNaN) : bf16.decode (truncate c) = .qNaN := by
  have f1 : c / 2 ^ 23 % 2 ^ 8 = 2 ^ 8 - 1 ∧ 2 ^ 22 ≤ c % 2 ^ 23 := by
    unfold Fmt.decode b32 at h
    simp only at h
    split_ifs at h with h1 h2 h3 h4 <;> simp_all
  have g1 : truncate c / 2 ^ 7 % 2 ^ 8 = 2 ^ 8 - 1 := by unfold truncate; omega
  have g2 : 2 ^ 6 ≤ truncate c % 2 ^ 7 := by unfold truncate; omega
  unfold Fmt.decode bf16
  simp only
  rw [if_pos g1, if_neg (by omega), if_pos g2]

/-- **C108 (constants), partial**: the word of a constant is the truncation of the nearest number of binary32. -/
theorem C108_constant_partial (v : ℚ) (hv : b32.Finite v) (h0 : v ≠ 0) :
    ∃ w r, cst (.num v) = .ok w ∧ number (bf16.decode w) = some r ∧ TowardZero bf16 v r := by
  obtain ⟨c, hc, hlt, hd⟩ : ∃ c, integerCoding b32 (.num v) = .ok c ∧ c < 2 ^ 32 ∧ b32.decode c = .num v := by
    obtain ⟨c, h1, h2, h3⟩ := Verif.Float.C01_round_trip b32 (by norm_num [b32]) (by norm_num [b32]) (.num v) ⟨hv, h0⟩ (by simp)
    refine ⟨c, h1, h2, ?_⟩
    rw [← Verif.Float.C01_decode_ieee b32 (by norm_num [b32]) (by norm_num [b32]) c h2, h3]
  have hn : number (b32.decode c) = some v := by rw [hd]; rfl
  obtain ⟨r, hr, ht⟩ := C108_narrow c hlt v hn
  refine ⟨c >>> 16, r, by rw [cst, hc]; rfl, ?_, ht⟩
  have : c >>> 16 = truncate c := by rw [Nat.shiftRight_eq_div_pow]; unfold truncate; omega
  rw [this]
  exact hr

theorem mul_of_finite {x : ℚ} (hx : bf16.Finite x) (h1 : 1 ≤ x) : ∃ n : ℤ, x = n / 128 := by
  obtain ⟨m, E, hm, hE1, hE2, rfl⟩ := hx
  have f7 : bf16.f = 7 := rfl
  rw [f7] at hm h1 ⊢
  have hE : 0 ≤ E := by
    by_contra hc
    have a1 : (m : ℚ) ≤ 256 := by
      have : m < 2 ^ 8 := (le_abs_self m).trans_lt hm
      have : m ≤ 256 := by omega
      exact_mod_cast this
    have a2 : (2 : ℚ) ^ (E - ((7 : ℕ) : ℤ)) ≤ (2 : ℚ) ^ (-8 : ℤ) := zpow_le_zpow_right₀ (by norm_num) (by push_cast; omega)
    have a3 : (m : ℚ) * (2 : ℚ) ^ (E - ((7 : ℕ) : ℤ)) ≤ 256 * (2 : ℚ) ^ (-8 : ℤ) :=
      (mul_le_mul_of_nonneg_right a1 (zp _).le).trans (mul_le_mul_of_nonneg_left a2 (by norm_num))
    have a4 : (256 : ℚ) * (2 : ℚ) ^ (-8 : ℤ) = 1 := by norm_num
    have a5 : (m : ℚ) * (2 : ℚ) ^ (E - ((7 : ℕ) : ℤ)) = 1 := le_antisymm (by linarith) h1
    have b1 : (m : ℚ) < 256 := by
      have : m < 2 ^ 8 := (le_abs_self m).trans_lt hm
      have : m < 256 := by omega
      exact_mod_cast this
    have b2 : (m : ℚ) * (2 : ℚ) ^ (E - ((7 : ℕ) : ℤ)) < 256 * (2 : ℚ) ^ (E - ((7 : ℕ) : ℤ)) := mul_lt_mul_of_pos_right b1 (zp _)
    have b3 : (256 : ℚ) * (2 : ℚ) ^ (E - ((7 : ℕ) : ℤ)) ≤ 256 * (2 : ℚ) ^ (-8 : ℤ) := mul_le_mul_of_nonneg_left a2 (by norm_num)
    linarith
  obtain ⟨t, ht⟩ : ∃ t : ℕ, E = t := ⟨E.toNat, by omega⟩
  refine ⟨m * 2 ^ t, ?_⟩
  rw [ht, show (t : ℤ) - ((7 : ℕ) : ℤ) = (t : ℤ) + (-7) by push_cast; ring, zadd, znat]
  push_cast
  norm_num
  ring

/-- **C108 (constants) is false**: a constant above the middle of two numbers of the format is not given the nearest one. -/
theorem C108_constant_wrong (j : ℕ) (hj : 128 ≤ j) (hj2 : j < 255) (v : ℚ) (hv : b32.Finite v) (h1 : ((2 * j + 1 : ℕ) : ℚ) / 256 < v)
    (h2 : v < ((j + 1 : ℕ) : ℚ) / 128) :
    ∃ w r, cst (.num v) = .ok w ∧ number (bf16.decode w) = some r ∧ ¬ Nearest bf16 v r := by
  have hjq : (128 : ℚ) ≤ j := by exact_mod_cast hj
  push_cast at h1 h2
  have v1 : 1 < v := by linarith
  obtain ⟨w, r, hw, hr, hfin, hs, hle, -⟩ := C108_constant_partial v hv (by linarith)
  refine ⟨w, r, hw, hr, fun hn => ?_⟩
  have hx : bf16.Finite (((j + 1 : ℕ) : ℚ) / 128) := by
    refine ⟨(j + 1 : ℕ), 0, ?_, ?_, ?_, ?_⟩
    · rw [abs_of_nonneg (by positivity)]
      have : j + 1 < 256 := by omega
      have f7 : bf16.f = 7 := rfl
      rw [f7]
      push_cast
      norm_num
      omega
    · norm_num [bf16, Fmt.emin, Fmt.emax]
    · norm_num [bf16, Fmt.emax]
    · have f7 : bf16.f = 7 := rfl
      rw [f7]
      push_cast
      norm_num
      ring
  have h3 := hn.2 _ hx
  push_cast at h3
  rw [abs_of_nonneg (by linarith : (0 : ℚ) ≤ ((j : ℚ) + 1) / 128 - v)] at h3
  rw [abs_of_pos (by linarith : (0 : ℚ) < v)] at hle
  have hr2 : r ≤ v := (le_abs_self r).trans hle
  rw [abs_of_nonpos (by linarith : r - v ≤ 0)] at h3
  have hr3 : (j : ℚ) / 128 < r := by linarith
  obtain ⟨n, hn'⟩ := mul_of_finite hfin (by linarith)
  rw [hn'] at hr3 hr2
  have c1 : (j : ℚ) < n := by linarith
  have c2 : (n : ℚ) < j + 1 := by linarith
  have c1' : (j : ℤ) < n := by exact_mod_cast c1
  have c2' : n < (j : ℤ) + 1 := by exact_mod_cast c2
  omega

theorem roundDigits_fix (v : ℚ) (z j : ℤ) (hv : v = z * (2 : ℚ) ^ j) (hj : Int.log 2 |v| - 10 ≤ j) : roundDigits 11 v = v := by
  unfold roundDigits
  split_ifs with h0
  · exact h0.symm
  · obtain ⟨t, ht⟩ : ∃ t : ℕ, j = Int.log 2 |v| - 10 + t := ⟨(j - (Int.log 2 |v| - 10)).toNat, by omega⟩
    obtain ⟨L, hL⟩ : ∃ L, L = Int.log 2 |v| := ⟨_, rfl⟩
    rw [← hL] at ht ⊢
    have q : L - (((11 : ℕ) : ℤ) - 1) = L - 10 := by norm_num
    simp only [q]
    have pp := zp (L - 10)
    have e : v / (2 : ℚ) ^ (L - 10) = ((z * 2 ^ t : ℤ) : ℚ) := by
      rw [hv, ht, zadd, znat]
      push_cast
      field_simp
    rw [e, Verif.Float.rne_int]
    rw [hv, ht, zadd, znat]
    push_cast
    ring

theorem b32_of_bf16 {v : ℚ} (h : bf16.Finite v) : b32.Finite v := by
  obtain ⟨m, E, hm, h1, h2, h3⟩ := h
  refine ⟨m * 2 ^ 16, E, ?_, h1, h2, ?_⟩
  · have f7 : bf16.f = 7 := rfl
    have f23 : b32.f = 23 := rfl
    rw [f7] at hm
    rw [f23, abs_mul]
    norm_num at hm ⊢
    omega
  · rw [h3]
    have f7 : bf16.f = 7 := rfl
    have f23 : b32.f = 23 := rfl
    rw [f7, f23, show E - ((7 : ℕ) : ℤ) = ((16 : ℕ) : ℤ) + (E - ((23 : ℕ) : ℤ)) by push_cast; ring, zadd, znat]
    push_cast
    ring

/-- **C108 (rounding), partial**: a normal number of the format is unchanged. -/
theorem C108_round_partial (v : ℚ) (hv : bf16.Normal v) : roundBf16 v = some v := by
  have hlow : (2 : ℚ) ^ b32.emin ≤ |v| := hv.2
  have hpos : 0 < |v| := lt_of_lt_of_le (zp _) hlow
  have hf32 := b32_of_bf16 hv.1
  obtain ⟨m, E, hm, h1, h2, h3⟩ := hv.1
  have f7 : bf16.f = 7 := rfl
  rw [f7] at hm h3
  have hlog : Int.log 2 |v| ≤ E := by
    by_contra hc
    have a1 : (2 : ℚ) ^ (E + 1) ≤ |v| := (zpow_le_zpow_right₀ (by norm_num) (by omega)).trans (Verif.Float.pow_log_le hpos)
    have a2 : |v| < (2 : ℚ) ^ (E + 1) := by
      rw [h3, abs_mul, abs_of_pos (zp _)]
      have : (|m| : ℤ) < 256 := by norm_num at hm; exact hm
      have b1 : |(m : ℚ)| < 256 := by exact_mod_cast this
      calc |(m : ℚ)| * (2 : ℚ) ^ (E - ((7 : ℕ) : ℤ)) < 256 * (2 : ℚ) ^ (E - ((7 : ℕ) : ℤ)) := mul_lt_mul_of_pos_right b1 (zp _)
        _ = (2 : ℚ) ^ (E + 1) := by
          rw [show E + 1 = ((8 : ℕ) : ℤ) + (E - ((7 : ℕ) : ℤ)) by push_cast; ring, zadd, znat]; norm_num
    linarith
  unfold roundBf16
  have e := roundDigits_fix v m (E - ((7 : ℕ) : ℤ)) h3 (by push_cast; omega)
  simp only [e]
  rw [if_neg (not_lt.2 hlow)]
  exact Verif.Float.rnd_finite (by norm_num [b32]) hf32

/-- **C108 (rounding) is false**: the numbers of `[1, 2)` with 10 bits after the point are unchanged, though the format only has 7. -/
theorem C108_round_wrong (n : ℕ) (h1 : 1024 ≤ n) (h2 : n < 2048) (h8 : ¬ 8 ∣ n) :
    roundBf16 ((n : ℚ) / 1024) = some ((n : ℚ) / 1024) ∧ ¬ bf16.Finite ((n : ℚ) / 1024) := by
  have q1 : (1024 : ℚ) ≤ n := by exact_mod_cast h1
  have q2 : (n : ℚ) < 2048 := by exact_mod_cast h2
  have v1 : (1 : ℚ) ≤ (n : ℚ) / 1024 := by linarith
  have v2 : (n : ℚ) / 1024 < 2 := by linarith
  have hv : (n : ℚ) / 1024 = ((n : ℤ) : ℚ) * (2 : ℚ) ^ (-10 : ℤ) := by norm_num; ring
  have hlog : Int.log 2 |(n : ℚ) / 1024| = 0 := Verif.Float.log_eq (by rw [abs_of_pos (by linarith)]; simpa using v1)
    (by rw [abs_of_pos (by linarith)]; simpa using v2)
  constructor
  · unfold roundBf16
    have e := roundDigits_fix ((n : ℚ) / 1024) n (-10) hv (by rw [hlog]; norm_num)
    simp only [e]
    have hb : (2 : ℚ) ^ b32.emin ≤ 1 := by
      have : b32.emin ≤ 0 := by norm_num [b32, Fmt.emin, Fmt.emax]
      calc (2 : ℚ) ^ b32.emin ≤ (2 : ℚ) ^ (0 : ℤ) := zpow_le_zpow_right₀ (by norm_num) this
        _ = 1 := by norm_num
    rw [if_neg (not_lt.2 (by rw [abs_of_pos (by linarith)]; linarith))]
    refine Verif.Float.rnd_finite (by norm_num [b32]) ⟨(n : ℤ) * 2 ^ 13, 0, ?_, ?_, ?_, ?_⟩
    · have f23 : b32.f = 23 := rfl
      rw [f23, abs_of_nonneg (by positivity)]
      norm_num
      omega
    · norm_num [b32, Fmt.emin, Fmt.emax]
    · norm_num [b32, Fmt.emax]
    · have f23 : b32.f = 23 := rfl
      rw [f23]
      push_cast
      norm_num
      ring
  · intro hf
    obtain ⟨k, hk⟩ := mul_of_finite hf v1
    apply h8
    have : (n : ℚ) = 8 * k := by linarith
    have : (n : ℤ) = 8 * k := by exact_mod_cast this
    have : (8 : ℤ) ∣ n := ⟨k, this⟩
    exact_mod_cast this

/-- a number of the format: 3/2 in both formats -/
example : bf16.decode 0x3fc0 = .num (3 / 2) ∧ b32.decode (widen 0x3fc0) = .num (3 / 2) := by
  have : bf16.decode 0x3fc0 = .num (3 / 2) := by norm_num [Fmt.decode, bf16, Fmt.emax]
  exact ⟨this, by rw [C108_widen _ (by norm_num)]; exact this⟩

/-- the hypotheses of `C108_constant_wrong`: 1 + 3/512 -/
example : b32.Finite (515 / 512 : ℚ) ∧ ((2 * 128 + 1 : ℕ) : ℚ) / 256 < 515 / 512 ∧ (515 / 512 : ℚ) < ((128 + 1 : ℕ) : ℚ) / 128 :=
  ⟨⟨515 * 2 ^ 14, 0, by norm_num [b32], by norm_num [b32, Fmt.emin, Fmt.emax], by norm_num [b32, Fmt.emax], by norm_num [b32]⟩, by norm_num, by norm_num⟩

/-- the hypothesis of `C108_narrow`: 1 + 3/512 again -/
example : number (b32.decode 0x3f80c000) = some (515 / 512) := by norm_num [Fmt.decode, b32, Fmt.emax, number]

example : b32.decode 0x7fc00000 = .qNaN := by norm_num [Fmt.decode, b32]

end Verif.Bfloat
