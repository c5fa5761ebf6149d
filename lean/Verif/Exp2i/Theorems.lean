import Verif.Exp2i.Model
import Verif.Legal.Theorems

namespace Verif.Exp2i

open Verif.Float (Fmt bias emaxM eminNormal)
open Verif.Legal (width cls value signField expField trailField expInsertion)

theorem emaxM_eq (F : Fmt) (he : 1 ≤ F.e) : emaxM F = F.emax := by
  have h := (Legal.emax_bounds F he).2
  unfold emaxM
  rw [Legal.bias_emax]
  linarith

theorem eminNormal_eq (F : Fmt) : eminNormal F = F.emin := by
  unfold eminNormal
  rw [Legal.bias_emax]
  unfold Fmt.emin
  ring

theorem smin_toInt {n : ℕ} (a b : BitVec n) : (smin a b).toInt = min a.toInt b.toInt := by
  unfold smin
  split <;> omega

theorem smax_toInt {n : ℕ} (a b : BitVec n) : (smax a b).toInt = max a.toInt b.toInt := by
  unfold smax
  split <;> omega

/-- the exponent the function returns a power of two for -/
def clampE (F : Fmt) (x : ℤ) : ℤ := max (min x F.emax) F.emin

theorem emax_pos (F : Fmt) (he : 2 ≤ F.e) : 1 ≤ F.emax := by
  unfold Fmt.emax
  have : (2 : ℤ) ^ 1 ≤ 2 ^ (F.e - 1) := pow_le_pow_right₀ (by norm_num) (by omega)
  linarith

theorem clampE_bounds (F : Fmt) (he : 2 ≤ F.e) (x : ℤ) : F.emin ≤ clampE F x ∧ clampE F x ≤ F.emax := by
  have h := emax_pos F he
  unfold clampE
  have : F.emin = 1 - F.emax := rfl
  omega
theorem boundExp_toInt (F : Fmt) (he : 2 ≤ F.e) {n : ℕ} (hn : F.e < n) (x : BitVec n) :
    (boundExp F x).toInt = clampE F x.toInt + F.emax := by
  obtain ⟨hm0, hm⟩ := Legal.emax_bounds F (by omega)
  have hp : 2 * (2 : ℤ) ^ F.e ≤ 2 ^ n := by
    rw [← pow_succ']; exact pow_le_pow_right₀ (by norm_num) (by omega)
  have hmin : F.emin = 1 - F.emax := rfl
  have h1 : (BitVec.ofInt n (emaxM F)).toInt = F.emax := by
    rw [BitVec.toInt_ofInt, emaxM_eq F (by omega), Legal.bmod_small] <;> linarith
  have h2 : (BitVec.ofInt n (eminNormal F)).toInt = F.emin := by
    rw [BitVec.toInt_ofInt, eminNormal_eq, Legal.bmod_small] <;> linarith
  have h3 : (BitVec.ofInt n (-bias F)).toInt = F.emax := by
    rw [BitVec.toInt_ofInt, Legal.bias_emax, neg_neg, Legal.bmod_small] <;> linarith
  have hb := clampE_bounds F he x.toInt
  unfold boundExp
  rw [BitVec.toInt_add, smax_toInt, smin_toInt, h1, h2, h3]
  show (clampE F x.toInt + F.emax).bmod _ = _
  rw [Legal.bmod_small] <;> linarith

theorem toNat_of_toInt {w : ℕ} (z : BitVec w) (t : ℕ) (h : z.toInt = t) : z.toNat = t := by
  rcases Nat.lt_or_ge (2 * z.toNat) (2 ^ w) with hlt | hge
  · rw [Legal.toInt_small z hlt] at h
    exact_mod_cast h
  · exfalso
    rw [BitVec.toInt_eq_toNat_cond, if_neg (by omega)] at h
    have := z.isLt
    have hp : (2 : ℤ) ^ w = ((2 ^ w : ℕ) : ℤ) := by push_cast; rfl
    omega

theorem shl_toNat (F : Fmt) (z : BitVec (width F)) (t : ℕ) (h : z.toNat = t) (ht : t < 2 * 2 ^ F.e) : (z <<< F.f).toNat = t * 2 ^ F.f := by
  rw [BitVec.toNat_shiftLeft, h, Nat.shiftLeft_eq, Nat.mod_eq_of_lt]
  have h4 : 2 ^ width F = 2 * (2 ^ F.e * 2 ^ F.f) := by
    rw [← pow_add, ← pow_succ']; congr 1; unfold width; omega
  have h5 : 0 < 2 ^ F.f := Nat.two_pow_pos _
  rw [h4]
  nlinarith

theorem fast_toNat (F : Fmt) (he : 2 ≤ F.e) {n : ℕ} (hn : F.e < n) (hw : n ≤ width F) (x : BitVec n) :
    (fastExp2i F x).toNat = (clampE F x.toInt + F.emax).toNat * 2 ^ F.f := by
  obtain ⟨hm0, hm⟩ := Legal.emax_bounds F (by omega)
  have hb := clampE_bounds F he x.toInt
  have hmin : F.emin = 1 - F.emax := rfl
  have hpe : (2 : ℤ) ^ F.e = ((2 ^ F.e : ℕ) : ℤ) := by push_cast; rfl
  unfold fastExp2i insertNoOffset
  apply shl_toNat
  · apply toNat_of_toInt
    rw [BitVec.toInt_signExtend_of_le hw, boundExp_toInt F he hn]
    omega
  · omega

/-- the value of a pattern with an empty significand field -/
theorem value_of_exp (F : Fmt) (t : ℕ) (h0 : 0 < t) (h1 : t < 2 ^ F.e - 1) :
    cls F (t * 2 ^ F.f) = .normal ∧ value F (t * 2 ^ F.f) = (2 : ℚ) ^ ((t : ℤ) - F.emax) := by
  have h := Legal.fields_of F 0 t 0 (by omega) (by omega) (Nat.two_pow_pos _)
  rw [Nat.zero_mul, Nat.add_zero, Nat.zero_add] at h
  obtain ⟨hs, hE, hT⟩ := h
  refine ⟨Legal.normal_of (by omega) (by omega), ?_⟩
  unfold value
  rw [hs, hE, hT, if_neg (by omega), Nat.max_eq_left h0]
  simp

/-- **C125** (value). For every binary format, every signed integer format that holds the biased exponents and is not wider than the format, and every input, the function returns the power of two of the input limited to the exponents of the normal numbers. -/
theorem C125_value (F : Fmt) (he : 2 ≤ F.e) {n : ℕ} (hn : F.e < n) (hw : n ≤ width F) (x : BitVec n) :
    cls F (fastExp2i F x).toNat = .normal ∧ value F (fastExp2i F x).toNat = (2 : ℚ) ^ max (min x.toInt F.emax) F.emin := by
  obtain ⟨hm0, hm⟩ := Legal.emax_bounds F (by omega)
  have hb := clampE_bounds F he x.toInt
  have hmin : F.emin = 1 - F.emax := rfl
  have hpe : (2 : ℤ) ^ F.e = ((2 ^ F.e : ℕ) : ℤ) := by push_cast; rfl
  rw [fast_toNat F he hn hw]
  have h := value_of_exp F (clampE F x.toInt + F.emax).toNat (by omega) (by omega)
  refine ⟨h.1, ?_⟩
  rw [h.2]
  congr 1
  show _ = clampE F x.toInt
  omega

theorem zpow_inj (a b : ℤ) (h : (2 : ℚ) ^ a = 2 ^ b) : a = b :=
  zpow_right_injective₀ (by norm_num) (by norm_num) h

/-- **C125** (exactness). The result is the number `2^x` exactly for the exponents of the normal numbers. Missing from the English claim (`2^x` rounded for every `x`): the other inputs, see `C125_clamp_wrong`. -/
theorem C125_exact_partial (F : Fmt) (he : 2 ≤ F.e) {n : ℕ} (hn : F.e < n) (hw : n ≤ width F) (x : BitVec n) :
    Encodes F (fastExp2i F x).toNat ((2 : ℚ) ^ x.toInt) ↔ F.emin ≤ x.toInt ∧ x.toInt ≤ F.emax := by
  obtain ⟨hc, hv⟩ := C125_value F he hn hw x
  unfold Encodes
  rw [hc, hv]
  have hb := clampE_bounds F he x.toInt
  unfold clampE at hb
  constructor
  · rintro ⟨-, -, -, h⟩
    have := zpow_inj _ _ h
    omega
  · intro h
    refine ⟨by simp, by simp, by simp, ?_⟩
    congr 1
    omega

/-- **C125** (wrong: gradual underflow and overflow). Below the normal numbers `2^x` is still a number of the format, and the function returns a larger one. Above the largest exponent, `2^x` is larger than every number of the format, and the function returns a finite number. -/
theorem C125_clamp_wrong (F : Fmt) (he : 2 ≤ F.e) {n : ℕ} (hn : F.e < n) (hw : n ≤ width F) (x : BitVec n) :
    (low F ≤ x.toInt → x.toInt < F.emin → F.Finite ((2 : ℚ) ^ x.toInt) ∧ (2 : ℚ) ^ x.toInt < value F (fastExp2i F x).toNat) ∧
    (F.emax < x.toInt → (∀ v, F.Finite v → v < (2 : ℚ) ^ x.toInt) ∧ Encodes F (fastExp2i F x).toNat ((2 : ℚ) ^ F.emax)) := by
  obtain ⟨hc, hv⟩ := C125_value F he hn hw x
  have hb := clampE_bounds F he x.toInt
  unfold clampE at hb
  refine ⟨fun h1 h2 => ⟨?_, ?_⟩, fun h => ⟨?_, ?_⟩⟩
  · unfold low at h1
    refine ⟨2 ^ (x.toInt - (F.emin - F.f)).toNat, F.emin, ?_, le_refl _, by omega, ?_⟩
    · rw [abs_of_pos (by positivity)]
      exact pow_lt_pow_right₀ (by norm_num) (by omega)
    · push_cast
      rw [← zpow_natCast, ← zpow_add₀ (by norm_num)]
      congr 1
      omega
  · rw [hv]
    exact zpow_lt_zpow_right₀ (by norm_num) (by omega)
  · rintro v ⟨m, E, hm, -, hE, rfl⟩
    have h1 : (m : ℚ) < (2 : ℚ) ^ ((F.f : ℤ) + 1) := by
      have : m < 2 ^ (F.f + 1) := lt_of_le_of_lt (le_abs_self m) hm
      have h : (m : ℚ) < ((2 ^ (F.f + 1) : ℤ) : ℚ) := by exact_mod_cast this
      push_cast at h
      exact_mod_cast h
    calc (m : ℚ) * (2 : ℚ) ^ (E - F.f) < (2 : ℚ) ^ ((F.f : ℤ) + 1) * (2 : ℚ) ^ (E - F.f) :=
          mul_lt_mul_of_pos_right h1 (zpow_pos (by norm_num) _)
      _ = (2 : ℚ) ^ (E + 1) := by rw [← zpow_add₀ (by norm_num)]; congr 1; ring
      _ ≤ (2 : ℚ) ^ x.toInt := zpow_le_zpow_right₀ (by norm_num) (by omega)
  · unfold Encodes
    rw [hc, hv]
    refine ⟨by simp, by simp, by simp, ?_⟩
    congr 1
    omega

theorem legalized_toNat (F : Fmt) (he : 2 ≤ F.e) {n : ℕ} (hn : F.e < n) (hw : n ≤ width F) (hf : 1 ≤ F.f) (x : BitVec n) :
    (legalized F x).toNat = (clampE F x.toInt + 2 * F.emax).toNat * 2 ^ F.f := by
  obtain ⟨hm0, hm⟩ := Legal.emax_bounds F (by omega)
  have hb := clampE_bounds F he x.toInt
  have hmin : F.emin = 1 - F.emax := rfl
  have hpe : (2 : ℤ) ^ F.e = ((2 ^ F.e : ℕ) : ℤ) := by push_cast; rfl
  have hW : 4 * (2 : ℤ) ^ F.e ≤ 2 ^ width F := by
    have : (4 : ℤ) = 2 ^ 2 := by norm_num
    rw [this, ← pow_add]
    exact pow_le_pow_right₀ (by norm_num) (by unfold width; omega)
  have h3 : (BitVec.ofInt (width F) (-bias F)).toInt = F.emax := by
    rw [BitVec.toInt_ofInt, Legal.bias_emax, neg_neg, Legal.bmod_small] <;> linarith
  unfold legalized expandInsertion expInsertion
  apply shl_toNat
  · apply toNat_of_toInt
    rw [BitVec.toInt_add, h3, BitVec.toInt_signExtend_of_le hw, boundExp_toInt F he hn, Legal.bmod_small]
    · omega
    · linarith
    · linarith
  · omega

/-- **C125** (wrong: legalization). The expansion of the insertion adds the bias a second time: after it the function returns `2^x` for no input at all. -/
theorem C125_legalized_wrong (F : Fmt) (he : 2 ≤ F.e) (hf : 1 ≤ F.f) {n : ℕ} (hn : F.e < n) (hw : n ≤ width F) (x : BitVec n) :
    ¬ Encodes F (legalized F x).toNat ((2 : ℚ) ^ x.toInt) := by
  obtain ⟨hm0, hm⟩ := Legal.emax_bounds F (by omega)
  have hb := clampE_bounds F he x.toInt
  have hB := emax_pos F he
  have hmin : F.emin = 1 - F.emax := rfl
  have hpe : (2 : ℤ) ^ F.e = ((2 ^ F.e : ℕ) : ℤ) := by push_cast; rfl
  rw [legalized_toNat F he hn hw hf]
  obtain ⟨t, ht⟩ : ∃ t, t = (clampE F x.toInt + 2 * F.emax).toNat := ⟨_, rfl⟩
  rw [← ht]
  rintro ⟨h1, -, -, h4⟩
  rcases Nat.lt_trichotomy t (2 ^ F.e - 1) with h | h | h
  · rw [(value_of_exp F t (by omega) h).2] at h4
    have := zpow_inj _ _ h4
    unfold clampE at hb ht
    omega
  · apply h1
    have hx := Legal.fields_of F 0 t 0 (by omega) (by omega) (Nat.two_pow_pos _)
    rw [Nat.zero_mul, Nat.add_zero, Nat.zero_add] at hx
    unfold cls
    rw [if_pos (by omega), if_pos hx.2.2]
  · have hx := Legal.fields_of F 1 (t - 2 ^ F.e) 0 (by omega) (by omega) (Nat.two_pow_pos _)
    have e : 0 + (t - 2 ^ F.e) * 2 ^ F.f + 1 * 2 ^ (F.e + F.f) = t * 2 ^ F.f := by
      rw [Nat.zero_add, one_mul, pow_add, ← Nat.add_mul]
      congr 1
      omega
    rw [e] at hx
    have h5 : value F (t * 2 ^ F.f) ≤ 0 := by
      unfold value
      rw [hx.1, hx.2.2]
      obtain ⟨w, hw⟩ : ∃ w, w = (2 : ℚ) ^ (((max (expField F (t * 2 ^ F.f)) 1 : ℕ) : ℤ) - F.emax) := ⟨_, rfl⟩
      have h0 : 0 < w := hw ▸ zpow_pos (by norm_num) _
      rw [← hw, Nat.cast_zero, zero_div, add_zero, pow_one]
      split
      · simp
      · linarith
    rw [h4] at h5
    have : (0 : ℚ) < 2 ^ x.toInt := zpow_pos (by norm_num) _
    linarith

/-- binary32 -/
abbrev b32 : Fmt := ⟨8, 23⟩

-- 32-bit integers and binary32 meet the hypotheses
example : 2 ≤ b32.e ∧ b32.e < 32 ∧ 32 ≤ width b32 ∧ 1 ≤ b32.f := by decide
-- 2^3 is returned for 3, and `-2^(-126)` after the legalization; 2^(-126) is returned for -149
example : (fastExp2i b32 (3 : BitVec 32)).toNat = 0x41000000 ∧ (legalized b32 (3 : BitVec 32)).toNat = 0x80800000 := by decide +kernel
example : (fastExp2i b32 (-149 : BitVec 32)).toNat = 0x00800000 ∧ low b32 = -149 ∧ b32.emin = -126 := by decide +kernel
example : (fastExp2i b32 (200 : BitVec 32)).toNat = 0x7f000000 ∧ b32.emax < 200 := by decide +kernel

end Verif.Exp2i
