import Verif.Legal.Model
import Verif.Float.Theorems
import Mathlib.Tactic.Push

/-!
# Field lemmas
-/

namespace Verif.Legal

open Verif.Float (Fmt bias nanOrInfField)

/-- Field extraction is the field. -/
theorem field_toNat {w : ℕ} (x : BitVec w) (lo hi : ℕ) (hlo : lo ≤ hi) (hhi : hi < w) :
    (fieldExtraction x lo hi).toNat = x.toNat / 2 ^ lo % 2 ^ (hi - lo + 1) := by
  unfold fieldExtraction
  by_cases hfull : hi - lo + 1 ≠ w
  · rw [if_pos hfull]
    have hlt : hi - lo + 1 < w := by omega
    apply Nat.eq_of_testBit_eq
    intro i
    have hpos : 0 < 2 ^ (hi - lo + 1) := Nat.two_pow_pos _
    have hm : (BitVec.ofNat w (2 ^ (hi - lo + 1) - 1)).toNat = 2 ^ (hi - lo + 1) - 1 := by
      rw [BitVec.toNat_ofNat, Nat.mod_eq_of_lt]
      have : 2 ^ (hi - lo + 1) ≤ 2 ^ w := Nat.pow_le_pow_right (by decide) (by omega)
      omega
    rw [BitVec.toNat_and, hm, Nat.testBit_and, Nat.testBit_two_pow_sub_one, Nat.testBit_mod_two_pow,
      Nat.testBit_div_two_pow]
    by_cases hi' : i < hi - lo + 1
    · simp only [hi', decide_true, Bool.and_true, Bool.true_and]
      by_cases h0 : lo = 0
      · subst h0; simp
      · rw [if_pos h0]
        show (x.sshiftRight lo).getLsbD i = _
        rw [BitVec.getLsbD_sshiftRight]
        have h1 : ¬ w ≤ i := by omega
        have h2 : lo + i < w := by omega
        simp only [h1, decide_false, Bool.not_false, Bool.true_and, if_pos h2]
        rw [Nat.add_comm lo i]; rfl
    · simp [hi']
  · rw [if_neg hfull]
    have h0 : lo = 0 := by omega
    subst h0
    have hw : hi - 0 + 1 = w := by omega
    rw [if_neg (by simp), hw, pow_zero, Nat.div_one, Nat.mod_eq_of_lt x.isLt]

theorem rawExp_toNat (F : Fmt) (he : 1 ≤ F.e) (x : BitVec (width F)) :
    (rawExpExtraction F x).toNat = expField F x.toNat := by
  unfold rawExpExtraction
  rw [field_toNat _ _ _ (by omega) (by unfold width; omega)]
  unfold expField
  congr 2; omega

theorem rawMant_toNat (F : Fmt) (hf : 1 ≤ F.f) (x : BitVec (width F)) :
    (rawMantissaExtraction F x).toNat = trailField F x.toNat := by
  unfold rawMantissaExtraction
  rw [field_toNat _ _ _ (by omega) (by unfold width; omega)]
  unfold trailField
  rw [pow_zero, Nat.div_one]
  congr 2; omega

theorem exp_lt (F : Fmt) (c : ℕ) : expField F c < 2 ^ F.e := Nat.mod_lt _ (Nat.two_pow_pos _)
theorem trail_lt (F : Fmt) (c : ℕ) : trailField F c < 2 ^ F.f := Nat.mod_lt _ (Nat.two_pow_pos _)

theorem pow_e_le (F : Fmt) : 2 ^ F.e < 2 ^ width F := Nat.pow_lt_pow_right (by decide) (by unfold width; omega)

/-- A pattern from its fields. -/
theorem fields_of (F : Fmt) (s E T : ℕ) (hs : s ≤ 1) (hE : E < 2 ^ F.e) (hT : T < 2 ^ F.f) :
    signField F (T + E * 2 ^ F.f + s * 2 ^ (F.e + F.f)) = s ∧
    expField F (T + E * 2 ^ F.f + s * 2 ^ (F.e + F.f)) = E ∧
    trailField F (T + E * 2 ^ F.f + s * 2 ^ (F.e + F.f)) = T := by
  have hp : 0 < 2 ^ F.f := Nat.two_pow_pos _
  have hq : 0 < 2 ^ F.e := Nat.two_pow_pos _
  have h1 : T + E * 2 ^ F.f + s * 2 ^ (F.e + F.f) = T + 2 ^ F.f * (E + 2 ^ F.e * s) := by
    rw [pow_add]; ring
  have h2 : (T + 2 ^ F.f * (E + 2 ^ F.e * s)) / 2 ^ F.f = E + 2 ^ F.e * s := by
    rw [Nat.add_mul_div_left _ _ hp, Nat.div_eq_of_lt hT, Nat.zero_add]
  rw [h1]
  unfold signField expField trailField
  refine ⟨?_, ?_, ?_⟩
  · rw [Nat.add_comm F.e, pow_add, ← Nat.div_div_eq_div_mul, h2, Nat.add_mul_div_left _ _ hq,
      Nat.div_eq_of_lt hE, Nat.zero_add]
    omega
  · rw [h2, Nat.add_mul_mod_self_left, Nat.mod_eq_of_lt hE]
  · rw [Nat.add_mul_mod_self_left, Nat.mod_eq_of_lt hT]

theorem fields_eq (F : Fmt) (c : ℕ) (hc : c < 2 ^ width F) :
    c = trailField F c + expField F c * 2 ^ F.f + signField F c * 2 ^ (F.e + F.f) := by
  unfold trailField expField signField
  have hs : c / 2 ^ (F.e + F.f) < 2 := by
    apply Nat.div_lt_of_lt_mul
    have : 2 ^ width F = 2 ^ (F.e + F.f) * 2 := by
      rw [← pow_succ]; congr 1; unfold width; omega
    omega
  have h1 := Nat.div_add_mod c (2 ^ F.f)
  have h2 := Nat.div_add_mod (c / 2 ^ F.f) (2 ^ F.e)
  rw [Nat.div_div_eq_div_mul, ← pow_add] at h2
  rw [Nat.mod_eq_of_lt hs]
  rw [Nat.add_comm F.e F.f] at *
  have h3 : 2 ^ (F.f + F.e) = 2 ^ F.f * 2 ^ F.e := pow_add _ _ _
  rw [h3]
  conv_lhs => rw [← h1, ← h2, h3]
  ring

theorem quiet_toNat (F : Fmt) (hf : 1 ≤ F.f) (x : BitVec (width F)) :
    (fieldExtraction x (F.f - 1) (F.f - 1)).toNat = trailField F x.toNat / 2 ^ (F.f - 1) := by
  rw [field_toNat _ _ _ (by omega) (by unfold width; omega)]
  unfold trailField
  obtain ⟨g, hg⟩ : ∃ g, F.f = g + 1 := ⟨F.f - 1, by omega⟩
  rw [hg]
  simp only [Nat.add_sub_cancel, Nat.sub_self, Nat.zero_add, pow_one]
  rw [pow_succ, Nat.mod_mul_right_div_self]

theorem allButSign_toNat (F : Fmt) (he : 1 ≤ F.e) (x : BitVec (width F)) :
    (fieldExtraction x 0 (width F - 2)).toNat = trailField F x.toNat + expField F x.toNat * 2 ^ F.f := by
  rw [field_toNat _ _ _ (by omega) (by unfold width; omega), pow_zero, Nat.div_one]
  have hw : width F - 2 - 0 + 1 = F.e + F.f := by unfold width; omega
  rw [hw]
  conv_lhs => rw [fields_eq F x.toNat x.isLt]
  rw [Nat.add_mul_mod_self_right, Nat.mod_eq_of_lt]
  have h1 := exp_lt F x.toNat
  have h2 := trail_lt F x.toNat
  rw [pow_add]
  nlinarith

/-- Magnitude of a normal pattern. -/
theorem value_normal (F : Fmt) (c : ℕ) (h : expField F c ≠ 0) :
    |value F c| = (2 : ℚ) ^ ((expField F c : ℤ) - F.emax) * (1 + trailField F c / 2 ^ F.f) := by
  unfold value
  rw [if_neg h, abs_mul, abs_mul, abs_pow, abs_neg, abs_one, one_pow, one_mul,
    abs_of_pos (Verif.Float.zp _), abs_of_nonneg (by positivity), max_eq_left (by omega)]

theorem log_value (F : Fmt) (c : ℕ) (h : expField F c ≠ 0) :
    Int.log 2 |value F c| = expField F c - F.emax := by
  rw [value_normal F c h]
  have hp := Verif.Float.zp ((expField F c : ℤ) - F.emax)
  have ht : (trailField F c : ℚ) / 2 ^ F.f < 1 := by
    rw [div_lt_one (by positivity)]
    exact_mod_cast trail_lt F c
  have ht0 : (0 : ℚ) ≤ (trailField F c : ℚ) / 2 ^ F.f := by positivity
  apply Verif.Float.log_eq
  · nlinarith
  · rw [Verif.Float.zsucc]; nlinarith

end Verif.Legal
