import Verif.VLog.Model
import Verif.Legal.Theorems
import Mathlib.Data.Nat.Log
import Mathlib.Tactic.Linarith
import Mathlib.Tactic.Ring
import Mathlib.Tactic.FieldSimp
import Mathlib.Tactic.Positivity
import Mathlib.Tactic.NormNum

namespace Verif.VLog

open Verif.Float (Fmt bias)
open Verif.Legal (cls value signField expField trailField)

theorem pp (k : ℕ) : 0 < 2 ^ k := Nat.two_pow_pos k
theorem qpp (k : ℕ) : (0 : ℚ) < 2 ^ k := by positivity

theorem fields (F : Fmt) (E T : ℕ) (hE : E < 2 ^ F.e) (hT : T < 2 ^ F.f) :
    E * 2 ^ F.f + T < 2 ^ (F.e + F.f) ∧ (E * 2 ^ F.f + T) / 2 ^ F.f = E ∧ (E * 2 ^ F.f + T) % 2 ^ F.f = T := by
  refine ⟨?_, ?_, ?_⟩
  · rw [pow_add]
    calc E * 2 ^ F.f + T < E * 2 ^ F.f + 2 ^ F.f := by omega
      _ = (E + 1) * 2 ^ F.f := by ring
      _ ≤ 2 ^ F.e * 2 ^ F.f := Nat.mul_le_mul_right _ hE
  · rw [add_comm, Nat.add_mul_div_right _ _ (pp F.f), Nat.div_eq_of_lt hT, zero_add]
  · rw [add_comm, Nat.add_mul_mod_self_right, Nat.mod_eq_of_lt hT]

theorem expField_pos (F : Fmt) (c : ℕ) (h : c < 2 ^ (F.e + F.f)) : expField F c = c / 2 ^ F.f := by
  unfold expField
  apply Nat.mod_eq_of_lt
  apply Nat.div_lt_of_lt_mul
  rwa [← pow_add, add_comm]

theorem value_pos (F : Fmt) (c : ℕ) (h : c < 2 ^ (F.e + F.f)) :
    value F c = (2 : ℚ) ^ ((max (c / 2 ^ F.f) 1 : ℕ) - F.emax) * ((if c / 2 ^ F.f = 0 then 0 else 1) + (c % 2 ^ F.f : ℕ) / 2 ^ F.f) := by
  unfold value
  have s : signField F c = 0 := by
    unfold signField
    rw [Nat.div_eq_of_lt h]
  rw [s, expField_pos F c h]
  unfold trailField
  simp

theorem value_fields (F : Fmt) (E T : ℕ) (hE : E < 2 ^ F.e) (h0 : E ≠ 0) (hT : T < 2 ^ F.f) :
    value F (E * 2 ^ F.f + T) = (2 : ℚ) ^ ((E : ℤ) - F.emax) * (1 + T / 2 ^ F.f) := by
  obtain ⟨a, b, c⟩ := fields F E T hE hT
  rw [value_pos F _ a, b, c, if_neg h0, max_eq_left (by omega)]

theorem posFinite_iff (F : Fmt) (c : ℕ) :
    PosFinite F c ↔ c < 2 ^ (F.e + F.f) ∧ c / 2 ^ F.f ≠ 2 ^ F.e - 1 ∧ c ≠ 0 := by
  unfold PosFinite
  constructor
  · rintro ⟨h, hc⟩
    refine ⟨h, ?_, ?_⟩
    · intro he
      rw [← expField_pos F c h] at he
      unfold cls at hc
      rw [if_pos he] at hc
      rcases hc with hc | hc <;> split_ifs at hc
    · rintro rfl
      unfold cls expField trailField at hc
      simp only [Nat.zero_div, Nat.zero_mod, if_true] at hc
      rcases hc with hc | hc <;> split_ifs at hc
  · rintro ⟨h, he, h0⟩
    refine ⟨h, ?_⟩
    rw [← expField_pos F c h] at he
    unfold cls
    rw [if_neg he]
    by_cases h1 : expField F c = 0
    · rw [if_pos h1]
      rw [expField_pos F c h] at h1
      have : trailField F c ≠ 0 := by
        unfold trailField
        have := Nat.div_add_mod c (2 ^ F.f)
        rw [h1] at this
        omega
      rw [if_neg this]
      exact Or.inr rfl
    · rw [if_neg h1]; exact Or.inl rfl

theorem emax_nat (F : Fmt) : F.emax = ((2 ^ (F.e - 1) - 1 : ℕ) : ℤ) := by
  unfold Fmt.emax
  have := pp (F.e - 1)
  push_cast [Nat.cast_sub this]
  rfl

theorem pow_e (F : Fmt) (he : 1 ≤ F.e) : 2 ^ F.e = 2 * 2 ^ (F.e - 1) := by
  obtain ⟨k, hk⟩ : ∃ k, F.e = k + 1 := ⟨F.e - 1, by omega⟩
  rw [hk, Nat.add_sub_cancel, pow_succ]; ring

/-- **C132.** Every positive finite number, subnormal or not, becomes a normal number, multiplied exactly by the power of two that `alpha` tells;
nothing happens to normal numbers. -/
theorem C132_normalization (F : Fmt) (hw : Wide F) (sub : ℕ → ℕ) (hs : ExactSub F sub) (x : ℕ) (hx : PosFinite F x) :
    0 ≤ alpha F sub x ∧ alpha F sub x ≤ F.f ∧ (cls F x = .normal → alpha F sub x = 0 ∧ normalInt F sub x = x) ∧
      PosFinite F (normalInt F sub x) ∧ cls F (normalInt F sub x) = .normal ∧
      value F (normalInt F sub x) = value F x * (2 : ℚ) ^ alpha F sub x := by
  obtain ⟨he, hf⟩ := hw
  obtain ⟨hlt, hne, h0⟩ := (posFinite_iff F x).1 hx
  have pe := pow_e F (by omega)
  have bE : bias F = -F.emax := Legal.bias_emax F
  have eN := emax_nat F
  have p4 : 2 ^ 2 ≤ 2 ^ (F.e - 1) := Nat.pow_le_pow_right (by norm_num) (by omega)
  by_cases hsub : x < 2 ^ F.f
  · -- subnormal
    obtain ⟨k, hk⟩ : ∃ k, k = Nat.log 2 x := ⟨_, rfl⟩
    have k1 : 2 ^ k ≤ x := by rw [hk]; exact Nat.pow_log_le_self 2 h0
    have k2 : x < 2 ^ (k + 1) := by rw [hk]; exact Nat.lt_pow_succ_log_self (by norm_num) x
    have kf : k < F.f := (Nat.pow_lt_pow_iff_right (by norm_num : 1 < 2)).1 (lt_of_le_of_lt k1 hsub)
    obtain ⟨d, hd⟩ : ∃ d, F.f = k + d := ⟨F.f - k, by omega⟩
    have isS : isSubnormal F x = true := by
      unfold isSubnormal
      have : (x : ℤ) < 2 ^ F.f := by exact_mod_cast hsub
      simpa using this
    have hzi : x ||| one F = (2 ^ (F.e - 1) - 1) * 2 ^ F.f + x := by
      unfold one
      rw [Nat.or_comm, mul_comm, Nat.two_pow_add_eq_or_of_lt hsub]
    have Elt : 2 ^ (F.e - 1) - 1 < 2 ^ F.e := by omega
    have pz : PosFinite F (x ||| one F) := by
      rw [hzi]
      obtain ⟨a, b, -⟩ := fields F _ x Elt hsub
      exact (posFinite_iff F _).2 ⟨a, by rw [b]; omega, by omega⟩
    have vz : value F (x ||| one F) = 1 + x / 2 ^ F.f := by
      rw [hzi, value_fields F _ x Elt (by omega) hsub, eN, sub_self, zpow_zero, one_mul]
    -- the pattern of the difference
    obtain ⟨r, hr⟩ : ∃ r, x = 2 ^ k + r := ⟨x - 2 ^ k, by omega⟩
    have r2 : r < 2 ^ k := by rw [pow_succ] at k2; omega
    have hT : r * 2 ^ d < 2 ^ F.f := by
      rw [hd, pow_add]
      exact Nat.mul_lt_mul_of_pos_right r2 (pp d)
    have hE : 2 ^ (F.e - 1) - 1 - d < 2 ^ F.e := by omega
    have hE0 : 2 ^ (F.e - 1) - 1 - d ≠ 0 := by omega
    obtain ⟨fa, fb, fc⟩ := fields F _ _ hE hT
    have pd : PosFinite F ((2 ^ (F.e - 1) - 1 - d) * 2 ^ F.f + r * 2 ^ d) := by
      refine (posFinite_iff F _).2 ⟨fa, by rw [fb]; omega, ?_⟩
      have : 1 * 1 ≤ (2 ^ (F.e - 1) - 1 - d) * 2 ^ F.f := Nat.mul_le_mul (by omega) (pp _)
      omega
    have vd : value F ((2 ^ (F.e - 1) - 1 - d) * 2 ^ F.f + r * 2 ^ d) = value F (x ||| one F) - 1 := by
      rw [vz, value_fields F _ _ hE hE0 hT, eN]
      have e1 : (((2 ^ (F.e - 1) - 1 - d : ℕ) : ℤ) - ((2 ^ (F.e - 1) - 1 : ℕ) : ℤ)) = -(d : ℤ) := by omega
      rw [e1, zpow_neg, zpow_natCast, hr, hd]
      push_cast
      rw [pow_add]
      have := (qpp k).ne'
      have := (qpp d).ne'
      field_simp
      ring
    have hz := hs _ _ pz pd vd
    have hn : alpha F sub x = d := by
      unfold alpha nValue dirtyExponent
      simp only [isS, if_true, hz, Nat.shiftRight_eq_div_pow, fb]
      rw [bE, eN]
      omega
    have hnorm : normalInt F sub x = 1 * 2 ^ F.f + r * 2 ^ d := by
      unfold normalInt
      rw [hn, Int.toNat_natCast, Nat.shiftLeft_eq, hr, hd, pow_add]
      ring
    obtain ⟨ga, gb, gc⟩ := fields F 1 _ (by omega) hT
    have pn : PosFinite F (1 * 2 ^ F.f + r * 2 ^ d) := by
      refine (posFinite_iff F _).2 ⟨ga, by rw [gb]; omega, ?_⟩
      have := pp F.f
      omega
    have cx : cls F x = .subnormal := by
      rcases hx.2 with h | h
      · have := (Legal.normal_exp h).1
        rw [expField_pos F x hlt, Nat.div_eq_of_lt hsub] at this
        omega
      · exact h
    refine ⟨by rw [hn]; positivity, by rw [hn]; omega, ?_, by rw [hnorm]; exact pn, ?_, ?_⟩
    · intro h
      rw [cx] at h
      cases h
    · rw [hnorm]
      apply Legal.normal_of
      · rw [expField_pos F _ ga, gb]; omega
      · rw [expField_pos F _ ga, gb]; omega
    · rw [hnorm, hn, value_fields F 1 _ (by omega) (by omega) hT, value_pos F x hlt, Nat.div_eq_of_lt hsub, if_pos rfl,
        Nat.mod_eq_of_lt hsub, hr, hd, zpow_natCast, show (max 0 1 : ℕ) = 1 from rfl]
      push_cast
      rw [pow_add]
      have := (qpp k).ne'
      have := (qpp d).ne'
      field_simp
      ring
  · have isS : isSubnormal F x = false := by
      unfold isSubnormal
      have : (2 : ℤ) ^ F.f ≤ x := by exact_mod_cast (Nat.le_of_not_lt hsub)
      simpa using this
    have ha : alpha F sub x = 0 := by
      unfold alpha nValue
      simp [isS]
    have hn : normalInt F sub x = x := by
      unfold normalInt
      rw [ha]; simp
    have q1 : x / 2 ^ F.f ≠ 0 := by
      have := Nat.div_pos (Nat.le_of_not_lt hsub) (pp F.f)
      omega
    refine ⟨by rw [ha], by rw [ha]; positivity, fun _ => ⟨ha, hn⟩, by rw [hn]; exact hx, ?_, by rw [hn, ha]; simp⟩
    rw [hn]
    apply Legal.normal_of
    · rw [expField_pos F _ hlt]; exact q1
    · rw [expField_pos F _ hlt]; exact hne

/-- the value of a pattern in units of the smallest subnormal number -/
def units (f c : ℕ) : ℕ := 2 ^ (c / 2 ^ f - 1) * ((if c / 2 ^ f = 0 then 0 else 2 ^ f) + c % 2 ^ f)

theorem units_succ (f c : ℕ) : units f c < units f (c + 1) := by
  unfold units
  have hp := pp f
  by_cases h : c % 2 ^ f + 1 < 2 ^ f
  · have e := Nat.div_add_mod c (2 ^ f)
    have e1 : (c + 1) / 2 ^ f = c / 2 ^ f := by
      rw [Nat.div_eq_iff hp]
      have := Nat.mul_comm (c / 2 ^ f) (2 ^ f)
      omega
    have e2 : (c + 1) % 2 ^ f = c % 2 ^ f + 1 := by
      have e' := Nat.div_add_mod (c + 1) (2 ^ f)
      rw [e1] at e'
      omega
    rw [e1, e2]
    exact Nat.mul_lt_mul_of_pos_left (by omega) (pp _)
  · have hm := Nat.mod_lt c hp
    have e := Nat.div_add_mod c (2 ^ f)
    have e0 : c + 1 = (c / 2 ^ f + 1) * 2 ^ f := by
      rw [add_mul, one_mul, mul_comm (c / 2 ^ f)]
      omega
    have e1 : (c + 1) / 2 ^ f = c / 2 ^ f + 1 := by rw [e0, Nat.mul_div_cancel _ hp]
    have e2 : (c + 1) % 2 ^ f = 0 := by rw [e0, Nat.mul_mod_left]
    rw [e1, e2]
    rcases Nat.eq_zero_or_pos (c / 2 ^ f) with h0 | h0
    · rw [h0]; simp; omega
    · rw [if_neg (by omega), if_neg (by omega), Nat.add_sub_cancel]
      obtain ⟨k, hk⟩ : ∃ k, c / 2 ^ f = k + 1 := ⟨c / 2 ^ f - 1, by omega⟩
      rw [hk, Nat.add_sub_cancel, pow_succ, mul_assoc]
      exact Nat.mul_lt_mul_of_pos_left (by omega) (pp _)

theorem value_units (F : Fmt) (c : ℕ) (h : c < 2 ^ (F.e + F.f)) :
    value F c = units F.f c * ((2 : ℚ) ^ ((1 : ℤ) - F.emax) / 2 ^ F.f) := by
  rw [value_pos F c h]
  unfold units
  obtain ⟨E, hE⟩ : ∃ E, E = c / 2 ^ F.f := ⟨_, rfl⟩
  rw [← hE]
  have e : (2 : ℚ) ^ (((max E 1 : ℕ) : ℤ) - F.emax) = 2 ^ (E - 1) * (2 : ℚ) ^ ((1 : ℤ) - F.emax) := by
    rw [← zpow_natCast, ← zpow_add₀ (by norm_num)]
    congr 1
    omega
  rw [e]
  have := (qpp F.f).ne'
  by_cases h0 : E = 0
  · rw [if_pos h0, if_pos h0]; push_cast; field_simp; ring
  · rw [if_neg h0, if_neg h0]; push_cast; field_simp

theorem value_inj (F : Fmt) (c d : ℕ) (hc : c < 2 ^ (F.e + F.f)) (hd : d < 2 ^ (F.e + F.f)) (h : value F c = value F d) : c = d := by
  rw [value_units F c hc, value_units F d hd] at h
  have hp : (2 : ℚ) ^ ((1 : ℤ) - F.emax) / 2 ^ F.f ≠ 0 := (div_pos (zpow_pos (by norm_num) _) (qpp _)).ne'
  have := mul_right_cancel₀ hp h
  exact (strictMono_nat_of_lt_succ (units_succ F.f)).injective (by exact_mod_cast this)

/-- such a subtraction exists -/
theorem exists_sub (F : Fmt) : ∃ sub, ExactSub F sub := by
  classical
  refine ⟨fun Z => if h : ∃ D, PosFinite F D ∧ value F D = value F Z - 1 then h.choose else 0, ?_⟩
  intro Z D _ hD e
  have h : ∃ D, PosFinite F D ∧ value F D = value F Z - 1 := ⟨D, hD, e⟩
  simp only [dif_pos h]
  exact value_inj F _ _ h.choose_spec.1.1 hD.1 (h.choose_spec.2.trans e.symm)

/-- binary32 and binary64 are wide enough, and five units of the smallest subnormal number become a normal one -/
example : Wide ⟨8, 23⟩ ∧ Wide ⟨11, 52⟩ ∧ PosFinite ⟨8, 23⟩ 5 ∧ cls ⟨8, 23⟩ 5 = .subnormal := by
  refine ⟨⟨by norm_num, by norm_num⟩, ⟨by norm_num, by norm_num⟩, ?_, by decide⟩
  exact ⟨by norm_num, Or.inr (by decide)⟩

/-- the rounding of the fraction of the reciprocal to the precision of the table -/
theorem round_frac (t g T q : ℕ) (h1 : q * 2 ^ (g + 1) ≤ T + 2 ^ g) (h2 : T + 2 ^ g < (q + 1) * 2 ^ (g + 1)) :
    |(q : ℚ) / 2 ^ t - T / 2 ^ (t + (g + 1))| ≤ 1 / 2 ^ (t + 1) := by
  have a1 : (q : ℚ) * 2 ^ (g + 1) ≤ T + 2 ^ g := by exact_mod_cast h1
  have a2 : (T : ℚ) + 2 ^ g < (q + 1) * 2 ^ (g + 1) := by exact_mod_cast h2
  have pt := qpp t
  have pg := qpp g
  have e : (q : ℚ) / 2 ^ t - T / 2 ^ (t + (g + 1)) = (q * 2 ^ (g + 1) - T) / 2 ^ (t + (g + 1)) := by
    rw [pow_add]
    have := (qpp (g + 1)).ne'
    field_simp
  have e2 : (1 : ℚ) / 2 ^ (t + 1) = 2 ^ g / 2 ^ (t + (g + 1)) := by
    rw [div_eq_div_iff (qpp _).ne' (qpp _).ne']
    ring
  rw [e, e2, abs_le]
  constructor
  · rw [← neg_div]
    apply div_le_div_of_nonneg_right _ (qpp _).le
    rw [pow_succ (2 : ℚ) g] at a2 ⊢
    linarith
  · apply div_le_div_of_nonneg_right _ (qpp _).le
    linarith

/-- **C132.** For every reciprocal within `b ≤ 2 ^ -(t+2)` of the inverse of the mantissa: the number taken from it is a multiple of half a
unit of the table in [1/2, 1], the reduced argument is in the interval of the polynomial, and the index is that of the number. -/
theorem C132_reduction (F : Fmt) (hw : Wide F) (t : ℕ) (ht : t < F.f) (m b : ℚ) (hm1 : 1 ≤ m) (hm2 : m < 2) (hb0 : 0 ≤ b)
    (hb : b ≤ 1 / 2 ^ (t + 2)) (rcp : ℕ) (hr : PosFinite F rcp) (hrcp : |m * value F rcp - 1| ≤ b) :
    |redArg F m (riFast F t rcp)| ≤ argRedMag t b ∧
      ((tableIndex F t (riFast F t rcp) < 2 ^ t ∧
          value F (riFast F t rcp) = (1 + (tableIndex F t (riFast F t rcp) : ℚ) / 2 ^ t) / 2) ∨
        (tableIndex F t (riFast F t rcp) = 2 ^ t ∧ value F (riFast F t rcp) = 1)) := by
  obtain ⟨he, -⟩ := hw
  obtain ⟨hlt, hne, -⟩ := (posFinite_iff F rcp).1 hr
  have pe := pow_e F (by omega)
  have eN := emax_nat F
  have p4 : 2 ^ 2 ≤ 2 ^ (F.e - 1) := Nat.pow_le_pow_right (by norm_num) (by omega)
  obtain ⟨g, hg⟩ : ∃ g, F.f = t + (g + 1) := ⟨F.f - t - 1, by omega⟩
  obtain ⟨B, hB⟩ : ∃ B, 2 ^ (F.e - 1) = B + 1 := ⟨2 ^ (F.e - 1) - 1, by omega⟩
  have hB3 : 3 ≤ B := by omega
  have bodd : ∃ c, B = 2 * c + 1 := by
    obtain ⟨k, hk⟩ : ∃ k, F.e - 1 = k + 1 := ⟨F.e - 2, by omega⟩
    rw [hk, pow_succ] at hB
    exact ⟨2 ^ k - 1, by have := pp k; omega⟩
  have eB : F.emax = B := by rw [eN, hB]; simp
  have eE : 2 ^ F.e = 2 * (B + 1) := by rw [pe, hB]
  obtain ⟨E, hE⟩ : ∃ E, E = rcp / 2 ^ F.f := ⟨_, rfl⟩
  obtain ⟨T, hT⟩ : ∃ T, T = rcp % 2 ^ F.f := ⟨_, rfl⟩
  have hTl : T < 2 ^ F.f := by rw [hT]; exact Nat.mod_lt _ (pp _)
  have hdec : rcp = E * 2 ^ F.f + T := by rw [hE, hT, mul_comm]; exact (Nat.div_add_mod rcp (2 ^ F.f)).symm
  have hEl : E < 2 ^ F.e := by
    rw [hE]
    apply Nat.div_lt_of_lt_mul
    rwa [← pow_add, add_comm]
  have tq0 : (0 : ℚ) ≤ (T : ℚ) / 2 ^ F.f := by positivity
  have tq1 : (T : ℚ) / 2 ^ F.f < 1 := by
    rw [div_lt_one (qpp _)]
    exact_mod_cast hTl
  have b4 : b ≤ 1 / 4 := by
    refine le_trans hb ?_
    have : (2 : ℚ) ^ 2 ≤ 2 ^ (t + 2) := pow_le_pow_right₀ (by norm_num) (by omega)
    exact one_div_le_one_div_of_le (by norm_num) (by linarith)
  obtain ⟨hlo, hhi⟩ := abs_le.1 hrcp
  obtain ⟨v, hv⟩ : ∃ v, v = value F rcp := ⟨_, rfl⟩
  rw [← hv] at hlo hhi hrcp
  have vpos : 0 < v := by
    by_contra hneg
    have : m * v ≤ 0 := mul_nonpos_of_nonneg_of_nonpos (by linarith) (by linarith)
    linarith
  have vlo : (1 - b) / 2 < v := by nlinarith
  have vhi : v ≤ 1 + b := by nlinarith
  have hE0 : E ≠ 0 := by
    intro h
    rw [value_pos F rcp hlt, ← hE, ← hT, h, if_pos rfl, zero_add, eB, show (max 0 1 : ℕ) = 1 from rfl] at hv
    have : (2 : ℚ) ^ (((1 : ℕ) : ℤ) - (B : ℤ)) ≤ 2 ^ (-2 : ℤ) := zpow_le_zpow_right₀ (by norm_num) (by omega)
    have h2 : (2 : ℚ) ^ (((1 : ℕ) : ℤ) - (B : ℤ)) * ((T : ℚ) / 2 ^ F.f) ≤ 2 ^ (-2 : ℤ) * 1 :=
      mul_le_mul this tq1.le tq0 (by positivity)
    norm_num at h2
    norm_num at hv
    linarith
  have hvE : v = (2 : ℚ) ^ ((E : ℤ) - B) * (1 + T / 2 ^ F.f) := by
    rw [hv, hdec, value_fields F E T hEl hE0 hTl, eB]
  have hEB : E ≤ B := by
    by_contra hc
    have : (2 : ℚ) ^ (1 : ℤ) ≤ 2 ^ ((E : ℤ) - B) := zpow_le_zpow_right₀ (by norm_num) (by omega)
    have : (2 : ℚ) * 1 ≤ v := by
      rw [hvE]
      exact mul_le_mul (by simpa using this) (by linarith) (by norm_num) (by positivity)
    linarith
  have hBE : B ≤ E + 2 := by
    by_contra hc
    have : (2 : ℚ) ^ ((E : ℤ) - B) ≤ 2 ^ (-3 : ℤ) := zpow_le_zpow_right₀ (by norm_num) (by omega)
    have : v ≤ 2 ^ (-3 : ℤ) * 2 := by
      rw [hvE]
      exact mul_le_mul this (by linarith) (by linarith) (by positivity)
    norm_num at this
    linarith
  -- the rounded reciprocal
  obtain ⟨q, hq⟩ : ∃ q, q = (T + 2 ^ g) / 2 ^ (g + 1) := ⟨_, rfl⟩
  have q1 : q * 2 ^ (g + 1) ≤ T + 2 ^ g := by rw [hq]; exact Nat.div_mul_le_self _ _
  have q2 : T + 2 ^ g < (q + 1) * 2 ^ (g + 1) := by
    rw [hq, mul_comm]
    exact Nat.lt_mul_div_succ _ (pp _)
  have hfg : F.f - t - 1 = g := by omega
  have hfg' : F.f - t = g + 1 := by omega
  have hQ : (rcp + 2 ^ g) / 2 ^ (g + 1) = E * 2 ^ t + q := by
    rw [hdec, hq, hg, pow_add, ← mul_assoc, add_assoc, add_comm, Nat.add_mul_div_right _ _ (pp _), add_comm]
  have hri : riFast F t rcp = (E * 2 ^ t + q) * 2 ^ (g + 1) := by
    unfold riFast
    simp only [hfg', Nat.add_sub_cancel, Nat.shiftLeft_eq, Nat.shiftRight_eq_div_pow, one_mul, hQ]
  have hidx : tableIndex F t (riFast F t rcp) = (E * 2 ^ t + q) % 2 ^ (t + 1) := by
    rw [hri]
    unfold tableIndex
    rw [hfg', Nat.shiftRight_eq_div_pow, Nat.mul_div_cancel _ (pp _), Nat.shiftLeft_eq, one_mul, Nat.and_two_pow_sub_one_eq_mod]
  have hround := round_frac t g T q q1 q2
  rw [← hg] at hround
  obtain ⟨rlo, rhi⟩ := abs_le.1 hround
  have qle : q ≤ 2 ^ t := by
    by_contra hc
    have : (2 ^ t + 1) * 2 ^ (g + 1) ≤ q * 2 ^ (g + 1) := Nat.mul_le_mul_right _ (by omega)
    have e : 2 ^ t * 2 ^ (g + 1) = 2 ^ F.f := by rw [hg, ← pow_add]
    rw [add_mul, e] at this
    have : 2 ^ (g + 1) = 2 ^ g * 2 := pow_succ 2 g
    omega
  have pt := qpp t
  have half2 : (1 : ℚ) / 2 ^ (t + 1) = 1 / 2 ^ (t + 2) * 2 := by
    rw [div_mul_eq_mul_div, div_eq_div_iff (qpp _).ne' (qpp _).ne']
    ring
  -- bound from the distance of the rounded reciprocal
  have fin : ∀ r : ℚ, value F (riFast F t rcp) = r → m * |r - v| ≤ 1 / 2 ^ (t + 1) + b * (1 / 2 ^ (t + 1)) →
      |redArg F m (riFast F t rcp)| ≤ argRedMag t b := by
    intro r h1 h2
    unfold redArg argRedMag
    rw [h1]
    have : m * r - 1 = (m * v - 1) + m * (r - v) := by ring
    rw [this]
    have h3 : |m * (r - v)| = m * |r - v| := by rw [abs_mul, abs_of_pos (by linarith : (0 : ℚ) < m)]
    have := abs_add_le (m * v - 1) (m * (r - v))
    rw [h3] at this
    linarith
  have bpos : 0 ≤ b * (1 / 2 ^ (t + 1)) := by positivity
  have vone : ∀ {k : ℕ}, k ≠ 0 → k < 2 ^ F.e → value F (k * 2 ^ F.f) = (2 : ℚ) ^ ((k : ℤ) - B) := by
    intro k k0 k1
    have := value_fields F k 0 k1 k0 (pp _)
    rw [add_zero] at this
    rw [this, eB]; simp
  have hff : 2 ^ t * 2 ^ (g + 1) = 2 ^ F.f := by rw [hg, ← pow_add]
  obtain ⟨c, hc⟩ := bodd
  have cases3 : E + 1 = B ∨ E = B ∨ E + 2 = B := by omega
  rcases cases3 with h | h | h
  · -- the reciprocal is in [1/2, 1)
    have hz : (2 : ℚ) ^ ((E : ℤ) - B) = 1 / 2 := by
      have : (E : ℤ) - B = -1 := by omega
      rw [this]; norm_num
    have hmod : ∀ q < 2 ^ (t + 1), (E * 2 ^ t + q) % 2 ^ (t + 1) = q := by
      intro q hq
      have : E * 2 ^ t + q = q + c * 2 ^ (t + 1) := by
        have : E = 2 * c := by omega
        rw [this, pow_succ]; ring
      rw [this, Nat.add_mul_mod_self_right, Nat.mod_eq_of_lt hq]
    have hval : value F (riFast F t rcp) = (1 + (q : ℚ) / 2 ^ t) / 2 := by
      rcases qle.lt_or_eq with hql | hqe
      · have : q * 2 ^ (g + 1) < 2 ^ F.f := by
          rw [← hff]
          exact Nat.mul_lt_mul_of_pos_right hql (pp _)
        have e : (E * 2 ^ t + q) * 2 ^ (g + 1) = E * 2 ^ F.f + q * 2 ^ (g + 1) := by rw [← hff]; ring
        rw [hri, e, value_fields F E _ hEl hE0 this, eB, hz, hg, pow_add]
        push_cast
        have := (qpp (g + 1)).ne'
        field_simp
        ring
      · have e : (E * 2 ^ t + q) * 2 ^ (g + 1) = B * 2 ^ F.f := by rw [← hff, hqe, ← h]; ring
        rw [hri, e, vone (by omega) (by omega), hqe]
        push_cast
        rw [div_self pt.ne']
        norm_num
    refine ⟨fin _ hval ?_, ?_⟩
    · have : |(1 + (q : ℚ) / 2 ^ t) / 2 - v| ≤ 1 / 2 ^ (t + 2) := by
        rw [hvE, hz, abs_le]
        constructor <;> linarith
      have := mul_le_mul_of_nonneg_left this (by linarith : (0 : ℚ) ≤ m)
      have : m * (1 / 2 ^ (t + 2)) ≤ 2 * (1 / 2 ^ (t + 2)) := mul_le_mul_of_nonneg_right hm2.le (by positivity)
      linarith
    · rw [hidx, hmod q (by rw [pow_succ]; have := pp t; omega)]
      rcases qle.lt_or_eq with hql | hqe
      · exact Or.inl ⟨hql, hval⟩
      · refine Or.inr ⟨hqe, ?_⟩
        rw [hval, hqe]
        push_cast
        rw [div_self pt.ne']
        norm_num
  · -- the reciprocal is at least one
    have hz : (2 : ℚ) ^ ((E : ℤ) - B) = 1 := by rw [h, sub_self, zpow_zero]
    rw [hz, one_mul] at hvE
    have hq0 : q = 0 := by
      rcases Nat.eq_zero_or_pos q with h | h
      · exact h
      · exfalso
        have : (1 : ℚ) / 2 ^ t ≤ q / 2 ^ t := div_le_div_of_nonneg_right (by exact_mod_cast h) pt.le
        have : (1 : ℚ) / 2 ^ t = 1 / 2 ^ (t + 1) * 2 := by
          rw [div_mul_eq_mul_div, div_eq_div_iff (qpp _).ne' (qpp _).ne']
          ring
        have : (0 : ℚ) < 1 / 2 ^ (t + 2) := by positivity
        linarith
    have e : (E * 2 ^ t + q) * 2 ^ (g + 1) = B * 2 ^ F.f := by rw [← hff, hq0, ← h]; ring
    have hval : value F (riFast F t rcp) = 1 := by
      rw [hri, e, vone (by omega) (by omega)]
      simp
    refine ⟨fin _ hval ?_, Or.inr ⟨?_, hval⟩⟩
    · have : |1 - v| ≤ 1 / 2 ^ (t + 2) := by
        rw [abs_le]
        constructor <;> linarith
      have := mul_le_mul_of_nonneg_left this (by linarith : (0 : ℚ) ≤ m)
      have : m * (1 / 2 ^ (t + 2)) ≤ 2 * (1 / 2 ^ (t + 2)) := mul_le_mul_of_nonneg_right hm2.le (by positivity)
      linarith
    · rw [hidx, hq0, h, hc]
      have : (2 * c + 1) * 2 ^ t + 0 = 2 ^ t + c * 2 ^ (t + 1) := by rw [pow_succ]; ring
      rw [this, Nat.add_mul_mod_self_right, Nat.mod_eq_of_lt]
      rw [pow_succ]; have := pp t; omega
  · -- the reciprocal is just below 1/2
    have hz : (2 : ℚ) ^ ((E : ℤ) - B) = 1 / 4 := by
      have : (E : ℤ) - B = -2 := by omega
      rw [this]; norm_num
    rw [hz] at hvE
    have hqt : q = 2 ^ t := by
      rcases qle.lt_or_eq with hql | hqe
      · exfalso
        have : (q : ℚ) + 1 ≤ 2 ^ t := by exact_mod_cast hql
        have h1 : ((q : ℚ) + 1) / 2 ^ t ≤ 1 := (div_le_one pt).2 this
        rw [add_div] at h1
        have : (1 : ℚ) / 2 ^ t = 1 / 2 ^ (t + 1) * 2 := by
          rw [div_mul_eq_mul_div, div_eq_div_iff (qpp _).ne' (qpp _).ne']
          ring
        linarith
      · exact hqe
    have e : (E * 2 ^ t + q) * 2 ^ (g + 1) = (E + 1) * 2 ^ F.f := by rw [← hff, hqt]; ring
    have hval : value F (riFast F t rcp) = 1 / 2 := by
      rw [hri, e, vone (by omega) (by omega)]
      have : ((E + 1 : ℕ) : ℤ) - B = -1 := by omega
      rw [this]; norm_num
    have hi0 : tableIndex F t (riFast F t rcp) = 0 := by
      rw [hidx, hqt]
      have : E * 2 ^ t + 2 ^ t = c * 2 ^ (t + 1) := by
        have : E + 1 = 2 * c := by omega
        calc E * 2 ^ t + 2 ^ t = (E + 1) * 2 ^ t := by ring
          _ = c * 2 ^ (t + 1) := by rw [this, pow_succ]; ring
      rw [this, Nat.mul_mod_left]
    refine ⟨fin _ hval ?_, Or.inl ⟨by rw [hi0]; exact pp t, by rw [hval, hi0]; norm_num⟩⟩
    have : |1 / 2 - v| ≤ 1 / 2 ^ (t + 2) := by
      rw [abs_le]
      constructor <;> linarith
    have := mul_le_mul_of_nonneg_left this (by linarith : (0 : ℚ) ≤ m)
    have : m * (1 / 2 ^ (t + 2)) ≤ 2 * (1 / 2 ^ (t + 2)) := mul_le_mul_of_nonneg_right hm2.le (by positivity)
    linarith

/-- seven bits of index, a mantissa of 3/2 and a reciprocal of 2/3 rounded to 12 bits meet the hypotheses -/
example : PosFinite ⟨8, 23⟩ 0x3F2AA000 ∧ |(3 / 2 : ℚ) * value ⟨8, 23⟩ 0x3F2AA000 - 1| ≤ 3 / 2 / 2 ^ 12 ∧ (3 / 2 / 2 ^ 12 : ℚ) ≤ 1 / 2 ^ (7 + 2) := by
  refine ⟨⟨by norm_num, Or.inl (by decide)⟩, ?_, by norm_num⟩
  rw [value_pos _ _ (by norm_num)]
  norm_num [Fmt.emax, abs_le]

theorem tau_ok (vector int32 : Bool) (h : vector = false ∨ int32 = true) (limit idx : ℕ) :
    tau vector int32 limit idx = if idx ≤ limit then 1 else 0 := by
  unfold tau tmp
  rcases h with rfl | rfl
  · simp
  · cases vector
    · simp
    · simp only [if_true]
      by_cases h : idx ≤ limit
      · rw [if_neg (by omega), if_pos h]; rfl
      · rw [if_pos (by omega), if_neg h]; rfl

theorem tau_bad (limit idx : ℕ) : tau true false limit idx = (if idx ≤ limit then 1 else 0) - 1 := by
  unfold tau tmp
  simp only [if_true, Bool.false_eq_true, if_false]
  by_cases h : idx ≤ limit
  · rw [if_neg (by omega), if_pos h]; rfl
  · rw [if_pos (by omega), if_neg h]; rfl

theorem mantissa_bounds (F : Fmt) (c : ℕ) : 1 ≤ mantissa F c ∧ mantissa F c < 2 := by
  unfold mantissa
  have h1 : ((c % 2 ^ F.f : ℕ) : ℚ) / 2 ^ F.f < 1 := by
    rw [div_lt_one (qpp _)]
    exact_mod_cast Nat.mod_lt c (pp F.f)
  have h0 : (0 : ℚ) ≤ ((c % 2 ^ F.f : ℕ) : ℚ) / 2 ^ F.f := by positivity
  constructor <;> linarith

/-- the sum for any value of `tau` -/
theorem sum_eq (F : Fmt) (hw : Wide F) (sub : ℕ → ℕ) (hs : ExactSub F sub) (x : ℕ) (hx : PosFinite F x) (t limit : ℕ) (ht : t < F.f)
    (hl : limit < 2 ^ t) (β : ℝ) (b : ℚ) (hb0 : 0 ≤ b) (hb : b ≤ 1 / 2 ^ (t + 2)) (rcp : ℕ) (hr : PosFinite F rcp)
    (hrcp : |mantissa F (normalInt F sub x) * value F rcp - 1| ≤ b) (vector int32 : Bool) (k : ℤ)
    (hk : tau vector int32 limit (tableIndex F t (riFast F t rcp)) = (if tableIndex F t (riFast F t rcp) ≤ limit then 1 else 0) + k) :
    logSum F t limit β vector int32 sub x rcp = Real.log (value F x) / Real.log β + k * (Real.log 2 / Real.log β) := by
  obtain ⟨-, -, -, n4, n5, n6⟩ := C132_normalization F hw sub hs x hx
  obtain ⟨m1, m2⟩ := mantissa_bounds F (normalInt F sub x)
  obtain ⟨-, r2⟩ := C132_reduction F hw t ht _ b m1 m2 hb0 hb rcp hr hrcp
  obtain ⟨n, hn⟩ : ∃ n, n = normalInt F sub x := ⟨_, rfl⟩
  rw [← hn] at n4 n5 n6 m1 m2 hrcp
  obtain ⟨hlt, hne, -⟩ := (posFinite_iff F n).1 n4
  have hE0 : n / 2 ^ F.f ≠ 0 := by
    have := (Legal.normal_exp n5).1
    rw [expField_pos F n hlt] at this
    omega
  have vn : value F n = (2 : ℚ) ^ (((n / 2 ^ F.f : ℕ) : ℤ) - F.emax) * mantissa F n := by
    rw [value_pos F n hlt, if_neg hE0, max_eq_left (Nat.one_le_iff_ne_zero.2 hE0)]
    rfl
  have vx : (value F x : ℝ) = (2 : ℝ) ^ (((n / 2 ^ F.f : ℕ) : ℤ) + bias F - alpha F sub x) * (mantissa F n : ℝ) := by
    have e : value F x = (2 : ℚ) ^ (((n / 2 ^ F.f : ℕ) : ℤ) + bias F - alpha F sub x) * mantissa F n := by
      have h2 : (2 : ℚ) ^ alpha F sub x ≠ 0 := (zpow_pos (by norm_num) _).ne'
      apply mul_right_cancel₀ h2
      rw [← n6, vn, Legal.bias_emax, mul_right_comm, ← zpow_add₀ (by norm_num)]
      congr 2
      ring
    rw [e]; push_cast; rfl
  have mpos : (0 : ℝ) < (mantissa F n : ℝ) := by
    have : (0 : ℚ) < mantissa F n := by linarith
    exact_mod_cast this
  have lx : Real.log (value F x) = ((((n / 2 ^ F.f : ℕ) : ℤ) + bias F - alpha F sub x : ℤ) : ℝ) * Real.log 2 + Real.log (mantissa F n) := by
    rw [vx, Real.log_mul (zpow_pos (by norm_num) _).ne' mpos.ne', Real.log_zpow]
  obtain ⟨idx, hidx⟩ : ∃ i, i = tableIndex F t (riFast F t rcp) := ⟨_, rfl⟩
  rw [← hidx] at r2 hk
  have hand : idx &&& ((1 <<< t) - 1) = idx % 2 ^ t := by
    rw [Nat.shiftLeft_eq, one_mul, Nat.and_two_pow_sub_one_eq_mod]
  unfold logSum exponent redArg logEntry
  simp only [← hidx, ← hn, hand, hk, Nat.shiftRight_eq_div_pow]
  rw [lx]
  have key : ∀ r : ℚ, value F (riFast F t rcp) = r → 0 < r →
      (if idx ≤ limit then (1 : ℝ) else 0) * Real.log 2 + Real.log r +
        (-Real.log (1 + ((idx % 2 ^ t : ℕ) : ℝ) / 2 ^ t) + (if idx % 2 ^ t ≤ limit then 0 else Real.log 2)) = 0 →
      (((((n / 2 ^ F.f : ℕ) : ℤ) + bias F + ((if idx ≤ limit then 1 else 0) + k) - alpha F sub x : ℤ) : ℝ)) * (Real.log 2 / Real.log β) +
        Real.log (1 + ((mantissa F n * value F (riFast F t rcp) - 1 : ℚ) : ℝ)) / Real.log β +
        (-Real.log (1 + ((idx % 2 ^ t : ℕ) : ℝ) / 2 ^ t) + (if idx % 2 ^ t ≤ limit then 0 else Real.log 2)) / Real.log β =
      (((((n / 2 ^ F.f : ℕ) : ℤ) + bias F - alpha F sub x : ℤ) : ℝ) * Real.log 2 + Real.log (mantissa F n)) / Real.log β +
        k * (Real.log 2 / Real.log β) := by
    intro r h1 h2 h3
    have hr0 : (0 : ℝ) < (r : ℝ) := by exact_mod_cast h2
    have e : (1 : ℝ) + ((mantissa F n * value F (riFast F t rcp) - 1 : ℚ) : ℝ) = (mantissa F n : ℝ) * r := by
      rw [h1]; push_cast; ring
    rw [e, Real.log_mul mpos.ne' hr0.ne']
    have c : (((if idx ≤ limit then 1 else 0 : ℤ)) : ℝ) = if idx ≤ limit then (1 : ℝ) else 0 := by split <;> simp
    push_cast [c]
    have h4 : -Real.log (1 + ((idx % 2 ^ t : ℕ) : ℝ) / 2 ^ t) + (if idx % 2 ^ t ≤ limit then 0 else Real.log 2) =
        -((if idx ≤ limit then (1 : ℝ) else 0) * Real.log 2 + Real.log r) := by linarith
    have h4' := h4
    push_cast at h4'
    first
      | rw [h4']
      | rw [h4]
    ring
  rcases r2 with ⟨i1, i2⟩ | ⟨i1, i2⟩
  · have hpos : (0 : ℚ) < (1 + (idx : ℚ) / 2 ^ t) / 2 := by positivity
    apply key _ i2 hpos
    rw [Nat.mod_eq_of_lt i1]
    have e : (((1 + (idx : ℚ) / 2 ^ t) / 2 : ℚ) : ℝ) = (1 + (idx : ℝ) / 2 ^ t) / 2 := by push_cast; ring
    rw [e, Real.log_div (by positivity) (by norm_num)]
    split <;> ring
  · apply key _ i2 (by norm_num)
    rw [i1, Nat.mod_self, if_neg (by omega), if_pos (Nat.zero_le _)]
    simp

/-- **C132.** For every positive finite number, every table size, every limit of the index, every radix and every reciprocal within `2 ^ -(t+2)`:
exponent, reduced argument and table add up to the logarithm (except with a vector backend and 64-bit integers). -/
theorem C132_sum_partial (F : Fmt) (hw : Wide F) (sub : ℕ → ℕ) (hs : ExactSub F sub) (x : ℕ) (hx : PosFinite F x) (t limit : ℕ) (ht : t < F.f)
    (hl : limit < 2 ^ t) (β : ℝ) (b : ℚ) (hb0 : 0 ≤ b) (hb : b ≤ 1 / 2 ^ (t + 2)) (rcp : ℕ) (hr : PosFinite F rcp)
    (hrcp : |mantissa F (normalInt F sub x) * value F rcp - 1| ≤ b) (vector int32 : Bool) (hv : vector = false ∨ int32 = true) :
    logSum F t limit β vector int32 sub x rcp = Real.log (value F x) / Real.log β := by
  have := sum_eq F hw sub hs x hx t limit ht hl β b hb0 hb rcp hr hrcp vector int32 0 (by rw [tau_ok _ _ hv, add_zero])
  simpa using this

/-- **C132, a disagreement.** With a vector backend and 64-bit integers (binary64) the correction of the comparison's encoding is dropped and every
result is too small by the logarithm of two. -/
theorem C132_vector_binary64_wrong (F : Fmt) (hw : Wide F) (sub : ℕ → ℕ) (hs : ExactSub F sub) (x : ℕ) (hx : PosFinite F x) (t limit : ℕ)
    (ht : t < F.f) (hl : limit < 2 ^ t) (β : ℝ) (b : ℚ) (hb0 : 0 ≤ b) (hb : b ≤ 1 / 2 ^ (t + 2)) (rcp : ℕ) (hr : PosFinite F rcp)
    (hrcp : |mantissa F (normalInt F sub x) * value F rcp - 1| ≤ b) :
    logSum F t limit β true false sub x rcp = Real.log (value F x) / Real.log β - Real.log 2 / Real.log β := by
  have := sum_eq F hw sub hs x hx t limit ht hl β b hb0 hb rcp hr hrcp true false (-1) (by rw [tau_bad]; ring)
  rw [this]; push_cast; ring

/-- **C132.** The two loads of the table stay inside and read both words of the entry. -/
theorem C132_table_loads (t idx : ℕ) (hi lo : ℕ → ℝ) :
    logTable t hi lo (indexHi t idx) = some (hi (idx % 2 ^ t)) ∧ logTable t hi lo (indexLo t idx) = some (lo (idx % 2 ^ t)) := by
  have hm := Nat.mod_lt idx (pp t)
  have e : indexHi t idx = idx % 2 ^ t * 2 := by
    unfold indexHi
    rw [Nat.shiftLeft_eq, Nat.shiftLeft_eq, one_mul, Nat.and_two_pow_sub_one_eq_mod]
  unfold logTable indexLo
  rw [e]
  constructor
  · rw [if_pos (by omega), if_pos (by omega), Nat.mul_div_cancel _ (by norm_num)]
  · rw [if_pos (by omega), if_neg (by omega), show (idx % 2 ^ t * 2 + 1) / 2 = idx % 2 ^ t by omega]

/-- **C132, a disagreement.** Zero is not kept out by the subtraction of one, as the comment says: the comparison is signed, and the shift amount
found for zero is the bias of the format, larger than the width of the integers (127 and 1023). -/
theorem C132_zero_wrong (F : Fmt) (sub : ℕ → ℕ) (hz : sub (one F) = 0) :
    isSubnormal F 0 = true ∧ alpha F sub 0 = F.emax := by
  have h : isSubnormal F 0 = true := by
    unfold isSubnormal
    simp
  refine ⟨h, ?_⟩
  unfold alpha nValue dirtyExponent
  simp only [h, if_true, Nat.zero_or, hz, Nat.zero_shiftRight]
  rw [Legal.bias_emax]
  simp

example : (⟨8, 23⟩ : Fmt).emax = 127 ∧ (⟨11, 52⟩ : Fmt).emax = 1023 := by decide

/-- **C132, a disagreement.** A table finer than the reciprocal (`t = 12` with the `1.5 * 2 ^ -12` assumed for the hardware's) breaks the index: with
a mantissa just below two, the number taken from the reciprocal is below 1/2 and the table holds the logarithm of its double. -/
theorem C132_fine_table_wrong : ∃ (m : ℚ) (rcp : ℕ), 1 ≤ m ∧ m < 2 ∧ PosFinite ⟨8, 23⟩ rcp ∧
    |m * value ⟨8, 23⟩ rcp - 1| ≤ 3 / 2 / 2 ^ 12 ∧ value ⟨8, 23⟩ (riFast ⟨8, 23⟩ 12 rcp) < 1 / 2 ∧
    tableIndex ⟨8, 23⟩ 12 (riFast ⟨8, 23⟩ 12 rcp) = 2 ^ 12 + 4094 := by
  refine ⟨2 - 1 / 2 ^ 23, 0x3EFFF000, by norm_num, by norm_num, ⟨by norm_num, Or.inl (by decide)⟩, ?_, ?_, by decide⟩
  · rw [value_pos _ _ (by norm_num)]
    norm_num [Fmt.emax, abs_le]
  · rw [show riFast ⟨8, 23⟩ 12 0x3EFFF000 = 0x3EFFF000 by decide, value_pos _ _ (by norm_num)]
    norm_num [Fmt.emax]

end Verif.VLog
