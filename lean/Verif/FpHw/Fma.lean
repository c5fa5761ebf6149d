import Verif.FpHw.FmaModel
import Verif.FpHw.Adder

/-! # C74: the hardware fused multiply-add -/

namespace Verif.FpHw

open Verif.Float (Fmt Val)
open Verif.Check

theorem bias_eq (F : Fmt) : bias F = -F.emax := by unfold bias Fmt.emax; ring

theorem exp_field_fma {F G : Fmt} (he : 1 ≤ G.e) {n E : ℤ} (hn : n = E + G.emax) (h1 : G.emin ≤ E) (h2 : E ≤ G.emax) :
    1 ≤ (n % 2 ^ expSize F G % 2 ^ G.e).toNat ∧ (n % 2 ^ expSize F G % 2 ^ G.e).toNat + 2 ≤ 2 ^ G.e ∧
      (((n % 2 ^ expSize F G % 2 ^ G.e).toNat : ℕ) : ℤ) - G.emax = E := by
  have hp : (2 : ℤ) ^ G.e = 2 * 2 ^ (G.e - 1) := by
    rw [← pow_succ']; congr 1; omega
  have hm : G.emax = 2 ^ (G.e - 1) - 1 := rfl
  have hmin : G.emin = 1 - G.emax := rfl
  have hlt : n < 2 ^ G.e := by omega
  have hdvd : (2 : ℤ) ^ G.e ∣ 2 ^ expSize F G := pow_dvd_pow _ (by unfold expSize; omega)
  rw [Int.emod_emod_of_dvd _ hdvd, Int.emod_eq_of_lt (by omega) hlt]
  have hcast : ((2 ^ G.e : ℕ) : ℤ) = 2 ^ G.e := by push_cast; rfl
  omega

/-- The significand `S` and the exact value `s` lie in the same cell of width `2 ^ g`, hence in the same half unit of the last place. -/
theorem cell {G : Fmt} {g q S : ℕ} {s : ℝ} (hS : 2 ^ (g + G.f + 1) ≤ S) (h1 : (q : ℝ) * 2 ^ g ≤ s) (h2 : s < (q + 1) * 2 ^ g)
    (h3 : q * 2 ^ g < S) (h4 : S < (q + 1) * 2 ^ g) {t : Bool} {K : ℤ} {x : ℚ} (hx : (x : ℝ) = sg t * (s * (2 : ℝ) ^ K))
    (hmid : s = q * 2 ^ g → ∀ E, InBinade E x → ¬ Midpoint G E x) :
    ∃ j a : ℕ, 2 ^ (j + G.f + 1) ≤ S ∧ S < 2 ^ (j + G.f + 2) ∧ (a : ℝ) * 2 ^ j ≤ s ∧
      (a % 2 = 1 → (a : ℝ) * 2 ^ j < s) ∧ s < (a + 1) * 2 ^ j ∧ a * 2 ^ j < S ∧ S < (a + 1) * 2 ^ j := by
  have hS0 : S ≠ 0 := by have := Nat.two_pow_pos (g + G.f + 1); omega
  have hl1 : 2 ^ Nat.log 2 S ≤ S := Nat.pow_log_le_self 2 hS0
  have hl2 : S < 2 ^ (Nat.log 2 S + 1) := Nat.lt_pow_succ_log_self (by decide) S
  have hgl : g + G.f + 1 ≤ Nat.log 2 S := (Nat.le_log_iff_pow_le (by decide) hS0).2 hS
  obtain ⟨i, hi⟩ : ∃ i, Nat.log 2 S = g + i + G.f + 1 := ⟨Nat.log 2 S - (g + G.f + 1), by omega⟩
  rw [hi] at hl1 hl2
  have hmod := Nat.mod_lt q (Nat.two_pow_pos i)
  have hq := Nat.div_add_mod q (2 ^ i)
  have k1 : q / 2 ^ i * 2 ^ (g + i) ≤ q * 2 ^ g := by
    calc q / 2 ^ i * 2 ^ (g + i) = 2 ^ i * (q / 2 ^ i) * 2 ^ g := by rw [pow_add]; ring
      _ ≤ q * 2 ^ g := Nat.mul_le_mul_right _ (by omega)
  have k2 : (q + 1) * 2 ^ g ≤ (q / 2 ^ i + 1) * 2 ^ (g + i) := by
    calc (q + 1) * 2 ^ g ≤ (2 ^ i * (q / 2 ^ i) + 2 ^ i) * 2 ^ g := Nat.mul_le_mul_right _ (by omega)
      _ = _ := by rw [pow_add]; ring
  have k1r : ((q / 2 ^ i : ℕ) : ℝ) * 2 ^ (g + i) ≤ q * 2 ^ g := by exact_mod_cast k1
  have k2r : ((q : ℝ) + 1) * 2 ^ g ≤ ((q / 2 ^ i : ℕ) + 1) * 2 ^ (g + i) := by exact_mod_cast k2
  refine ⟨g + i, q / 2 ^ i, hl1, hl2, k1r.trans h1, fun hodd => ?_, h2.trans_le k2r, k1.trans_lt h3, h4.trans_le k2⟩
  refine lt_of_le_of_ne (k1r.trans h1) fun heq => ?_
  have hsq : s = q * 2 ^ g := le_antisymm (by rw [← heq]; exact k1r) h1
  generalize q / 2 ^ i = a at *
  have a1 : 2 ^ (G.f + 1) ≤ a := by
    have : 2 ^ (G.f + 1) * 2 ^ (g + i) < (a + 1) * 2 ^ (g + i) := by
      rw [← pow_add, show G.f + 1 + (g + i) = g + i + G.f + 1 by ring]; omega
    have := lt_of_mul_lt_mul_right this (Nat.zero_le _)
    omega
  have a2 : a < 2 ^ (G.f + 2) := by
    have : a * 2 ^ (g + i) < 2 ^ (G.f + 2) * 2 ^ (g + i) := by
      rw [← pow_add, show G.f + 2 + (g + i) = g + i + G.f + 1 + 1 by ring]; omega
    exact lt_of_mul_lt_mul_right this (Nat.zero_le _)
  have hxq : x = sg t * (a * (2 : ℚ) ^ (K + (g + i : ℕ))) := by
    have : (x : ℝ) = ((sg t * (a * (2 : ℚ) ^ (K + (g + i : ℕ))) : ℚ) : ℝ) := by
      rw [hx, ← heq]
      push_cast
      rw [mul_assoc, ← zpow_natCast, ← radd]; congr 3; push_cast; ring
    exact_mod_cast this
  refine hmid hsq (K + (g + i : ℕ) + G.f + 1) ?_ ?_
  · have := mant_binade (F := ⟨0, G.f + 1⟩) (m := a) a1 a2 t (K + (g + i : ℕ) + G.f + 1)
    rw [hxq]
    convert this using 4
    push_cast; ring
  · obtain ⟨m, hm⟩ : ∃ m, a = 2 * m + 1 := ⟨a / 2, by omega⟩
    have e : K + ((g + i : ℕ) : ℤ) + G.f + 1 - G.f - 1 = K + ((g + i : ℕ) : ℤ) := by ring
    cases t
    · refine ⟨m, ?_⟩
      rw [hxq, hm, e, sg]; push_cast; simp
    · refine ⟨-m - 1, ?_⟩
      rw [hxq, hm, e, sg]; push_cast; simp; ring

/-- the sum when the signs agree -/
theorem abs_add {F G : Fmt} {x y z Z P : ℕ} (hop : effectiveOp F G x y z = false) (hZ : shiftedMantVz F G x y z = Z)
    (hP : prodExt F G x y = P) (hl : Z + P + 1 < 2 ^ (width F G + 1)) :
    mantAddAbs F G x y z = Z + P + 1 ∧ addIsNegative F G x y z = false := by
  have hneg : addIsNegative F G x y z = false := by unfold addIsNegative; rw [hop, Bool.and_false]
  refine ⟨?_, hneg⟩
  unfold mantAddAbs mantAddP1 mantAddP0
  dsimp only
  rw [hneg, hop, hZ, hP]
  simp only [Bool.false_eq_true, if_false]
  rw [Nat.mod_eq_of_lt (show Z + P < _ by omega), Nat.mod_eq_of_lt hl]

/-- the sum when the signs differ and the product is the largest -/
theorem abs_sub {F G : Fmt} {x y z Z P : ℕ} (hop : effectiveOp F G x y z = true) (hZ : shiftedMantVz F G x y z = Z)
    (hP : prodExt F G x y = P) (hlt : Z < P) (hl : P < 2 ^ width F G) :
    mantAddAbs F G x y z = P - Z ∧ addIsNegative F G x y z = false := by
  have hN : (2 : ℕ) ^ (width F G + 1) = 2 * 2 ^ width F G := by rw [pow_succ]; ring
  have h0 : mantAddP0 F G x y z = P - Z - 1 := by
    unfold mantAddP0
    dsimp only
    rw [hop, hZ, hP, if_pos rfl, show 2 ^ (width F G + 1) - 1 - Z + P = (P - Z - 1) + 2 ^ (width F G + 1) by omega, Nat.add_mod_right,
      Nat.mod_eq_of_lt (by omega)]
  have h1 : mantAddP1 F G x y z = P - Z := by
    unfold mantAddP1
    rw [h0, Nat.mod_eq_of_lt (by omega)]; omega
  have hneg : addIsNegative F G x y z = false := by
    unfold addIsNegative
    rw [h1, Nat.div_eq_of_lt (by omega)]; simp
  refine ⟨?_, hneg⟩
  unfold mantAddAbs
  rw [hneg, h1]; simp

/-- the sum when the signs differ and the addend is the largest -/
theorem abs_neg {F G : Fmt} {x y z Z P : ℕ} (hop : effectiveOp F G x y z = true) (hZ : shiftedMantVz F G x y z = Z)
    (hP : prodExt F G x y = P) (hlt : P < Z) (hl : Z < 2 ^ width F G) :
    mantAddAbs F G x y z = Z - P ∧ addIsNegative F G x y z = true := by
  have hN : (2 : ℕ) ^ (width F G + 1) = 2 * 2 ^ width F G := by rw [pow_succ]; ring
  have h0 : mantAddP0 F G x y z = 2 ^ (width F G + 1) - 1 - (Z - P) := by
    unfold mantAddP0
    dsimp only
    rw [hop, hZ, hP, if_pos rfl, Nat.mod_eq_of_lt (by omega)]; omega
  have h1 : mantAddP1 F G x y z = 2 ^ (width F G + 1) - (Z - P) := by
    unfold mantAddP1
    rw [h0, Nat.mod_eq_of_lt (by omega)]; omega
  have hneg : addIsNegative F G x y z = true := by
    unfold addIsNegative
    rw [h1, hop, show (2 ^ (width F G + 1) - (Z - P)) / 2 ^ width F G = 1 by rw [Nat.div_eq_iff (Nat.two_pow_pos _)]; omega]; simp
  refine ⟨?_, hneg⟩
  unfold mantAddAbs
  rw [hneg, h0, if_pos rfl]; omega

/-- the difference of exponents does not overflow -/
theorem expDiff_eq {F G : Fmt} (heF : 1 ≤ F.e) (heG : 1 ≤ G.e) {x y z : ℕ} (hx1 : 1 ≤ expField F x) (hx2 : expField F x + 2 ≤ 2 ^ F.e)
    (hy1 : 1 ≤ expField F y) (hy2 : expField F y + 2 ≤ 2 ^ F.e) (hz2 : expField G z + 2 ≤ 2 ^ G.e)
    (hM : G.f + 2 ≤ 2 ^ (max F.e G.e - 1)) :
    expDiff F G x y z = ((expField F x : ℤ) - F.emax) + ((expField F y : ℤ) - F.emax) - ((expField G z : ℤ) - G.emax) + (G.f + 4) := by
  unfold expDiff expOffset
  dsimp only
  rw [bias_eq, bias_eq]
  have hmF : F.emax = 2 ^ (F.e - 1) - 1 := rfl
  have hmG : G.emax = 2 ^ (G.e - 1) - 1 := rfl
  have hpF : 2 ^ F.e = 2 * 2 ^ (F.e - 1) := by rw [← pow_succ']; congr 1; omega
  have hpG : 2 ^ G.e = 2 * 2 ^ (G.e - 1) := by rw [← pow_succ']; congr 1; omega
  have hF : 2 ^ (F.e - 1) ≤ 2 ^ (max F.e G.e - 1) := Nat.pow_le_pow_right (by decide) (by omega)
  have hG : 2 ^ (G.e - 1) ≤ 2 ^ (max F.e G.e - 1) := Nat.pow_le_pow_right (by decide) (by omega)
  have hS1 : (2 : ℤ) ^ (expSize F G - 1) = 4 * ((2 ^ (max F.e G.e - 1) : ℕ) : ℤ) := by
    unfold expSize
    rw [show max F.e G.e + 2 - 1 = (max F.e G.e - 1) + 2 by omega, pow_add]; push_cast; ring
  have hS : (2 : ℤ) ^ expSize F G = 8 * ((2 ^ (max F.e G.e - 1) : ℕ) : ℤ) := by
    unfold expSize
    rw [show max F.e G.e + 2 = (max F.e G.e - 1) + 3 by omega, pow_add]; push_cast; ring
  have cF : ((2 ^ (F.e - 1) : ℕ) : ℤ) = 2 ^ (F.e - 1) := by push_cast; rfl
  have cG : ((2 ^ (G.e - 1) : ℕ) : ℤ) = 2 ^ (G.e - 1) := by push_cast; rfl
  have p0 := Nat.two_pow_pos (F.e - 1)
  have p1 := Nat.two_pow_pos (G.e - 1)
  rw [hS1, hS]
  rw [← cF] at hmF
  rw [← cG] at hmG
  generalize 2 ^ (max F.e G.e - 1) = M at *
  generalize 2 ^ (F.e - 1) = MF at *
  generalize 2 ^ (G.e - 1) = MG at *
  set n := (expField F y : ℤ) + expField F x + (((G.f + 1 + 2 : ℕ) : ℤ) + (-F.emax + -F.emax) - -G.emax + 1) - expField G z with hn
  clear_value n
  by_cases h : 0 ≤ n
  · rw [Int.emod_eq_of_lt h (by omega), if_neg (by omega)]
    omega
  · rw [← Int.add_emod_right, Int.emod_eq_of_lt (by omega) (by omega), if_pos (by omega)]
    omega

theorem width_eq {F G : Fmt} (hpq : G.f ≤ 2 * F.f) : width F G = 2 * G.f + 2 * F.f + 8 := by unfold width expOffset; omega

theorem prod_bounds {f g mx my : ℕ} (x3 : 2 ^ f ≤ mx) (x4 : mx < 2 ^ (f + 1)) (y3 : 2 ^ f ≤ my) (y4 : my < 2 ^ (f + 1)) :
    2 ^ (2 * f + g + 3) ≤ mx * my * 2 ^ (g + 1 + 2) ∧ mx * my * 2 ^ (g + 1 + 2) < 2 ^ (2 * f + g + 5) := by
  constructor
  · calc 2 ^ (2 * f + g + 3) = 2 ^ f * 2 ^ f * 2 ^ (g + 1 + 2) := by rw [← pow_add, ← pow_add]; congr 1; ring
      _ ≤ _ := Nat.mul_le_mul_right _ (Nat.mul_le_mul x3 y3)
  · calc _ < 2 ^ (f + 1) * 2 ^ (f + 1) * 2 ^ (g + 1 + 2) :=
          Nat.mul_lt_mul_of_pos_right (Nat.mul_lt_mul_of_lt_of_le x4 y4.le (Nat.two_pow_pos _)) (Nat.two_pow_pos _)
      _ = _ := by rw [← pow_add, ← pow_add]; congr 1; ring

theorem sg_xor (s t : Bool) : sg (xor s t) = sg s * sg t := by cases s <;> cases t <;> simp [sg]

theorem product_value {F : Fmt} {x y : ℕ} {a b : ℚ} {A B : ℤ} (g : ℕ)
    (ha : a = sg (signBit F x) * (mant F x * (2 : ℚ) ^ (A - F.f))) (hb : b = sg (signBit F y) * (mant F y * (2 : ℚ) ^ (B - F.f))) :
    a * b = sg (signXY F x y) * ((mant F x * mant F y * 2 ^ (g + 1 + 2) : ℕ) * (2 : ℚ) ^ (A + B - 2 * F.f - (g + 3))) := by
  have e : (2 : ℚ) ^ (A - F.f) * (2 : ℚ) ^ (B - F.f) = (2 : ℚ) ^ (g + 1 + 2) * (2 : ℚ) ^ (A + B - 2 * F.f - (g + 3)) := by
    rw [← zpow_natCast, ← zadd, ← zadd]; congr 1; push_cast; ring
  unfold signXY
  rw [ha, hb, sg_xor]
  push_cast
  linear_combination (sg (signBit F x) * sg (signBit F y) * mant F x * mant F y) * e

set_option maxHeartbeats 1000000 in
/-- The sum of significands when the product is not too small for the data path: the exact sum is `s * 2 ^ K`. -/
theorem prod_core {F G : Fmt} (hpq : G.f ≤ 2 * F.f) {x y z : ℕ} {a b c : ℚ} {A B C : ℤ}
    (x3 : 2 ^ F.f ≤ mant F x) (x4 : mant F x < 2 ^ (F.f + 1)) (y3 : 2 ^ F.f ≤ mant F y) (y4 : mant F y < 2 ^ (F.f + 1))
    (z4 : mant G z < 2 ^ (G.f + 1))
    (ha : a = sg (signBit F x) * (mant F x * (2 : ℚ) ^ (A - F.f))) (hb : b = sg (signBit F y) * (mant F y * (2 : ℚ) ^ (B - F.f)))
    (hc : c = sg (signBit G z) * (mant G z * (2 : ℚ) ^ (C - G.f))) (hd : expDiff F G x y z = A + B - C + (G.f + 4))
    (hd0 : 0 ≤ A + B - C + (G.f + 4)) (hne : a * b + c ≠ 0)
    (hmid : effectiveOp F G x y z = true ∨ ∀ E, InBinade E (a * b + c) → ¬ Midpoint G E (a * b + c)) :
    ∃ (S : ℕ) (s : ℝ), mantAddAbs F G x y z = S ∧ 0 < S ∧ S < 2 ^ (width F G + 1) ∧
      (s = S ∨ ∃ j c : ℕ, 2 ^ (j + G.f + 1) ≤ S ∧ S < 2 ^ (j + G.f + 2) ∧ (c : ℝ) * 2 ^ j ≤ s ∧
        (c % 2 = 1 → (c : ℝ) * 2 ^ j < s) ∧ s < (c + 1) * 2 ^ j ∧ c * 2 ^ j < S ∧ S < (c + 1) * 2 ^ j) ∧
      ((a * b + c : ℚ) : ℝ) = sg (xor (addIsNegative F G x y z) (signXY F x y)) * (s * (2 : ℝ) ^ (A + B - 2 * F.f - (G.f + 3))) := by
  have hab := product_value (F := F) G.f ha hb
  have hW := width_eq hpq
  obtain ⟨P1, P2⟩ := prod_bounds (g := G.f) x3 x4 y3 y4
  have hP : prodExt F G x y = mant F x * mant F y * 2 ^ (G.f + 1 + 2) := rfl
  obtain ⟨P0, hP0⟩ : ∃ P0, mant F x * mant F y * 2 ^ (G.f + 1 + 2) = 4 * P0 * 2 ^ (G.f + 1) := ⟨mant F x * mant F y, by rw [pow_add _ _ 2]; ring⟩
  rw [hP0] at hP P1 P2 hab
  have hlow : 2 ^ (2 * G.f + 3) ≤ 4 * P0 * 2 ^ (G.f + 1) := le_trans (Nat.pow_le_pow_right (by decide) (by omega)) P1
  have hlow' : (2 : ℕ) ^ (2 * G.f + 3) = 2 * 2 ^ (2 * G.f + 2) := by rw [pow_succ]; ring
  have hlow2 : (2 : ℕ) ^ (2 * G.f + 2) = 2 ^ (G.f + 1) * 2 ^ (G.f + 1) := by rw [← pow_add]; congr 1; ring
  have hg1 : 1 ≤ 2 ^ (G.f + 1) := Nat.two_pow_pos _
  have hsq : 2 ^ (G.f + 1) ≤ 2 ^ (2 * G.f + 2) := Nat.pow_le_pow_right (by decide) (by omega)
  have hPW : 2 ^ (2 * F.f + G.f + 5) ≤ 2 ^ (2 * G.f + 2 * F.f + 8 - 1) := Nat.pow_le_pow_right (by decide) (by omega)
  have hWW : (2 : ℕ) ^ (2 * G.f + 2 * F.f + 8) = 2 * 2 ^ (2 * G.f + 2 * F.f + 8 - 1) := by rw [← pow_succ']; congr 1
  have hWN : (2 : ℕ) ^ (2 * G.f + 2 * F.f + 8 + 1) = 2 * 2 ^ (2 * G.f + 2 * F.f + 8) := by rw [pow_succ]; ring
  have hgW : 2 ^ (G.f + 1) ≤ 2 ^ (2 * G.f + 2 * F.f + 8 - 1) := Nat.pow_le_pow_right (by decide) (by omega)
  have hsz : effectiveOp F G x y z = false → sg (signBit G z) = sg (signXY F x y) := by
    unfold effectiveOp; cases signXY F x y <;> cases signBit G z <;> simp
  have hsz' : effectiveOp F G x y z = true → sg (signBit G z) = -sg (signXY F x y) := by
    unfold effectiveOp; cases signXY F x y <;> cases signBit G z <;> simp [sg]
  have hshift : shiftedMantVz F G x y z = mant G z * 2 ^ (G.f + 2 * F.f + 7) / 2 ^ fmaShift F G x y z := by
    unfold shiftedMantVz; rw [hW]; congr 3; omega
  have hsh : fmaShift F G x y z = if (G.f + 2 * F.f + 7 : ℤ) < A + B - C + (G.f + 4) then G.f + 2 * F.f + 7 else (A + B - C + (G.f + 4)).toNat := by
    unfold fmaShift
    dsimp only
    rw [hd, hW, if_neg (by omega), show 2 * G.f + 2 * F.f + 8 - (G.f + 1) = G.f + 2 * F.f + 7 by omega]
    push_cast
    split_ifs with h
    · rfl
    · congr 1
      apply Int.emod_eq_of_lt hd0
      have : G.f + 2 * F.f + 7 < 2 ^ (Nat.log 2 (G.f + 2 * F.f + 7) + 1) := Nat.lt_pow_succ_log_self (by decide) _
      have : ((G.f + 2 * F.f + 7 : ℕ) : ℤ) < 2 ^ (Nat.log 2 (G.f + 2 * F.f + 7) + 1) := by exact_mod_cast this
      push_cast at this
      omega
  by_cases hcl : (G.f + 2 * F.f + 7 : ℤ) < A + B - C + (G.f + 4)
  · -- the addend is too small to be aligned
    rw [if_pos hcl] at hsh
    have hZ : shiftedMantVz F G x y z = mant G z := by rw [hshift, hsh, Nat.mul_div_cancel _ (Nat.two_pow_pos _)]
    obtain ⟨n, hn⟩ : ∃ n : ℕ, A + B - C = 2 * F.f + 3 + (n + 1) := ⟨(A + B - C - (2 * F.f + 3) - 1).toNat, by omega⟩
    have hcv : c = sg (signBit G z) * ((mant G z * (2 : ℚ) ^ (-((n : ℤ) + 1))) * (2 : ℚ) ^ (A + B - 2 * F.f - (G.f + 3))) := by
      rw [hc, mul_assoc, ← zadd]; congr 3; omega
    generalize mant G z = mz at *
    have hsm1 : (mz : ℝ) * (2 : ℝ) ^ (-((n : ℤ) + 1)) ≤ mz := by
      have h2 : (2 : ℝ) ^ (-((n : ℤ) + 1)) ≤ 1 := by
        have := rle (a := -((n : ℤ) + 1)) (b := 0) (by omega)
        simpa using this
      exact mul_le_of_le_one_right (by positivity) h2
    have hsm0 : (0 : ℝ) ≤ (mz : ℝ) * (2 : ℝ) ^ (-((n : ℤ) + 1)) := mul_nonneg (by positivity) (rp _).le
    have hzr : (mz : ℝ) < 2 ^ (G.f + 1) := by exact_mod_cast z4
    have hg1r : (1 : ℝ) ≤ 2 ^ (G.f + 1) := by exact_mod_cast hg1
    cases hop : effectiveOp F G x y z
    · obtain ⟨e1, e2⟩ := abs_add hop hZ hP (by rw [hW]; omega)
      have hval : ((a * b + c : ℚ) : ℝ) = sg (signXY F x y) *
          (((4 * P0 * 2 ^ (G.f + 1) : ℕ) + mz * (2 : ℝ) ^ (-((n : ℤ) + 1))) * (2 : ℝ) ^ (A + B - 2 * F.f - (G.f + 3))) := by
        rw [hab, hcv, hsz hop]; push_cast; ring
      refine ⟨_, _, e1, by omega, by rw [hW]; omega, .inr ?_, by rw [e2, Bool.false_xor]; exact hval⟩
      have e4 : (2 : ℕ) ^ (G.f + 2) = 2 * 2 ^ (G.f + 1) := by rw [pow_succ]; ring
      refine cell (g := G.f + 2) (q := 2 * P0) ?_ ?_ ?_ ?_ ?_ hval fun _ => ?_
      · rw [show G.f + 2 + G.f + 1 = 2 * G.f + 3 by ring]; omega
      · push_cast; rw [pow_succ]; nlinarith
      · push_cast; rw [pow_succ _ (G.f + 1)]; nlinarith
      · rw [e4, show 2 * P0 * (2 * 2 ^ (G.f + 1)) = 4 * P0 * 2 ^ (G.f + 1) by ring]; omega
      · rw [e4, show (2 * P0 + 1) * (2 * 2 ^ (G.f + 1)) = 4 * P0 * 2 ^ (G.f + 1) + 2 * 2 ^ (G.f + 1) by ring]; omega
      · rcases hmid with h | h
        · rw [hop] at h; exact absurd h (by decide)
        · exact h
    · obtain ⟨e1, e2⟩ := abs_sub hop hZ hP (by omega) (by rw [hW]; omega)
      have hval : ((a * b + c : ℚ) : ℝ) = sg (signXY F x y) *
          (((4 * P0 * 2 ^ (G.f + 1) : ℕ) - mz * (2 : ℝ) ^ (-((n : ℤ) + 1))) * (2 : ℝ) ^ (A + B - 2 * F.f - (G.f + 3))) := by
        rw [hab, hcv, hsz' hop]; push_cast; ring
      refine ⟨_, _, e1, by omega, by rw [hW]; omega, ?_, by rw [e2, Bool.false_xor]; exact hval⟩
      rcases Nat.eq_zero_or_pos mz with h0 | h0
      · left; rw [h0]; simp
      · right
        have h0r : (0 : ℝ) < mz * (2 : ℝ) ^ (-((n : ℤ) + 1)) := mul_pos (by exact_mod_cast h0) (rp _)
        have hP0 : 1 ≤ P0 := by
          by_contra hc
          rw [show P0 = 0 by omega] at hlow
          have := Nat.two_pow_pos (2 * G.f + 2)
          omega
        have hc1 : ((4 * P0 - 1 : ℕ) : ℝ) = 4 * P0 - 1 := by rw [Nat.cast_sub (by omega)]; push_cast; ring
        have hn1 : (4 * P0 - 1) * 2 ^ (G.f + 1) + 2 ^ (G.f + 1) = 4 * P0 * 2 ^ (G.f + 1) := by
          rw [← Nat.succ_mul]; congr 1; omega
        have hlt : ((4 * P0 - 1 : ℕ) : ℝ) * 2 ^ (G.f + 1) < ((4 * P0 * 2 ^ (G.f + 1) : ℕ) - mz * (2 : ℝ) ^ (-((n : ℤ) + 1))) := by
          rw [hc1]; push_cast; linarith
        refine cell (g := G.f + 1) (q := 4 * P0 - 1) ?_ hlt.le ?_ ?_ ?_ hval fun h => absurd h hlt.ne'
        · rw [show G.f + 1 + G.f + 1 = 2 * G.f + 2 by ring]; omega
        · rw [hc1]; push_cast; linarith
        · omega
        · rw [Nat.sub_add_cancel (by omega)]; omega
  · rw [if_neg hcl] at hsh
    obtain ⟨i, hi⟩ : ∃ i : ℕ, (i : ℤ) = C - A - B + 2 * F.f + 3 := ⟨(C - A - B + 2 * F.f + 3).toNat, by omega⟩
    have hZ : shiftedMantVz F G x y z = mant G z * 2 ^ i := by
      rw [hshift, hsh]
      have : mant G z * 2 ^ (G.f + 2 * F.f + 7) = mant G z * 2 ^ i * 2 ^ (A + B - C + (G.f + 4)).toNat := by
        rw [mul_assoc, ← pow_add]; congr 2; omega
      rw [this, Nat.mul_div_cancel _ (Nat.two_pow_pos _)]
    have hcv : c = sg (signBit G z) * ((mant G z * 2 ^ i : ℕ) * (2 : ℚ) ^ (A + B - 2 * F.f - (G.f + 3))) := by
      rw [hc]; push_cast; rw [mul_assoc, ← zpow_natCast, ← zadd]; congr 3; omega
    have hZl : mant G z * 2 ^ i < 2 ^ (2 * G.f + 2 * F.f + 8) := by
      calc mant G z * 2 ^ i < 2 ^ (G.f + 1) * 2 ^ i := Nat.mul_lt_mul_of_pos_right z4 (Nat.two_pow_pos _)
        _ = 2 ^ (G.f + 1 + i) := (pow_add _ _ _).symm
        _ ≤ _ := Nat.pow_le_pow_right (by decide) (by omega)
    cases hop : effectiveOp F G x y z
    · obtain ⟨e1, e2⟩ := abs_add hop hZ hP (by rw [hW]; omega)
      have hval : ((a * b + c : ℚ) : ℝ) = sg (signXY F x y) *
          (((4 * P0 * 2 ^ (G.f + 1) : ℕ) + (mant G z * 2 ^ i : ℕ)) * (2 : ℝ) ^ (A + B - 2 * F.f - (G.f + 3))) := by
        rw [hab, hcv, hsz hop]; push_cast; ring
      refine ⟨_, _, e1, by omega, by rw [hW]; omega, .inr ?_, by rw [e2, Bool.false_xor]; exact hval⟩
      have hm : ∀ E, InBinade E (a * b + c) → ¬ Midpoint G E (a * b + c) := by
        rcases hmid with h | h
        · rw [hop] at h; exact absurd h (by decide)
        · exact h
      have e4 : (2 : ℕ) ^ (G.f + 2) = 2 * 2 ^ (G.f + 1) := by rw [pow_succ]; ring
      rcases Nat.eq_zero_or_pos i with h0 | h0
      · subst h0
        rw [pow_zero, mul_one] at hval ⊢
        have hzr : (mant G z : ℝ) < 2 ^ (G.f + 1) := by exact_mod_cast z4
        have hz0 : (0 : ℝ) ≤ mant G z := by positivity
        have hg1r : (1 : ℝ) ≤ 2 ^ (G.f + 1) := by exact_mod_cast hg1
        refine cell (g := G.f + 2) (q := 2 * P0) ?_ ?_ ?_ ?_ ?_ hval fun _ => hm
        · rw [show G.f + 2 + G.f + 1 = 2 * G.f + 3 by ring]; omega
        · push_cast; rw [pow_succ]; nlinarith
        · push_cast; rw [pow_succ _ (G.f + 1)]; nlinarith
        · rw [e4, show 2 * P0 * (2 * 2 ^ (G.f + 1)) = 4 * P0 * 2 ^ (G.f + 1) by ring]; omega
        · rw [e4, show (2 * P0 + 1) * (2 * 2 ^ (G.f + 1)) = 4 * P0 * 2 ^ (G.f + 1) + 2 * 2 ^ (G.f + 1) by ring]; omega
      · obtain ⟨q, hq⟩ : ∃ q, mant G z * 2 ^ i + 4 * P0 * 2 ^ (G.f + 1) = 2 * q := by
          obtain ⟨i', rfl⟩ : ∃ i', i = i' + 1 := ⟨i - 1, by omega⟩
          exact ⟨mant G z * 2 ^ i' + 2 * P0 * 2 ^ (G.f + 1), by rw [pow_succ]; ring⟩
        have hqr : ((4 * P0 * 2 ^ (G.f + 1) : ℕ) : ℝ) + (mant G z * 2 ^ i : ℕ) = 2 * q := by rw [add_comm]; exact_mod_cast hq
        refine cell (g := 1) (q := q) ?_ ?_ ?_ ?_ ?_ hval fun _ => hm
        · have : (2 : ℕ) ^ (1 + G.f + 1) ≤ 2 ^ (2 * G.f + 3) := Nat.pow_le_pow_right (by decide) (by omega)
          omega
        · rw [hqr]; linarith
        · rw [hqr]; linarith
        · omega
        · omega
    · rcases Nat.lt_trichotomy (mant G z * 2 ^ i) (4 * P0 * 2 ^ (G.f + 1)) with h | h | h
      · obtain ⟨e1, e2⟩ := abs_sub hop hZ hP h (by rw [hW]; omega)
        refine ⟨_, _, e1, by omega, by rw [hW]; omega, .inl rfl, ?_⟩
        rw [e2, Bool.false_xor, hab, hcv, hsz' hop, Nat.cast_sub h.le]; push_cast; ring
      · refine absurd ?_ hne
        rw [hab, hcv, hsz' hop, h]; ring
      · obtain ⟨e1, e2⟩ := abs_neg hop hZ hP h (by rw [hW]; omega)
        refine ⟨_, _, e1, by omega, by rw [hW]; omega, .inl rfl, ?_⟩
        rw [e2, sg_xor, hab, hcv, hsz' hop, Nat.cast_sub h.le]; simp only [sg]; push_cast; simp; ring

/-- The sum of significands when the addend exceeds the product by more than the width of the data path. -/
theorem far_add_core {F G : Fmt} (hpq : G.f ≤ 2 * F.f) {x y z : ℕ} {a b c : ℚ} {A B C : ℤ}
    (x3 : 2 ^ F.f ≤ mant F x) (x4 : mant F x < 2 ^ (F.f + 1)) (y3 : 2 ^ F.f ≤ mant F y) (y4 : mant F y < 2 ^ (F.f + 1))
    (z3 : 2 ^ G.f ≤ mant G z) (z4 : mant G z < 2 ^ (G.f + 1))
    (ha : a = sg (signBit F x) * (mant F x * (2 : ℚ) ^ (A - F.f))) (hb : b = sg (signBit F y) * (mant F y * (2 : ℚ) ^ (B - F.f)))
    (hc : c = sg (signBit G z) * (mant G z * (2 : ℚ) ^ (C - G.f))) (hd : expDiff F G x y z = A + B - C + (G.f + 4))
    (hd0 : A + B - C + (G.f + 4) < 0) :
    ∃ (S : ℕ) (s : ℝ), mantAddAbs F G x y z = S ∧ 0 < S ∧ S < 2 ^ (width F G + 1) ∧
      (s = S ∨ ∃ j c : ℕ, 2 ^ (j + G.f + 1) ≤ S ∧ S < 2 ^ (j + G.f + 2) ∧ (c : ℝ) * 2 ^ j ≤ s ∧
        (c % 2 = 1 → (c : ℝ) * 2 ^ j < s) ∧ s < (c + 1) * 2 ^ j ∧ c * 2 ^ j < S ∧ S < (c + 1) * 2 ^ j) ∧
      ((a * b + c : ℚ) : ℝ) = sg (xor (addIsNegative F G x y z) (signXY F x y)) * (s * (2 : ℝ) ^ (C - G.f - (G.f + 2 * F.f + 7))) := by
  have hab := product_value (F := F) G.f ha hb
  have hW := width_eq hpq
  obtain ⟨P1, P2⟩ := prod_bounds (g := G.f) x3 x4 y3 y4
  have hP : prodExt F G x y = mant F x * mant F y * 2 ^ (G.f + 1 + 2) := rfl
  have hPp := Nat.two_pow_pos (2 * F.f + G.f + 3)
  generalize mant F x * mant F y * 2 ^ (G.f + 1 + 2) = P at *
  obtain ⟨n, hn⟩ : ∃ n : ℕ, A + B - C + (G.f + 4) = -((n : ℤ) + 1) := ⟨(-(A + B - C + (G.f + 4)) - 1).toNat, by omega⟩
  have hsh : fmaShift F G x y z = 0 := by
    unfold fmaShift
    dsimp only
    rw [hd, if_pos hd0]
  have hZ : shiftedMantVz F G x y z = mant G z * 2 ^ (G.f + 2 * F.f + 7) := by
    unfold shiftedMantVz
    rw [hsh, hW, pow_zero, Nat.div_one]; congr 2; omega
  have hab' : a * b = sg (signXY F x y) * ((P * (2 : ℚ) ^ (-((n : ℤ) + 1))) * (2 : ℚ) ^ (C - G.f - (G.f + 2 * F.f + 7))) := by
    rw [hab, mul_assoc, ← zadd]; congr 3; omega
  have hcv : c = sg (signBit G z) * ((mant G z * 2 ^ (G.f + 2 * F.f + 7) : ℕ) * (2 : ℚ) ^ (C - G.f - (G.f + 2 * F.f + 7))) := by
    rw [hc]; push_cast; rw [mul_assoc, ← zpow_natCast, ← zadd]; congr 3; push_cast; ring
  have hsz : effectiveOp F G x y z = false → sg (signXY F x y) = sg (signBit G z) ∧ xor false (signXY F x y) = signBit G z := by
    unfold effectiveOp; cases signXY F x y <;> cases signBit G z <;> simp
  have hsz' : effectiveOp F G x y z = true → sg (signXY F x y) = -sg (signBit G z) ∧ xor true (signXY F x y) = signBit G z := by
    unfold effectiveOp; cases signXY F x y <;> cases signBit G z <;> simp [sg]
  have q5 : 2 * F.f + G.f + 5 = G.f + 2 * F.f + 5 := by ring
  rw [q5] at P2
  have q7 : (2 : ℕ) ^ (G.f + 2 * F.f + 7) = 4 * 2 ^ (G.f + 2 * F.f + 5) := by
    rw [show G.f + 2 * F.f + 7 = G.f + 2 * F.f + 5 + 2 by ring, pow_add _ _ 2]; ring
  have hZu : mant G z * 2 ^ (G.f + 2 * F.f + 7) + 2 ^ (G.f + 2 * F.f + 7) ≤ 2 ^ (2 * G.f + 2 * F.f + 8) := by
    calc mant G z * 2 ^ (G.f + 2 * F.f + 7) + 2 ^ (G.f + 2 * F.f + 7) = (mant G z + 1) * 2 ^ (G.f + 2 * F.f + 7) := by ring
      _ ≤ 2 ^ (G.f + 1) * 2 ^ (G.f + 2 * F.f + 7) := Nat.mul_le_mul_right _ z4
      _ = _ := by rw [← pow_add]; congr 1; ring
  have hZl : 2 ^ (2 * G.f + 2 * F.f + 7) ≤ mant G z * 2 ^ (G.f + 2 * F.f + 7) := by
    calc 2 ^ (2 * G.f + 2 * F.f + 7) = 2 ^ G.f * 2 ^ (G.f + 2 * F.f + 7) := by rw [← pow_add]; congr 1; ring
      _ ≤ _ := Nat.mul_le_mul_right _ z3
  have hWN : (2 : ℕ) ^ (2 * G.f + 2 * F.f + 8 + 1) = 2 * 2 ^ (2 * G.f + 2 * F.f + 8) := by rw [pow_succ]; ring
  have hl6 : (2 : ℕ) ^ (2 * G.f + 2 * F.f + 7) = 2 * 2 ^ (2 * G.f + 2 * F.f + 6) := by rw [pow_succ]; ring
  have hl5 : 2 ^ (G.f + 2 * F.f + 5) ≤ 2 ^ (2 * G.f + 2 * F.f + 6) := Nat.pow_le_pow_right (by decide) (by omega)
  have hPr : (P : ℝ) < 2 ^ (G.f + 2 * F.f + 5) := by exact_mod_cast P2
  have hPs1 : (P : ℝ) * (2 : ℝ) ^ (-((n : ℤ) + 1)) ≤ P := by
    have h2 : (2 : ℝ) ^ (-((n : ℤ) + 1)) ≤ 1 := by
      have := rle (a := -((n : ℤ) + 1)) (b := 0) (by omega)
      simpa using this
    exact mul_le_of_le_one_right (by positivity) h2
  have hP0 : 0 < P := by omega
  have hPs0 : (0 : ℝ) < (P : ℝ) * (2 : ℝ) ^ (-((n : ℤ) + 1)) := mul_pos (by exact_mod_cast hP0) (rp _)
  have q7r : (2 : ℝ) ^ (G.f + 2 * F.f + 7) = 4 * 2 ^ (G.f + 2 * F.f + 5) := by exact_mod_cast q7
  cases hop : effectiveOp F G x y z
  · obtain ⟨e1, e2⟩ := abs_add hop hZ hP (by rw [hW]; omega)
    have hval : ((a * b + c : ℚ) : ℝ) = sg (signBit G z) *
        (((mant G z * 2 ^ (G.f + 2 * F.f + 7) : ℕ) + P * (2 : ℝ) ^ (-((n : ℤ) + 1))) * (2 : ℝ) ^ (C - G.f - (G.f + 2 * F.f + 7))) := by
      rw [hab', hcv, (hsz hop).1]; push_cast; ring
    refine ⟨_, _, e1, by omega, by rw [hW]; omega, .inr ?_, by rw [e2, (hsz hop).2]; exact hval⟩
    have q6 : (2 : ℕ) ^ (G.f + 2 * F.f + 6) = 2 * 2 ^ (G.f + 2 * F.f + 5) := by rw [pow_succ]; ring
    have q6r : (2 : ℝ) ^ (G.f + 2 * F.f + 6) = 2 * 2 ^ (G.f + 2 * F.f + 5) := by exact_mod_cast q6
    have hlt : ((2 * mant G z : ℕ) : ℝ) * 2 ^ (G.f + 2 * F.f + 6) <
        (mant G z * 2 ^ (G.f + 2 * F.f + 7) : ℕ) + P * (2 : ℝ) ^ (-((n : ℤ) + 1)) := by
      push_cast; rw [q6r, q7r]; linarith
    refine cell (g := G.f + 2 * F.f + 6) (q := 2 * mant G z) ?_ hlt.le ?_ ?_ ?_ hval fun h => absurd h hlt.ne'
    · rw [show G.f + 2 * F.f + 6 + G.f + 1 = 2 * G.f + 2 * F.f + 7 by ring]; omega
    · push_cast; rw [q6r, q7r]; linarith
    · rw [q6, q7, show 2 * mant G z * (2 * 2 ^ (G.f + 2 * F.f + 5)) = mant G z * (4 * 2 ^ (G.f + 2 * F.f + 5)) by ring]; omega
    · rw [q6, q7, show (2 * mant G z + 1) * (2 * 2 ^ (G.f + 2 * F.f + 5)) =
        mant G z * (4 * 2 ^ (G.f + 2 * F.f + 5)) + 2 * 2 ^ (G.f + 2 * F.f + 5) by ring]
      omega
  · obtain ⟨e1, e2⟩ := abs_neg hop hZ hP (by omega) (by rw [hW]; omega)
    have hval : ((a * b + c : ℚ) : ℝ) = sg (signBit G z) *
        (((mant G z * 2 ^ (G.f + 2 * F.f + 7) : ℕ) - P * (2 : ℝ) ^ (-((n : ℤ) + 1))) * (2 : ℝ) ^ (C - G.f - (G.f + 2 * F.f + 7))) := by
      rw [hab', hcv, (hsz' hop).1]; push_cast; ring
    refine ⟨_, _, e1, by omega, by rw [hW]; omega, .inr ?_, by rw [e2, (hsz' hop).2]; exact hval⟩
    have hz1 : 1 ≤ mant G z := le_trans (Nat.two_pow_pos _) z3
    have hc1 : ((4 * mant G z - 1 : ℕ) : ℝ) = 4 * mant G z - 1 := by rw [Nat.cast_sub (by omega)]; push_cast; ring
    have hn1 : (4 * mant G z - 1) * 2 ^ (G.f + 2 * F.f + 5) + 2 ^ (G.f + 2 * F.f + 5) = mant G z * 2 ^ (G.f + 2 * F.f + 7) := by
      rw [← Nat.succ_mul, q7, Nat.succ_eq_add_one, Nat.sub_add_cancel (by omega)]; ring
    have hlt : ((4 * mant G z - 1 : ℕ) : ℝ) * 2 ^ (G.f + 2 * F.f + 5) <
        (mant G z * 2 ^ (G.f + 2 * F.f + 7) : ℕ) - P * (2 : ℝ) ^ (-((n : ℤ) + 1)) := by
      rw [hc1]; push_cast; rw [q7r]; linarith
    refine cell (g := G.f + 2 * F.f + 5) (q := 4 * mant G z - 1) ?_ hlt.le ?_ ?_ ?_ hval fun h => absurd h hlt.ne'
    · rw [show G.f + 2 * F.f + 5 + G.f + 1 = 2 * G.f + 2 * F.f + 6 by ring]; omega
    · rw [hc1]; push_cast; rw [q7r]; linarith
    · omega
    · rw [Nat.sub_add_cancel (by omega), show 4 * mant G z * 2 ^ (G.f + 2 * F.f + 5) = mant G z * 2 ^ (G.f + 2 * F.f + 7) by rw [q7]; ring]; omega

/-- what the operator returns, from its fields -/
theorem fma_eq {F G : Fmt} {x y z S : ℕ} (hS : mantAddAbs F G x y z = S) :
    fma F G x y z = build G (xor (addIsNegative F G x y z) (signXY F x y))
      ((resExpBase F G x y z + -bias G - lzc (width F G + 1) S +
        (roundField (width F G + 1) (G.f + 1) (S * 2 ^ lzc (width F G + 1) S % 2 ^ (width F G + 1))).2) % 2 ^ expSize F G % 2 ^ G.e).toNat
      (roundField (width F G + 1) (G.f + 1) (S * 2 ^ lzc (width F G + 1) S % 2 ^ (width F G + 1))).1 := by
  unfold fma
  dsimp only
  rw [hS]

/-- the end of the data path; `D` is the error on the exponent of the result -/
theorem fma_finish {F G : Fmt} (he : 1 ≤ G.e) (hf : 1 ≤ G.f) {x y z : ℕ} {w : ℚ} {K : ℤ}
    (core : ∃ (S : ℕ) (s : ℝ), mantAddAbs F G x y z = S ∧ 0 < S ∧ S < 2 ^ (width F G + 1) ∧
      (s = S ∨ ∃ j c : ℕ, 2 ^ (j + G.f + 1) ≤ S ∧ S < 2 ^ (j + G.f + 2) ∧ (c : ℝ) * 2 ^ j ≤ s ∧
        (c % 2 = 1 → (c : ℝ) * 2 ^ j < s) ∧ s < (c + 1) * 2 ^ j ∧ c * 2 ^ j < S ∧ S < (c + 1) * 2 ^ j) ∧
      (w : ℝ) = sg (xor (addIsNegative F G x y z) (signXY F x y)) * (s * (2 : ℝ) ^ K)) {D : ℤ}
    (hbase : resExpBase F G x y z = K + width F G + D) {v : ℚ} (hv : NearestEven G (w : ℝ) v) {E : ℤ} (hE : InBinade E w)
    (hmin : G.emin ≤ E) :
    (InBinade E v → G.emin ≤ E + D → E + D ≤ G.emax → G.decode (fma F G x y z) = .num (v * (2 : ℚ) ^ D)) ∧
      ((2 : ℚ) ^ (E + 1) ≤ |v| → G.emin ≤ E + 1 + D → E + 1 + D ≤ G.emax → G.decode (fma F G x y z) = .num (3 / 2 * (v * (2 : ℚ) ^ D))) := by
  obtain ⟨S, s, c1, c2, c3, c5, c6⟩ := core
  obtain ⟨d1, d2, d3⟩ := finish hf (by unfold width; omega) c2 (lzc_spec c3) c5 _ _ c6 hE hmin hv
  rw [fma_eq c1, bias_eq, hbase]
  constructor
  · intro hEv hl hu
    rcases d3 with ⟨g1, g2, _⟩ | ⟨_, _, g3⟩
    · rw [g1]
      obtain ⟨e1, e2, e3⟩ := exp_field_fma (F := F) (G := G) (E := E + D)
        (n := K + width F G + D + - -G.emax - lzc (width F G + 1) S + (0 : ℕ)) he (by rw [d1]; push_cast; ring) hl hu
      rw [decode_build _ e1 e2 d2, e3, g2, mul_assoc, mul_assoc, ← zadd]
      congr 5
      ring
    · exfalso
      have := hEv.2
      rw [g3, abs_mul, sg_abs, one_mul, abs_of_pos (zp _)] at this
      exact lt_irrefl _ this
  · intro hEv hl hu
    rcases d3 with ⟨_, _, g3⟩ | ⟨g1, g2, g3⟩
    · exact absurd hEv (not_le.2 g3)
    · rw [g1]
      obtain ⟨e1, e2, e3⟩ := exp_field_fma (F := F) (G := G) (E := E + 1 + D)
        (n := K + width F G + D + - -G.emax - lzc (width F G + 1) S + (1 : ℕ)) he (by rw [d1]; push_cast; ring) hl hu
      rw [decode_build _ e1 e2 d2, e3, g2, g3]
      congr 1
      have : (2 : ℚ) ^ (E + 1) * (2 : ℚ) ^ D = 2 * 2 ^ (G.f - 1) * (2 : ℚ) ^ (E + 1 + D - G.f) := by
        rw [← pow_succ', show G.f - 1 + 1 = G.f by omega, ← zpow_natCast, ← zadd, ← zadd]; congr 1; ring
      rw [mul_assoc (sg _), this]
      have h2 : (2 : ℚ) ^ G.f = 2 * 2 ^ (G.f - 1) := by rw [← pow_succ', show G.f - 1 + 1 = G.f by omega]
      push_cast
      rw [h2]
      ring

theorem decode_zero {G : Fmt} {z : ℕ} (h : G.decode z = .plusZero ∨ G.decode z = .minusZero) : expField G z = 0 ∧ mant G z = 0 := by
  have hz0 : expField G z = 0 ∧ z % 2 ^ G.f = 0 := by
    unfold Fmt.decode at h
    dsimp only at h
    rw [show z / 2 ^ G.f % 2 ^ G.e = expField G z from rfl] at h
    split_ifs at h <;> simp_all
  exact ⟨hz0.1, by rw [mant, if_pos hz0.1, hz0.2]⟩

/-- **C74** (partial).  For every format `F` of the factors and `G` of the addend and of the result (`G.f ≤ 2 * F.f`) and all normal numbers
`a`, `b` and `c`, if `c` exceeds the product by at least `G.f + 5` binades and the rounded result is a normal number of the binade of the
exact one, the operator returns `a * b + c` correctly rounded to nearest, ties to even.  Missing: the cases the next theorems show to be
wrong, among them all the ones where the product is not negligible, and the zeros, subnormal numbers, overflows and special values the
operator does not handle. -/
theorem C74_partial {F G : Fmt} (heF : 1 ≤ F.e) (heG : 1 ≤ G.e) (hf : 1 ≤ G.f) (hpq : G.f ≤ 2 * F.f)
    (hM : G.f + 2 ≤ 2 ^ (max F.e G.e - 1)) {x y z : ℕ} (hx : x < 2 ^ (1 + F.e + F.f)) (hy : y < 2 ^ (1 + F.e + F.f))
    (hz : z < 2 ^ (1 + G.e + G.f)) {a b c : ℚ} (ha : F.decode x = .num a) (hb : F.decode y = .num b) (hc : G.decode z = .num c)
    (hna : F.Normal a) (hnb : F.Normal b) (hnc : G.Normal c) {A B E : ℤ} (hA : InBinade A a) (hB : InBinade B b)
    (hgap : (2 : ℚ) ^ (A + B + G.f + 5) ≤ |c|) {v : ℚ} (hv : NearestEven G ((a * b + c : ℚ) : ℝ) v) (hE : InBinade E (a * b + c))
    (hEv : InBinade E v) (hmin : G.emin ≤ E) (hmax : E ≤ G.emax) : G.decode (fma F G x y z) = .num v := by
  obtain ⟨x1, x2, x3, x4, x5⟩ := decode_normal hx ha hna.2
  obtain ⟨y1, y2, y3, y4, y5⟩ := decode_normal hy hb hnb.2
  obtain ⟨z1, z2, z3, z4, z5⟩ := decode_normal hz hc hnc.2
  have hAx := binade_unique hA (by rw [x5]; exact mant_binade x3 x4 _ _)
  have hBy := binade_unique hB (by rw [y5]; exact mant_binade y3 y4 _ _)
  have hcz : InBinade ((expField G z : ℤ) - G.emax) c := by rw [z5]; exact mant_binade z3 z4 _ _
  have hg := zlt (hgap.trans_lt hcz.2)
  have hd := expDiff_eq heF heG (z := z) x1 x2 y1 y2 z2 hM
  rw [← hAx, ← hBy] at hd
  rw [← hAx] at x5
  rw [← hBy] at y5
  have hbase : resExpBase F G x y z = ((expField G z : ℤ) - G.emax - G.f - (G.f + 2 * F.f + 7)) + width F G + 0 := by
    unfold resExpBase
    rw [hd, if_pos (by omega), bias_eq, width_eq hpq]; push_cast; ring
  have := (fma_finish heG hf (far_add_core hpq x3 x4 y3 y4 z3 z4 x5 y5 z5 hd (by omega)) hbase hv hE hmin).1 hEv (by omega) (by omega)
  rw [this]; simp

/-- **C74** (wrong).  When the product is not negligible, that is when `|c|` is below `2 ^ (A + B + G.f + 5)` (`c` may be a zero), the operator
returns **half** the correctly rounded value of `a * b + c`: `1 * 1 + 1` is `1`, `1 * 1 + 0` is `1 / 2`.  (If the sum is a tie, this is shown
when the signs of `a * b` and `c` differ.) -/
theorem C74_half_wrong {F G : Fmt} (heF : 1 ≤ F.e) (heG : 1 ≤ G.e) (hf : 1 ≤ G.f) (hpq : G.f ≤ 2 * F.f)
    (hM : G.f + 2 ≤ 2 ^ (max F.e G.e - 1)) {x y z : ℕ} (hx : x < 2 ^ (1 + F.e + F.f)) (hy : y < 2 ^ (1 + F.e + F.f))
    (hz : z < 2 ^ (1 + G.e + G.f)) {a b c : ℚ} (ha : F.decode x = .num a) (hb : F.decode y = .num b)
    (hc : (G.decode z = .num c ∧ G.Normal c) ∨ ((G.decode z = .plusZero ∨ G.decode z = .minusZero) ∧ c = 0))
    (hna : F.Normal a) (hnb : F.Normal b) {A B E : ℤ} (hA : InBinade A a) (hB : InBinade B b)
    (hgap : |c| < (2 : ℚ) ^ (A + B + G.f + 5)) {v : ℚ} (hv : NearestEven G ((a * b + c : ℚ) : ℝ) v) (hE : InBinade E (a * b + c))
    (hmid : a * b * c < 0 ∨ ¬ Midpoint G E (a * b + c)) (hEv : InBinade E v) (hmin : G.emin ≤ E - 1) (hmax : E - 1 ≤ G.emax) :
    G.decode (fma F G x y z) = .num (v / 2) := by
  obtain ⟨x1, x2, x3, x4, x5⟩ := decode_normal hx ha hna.2
  obtain ⟨y1, y2, y3, y4, y5⟩ := decode_normal hy hb hnb.2
  have hAx := binade_unique hA (by rw [x5]; exact mant_binade x3 x4 _ _)
  have hBy := binade_unique hB (by rw [y5]; exact mant_binade y3 y4 _ _)
  have hemin : G.emin = 1 - G.emax := rfl
  have hz' : expField G z + 2 ≤ 2 ^ G.e ∧ mant G z < 2 ^ (G.f + 1) ∧
      c = sg (signBit G z) * (mant G z * (2 : ℚ) ^ ((expField G z : ℤ) - G.emax - G.f)) ∧ (expField G z : ℤ) - G.emax ≤ A + B + G.f + 4 := by
    rcases hc with ⟨h1, h2⟩ | ⟨h1, h2⟩
    · obtain ⟨z1, z2, z3, z4, z5⟩ := decode_normal hz h1 h2.2
      have hcz : InBinade ((expField G z : ℤ) - G.emax) c := by rw [z5]; exact mant_binade z3 z4 _ _
      have hg := zlt (hcz.1.trans_lt hgap)
      exact ⟨z2, z4, z5, by omega⟩
    · obtain ⟨z1, z2⟩ := decode_zero h1
      rw [z1, z2, h2]
      refine ⟨?_, Nat.two_pow_pos _, by simp, ?_⟩
      · calc 0 + 2 = 2 ^ 1 := rfl
          _ ≤ _ := Nat.pow_le_pow_right (by decide) heG
      · rw [h2, add_zero] at hE
        have h3 : |a * b| < (2 : ℚ) ^ (A + B + 2) := by
          rw [abs_mul, show A + B + 2 = (A + 1) + (B + 1) by ring, zadd]
          exact mul_lt_mul'' hA.2 hB.2 (abs_nonneg _) (abs_nonneg _)
        have := zlt (hE.1.trans_lt h3)
        push_cast
        omega
  obtain ⟨z2, z4, z5, hg⟩ := hz'
  have hd := expDiff_eq heF heG (z := z) x1 x2 y1 y2 z2 hM
  rw [← hAx, ← hBy] at hd
  rw [← hAx] at x5
  rw [← hBy] at y5
  have hbase : resExpBase F G x y z = (A + B - 2 * F.f - (G.f + 3)) + width F G + -1 := by
    unfold resExpBase expOffset
    rw [hd, if_neg (by omega), bias_eq, width_eq hpq, hAx, hBy]; push_cast; ring
  have hne : a * b + c ≠ 0 := by
    rintro h
    have := hE.1
    rw [h, abs_zero] at this
    exact absurd (zp E) (not_lt.2 this)
  have hp := Nat.two_pow_pos F.f
  have hop : effectiveOp F G x y z = true ∨ ∀ E, InBinade E (a * b + c) → ¬ Midpoint G E (a * b + c) := by
    rcases hmid with h | h
    · left
      by_contra hno
      have hab := product_value (F := F) G.f x5 y5
      have : signXY F x y = signBit G z := by
        unfold effectiveOp at hno
        revert hno
        cases signXY F x y <;> cases signBit G z <;> simp
      rw [hab, z5, this] at h
      have h1 : sg (signBit G z) * sg (signBit G z) = 1 := by cases signBit G z <;> simp [sg]
      have h2 : (0 : ℚ) ≤ ((mant F x * mant F y * 2 ^ (G.f + 1 + 2) : ℕ) * (2 : ℚ) ^ (A + B - 2 * F.f - (G.f + 3))) *
          (mant G z * (2 : ℚ) ^ ((expField G z : ℤ) - G.emax - G.f)) :=
        mul_nonneg (mul_nonneg (by positivity) (zp _).le) (mul_nonneg (by positivity) (zp _).le)
      have h3 : sg (signBit G z) * ((mant F x * mant F y * 2 ^ (G.f + 1 + 2) : ℕ) * (2 : ℚ) ^ (A + B - 2 * F.f - (G.f + 3))) *
          (sg (signBit G z) * (mant G z * (2 : ℚ) ^ ((expField G z : ℤ) - G.emax - G.f))) =
          (sg (signBit G z) * sg (signBit G z)) * (((mant F x * mant F y * 2 ^ (G.f + 1 + 2) : ℕ) * (2 : ℚ) ^ (A + B - 2 * F.f - (G.f + 3))) *
          (mant G z * (2 : ℚ) ^ ((expField G z : ℤ) - G.emax - G.f))) := by ring
      rw [h3, h1, one_mul] at h
      exact absurd h (not_lt.2 h2)
    · right
      intro E' hE'
      rw [binade_unique hE' hE]; exact h
  have := (fma_finish heG hf (prod_core hpq x3 x4 y3 y4 z4 x5 y5 z5 hd (by omega) hne hop) hbase hv hE (by omega)).1 hEv hmin hmax
  rw [this]
  congr 1

/-- **C74** (wrong).  Even when the product is negligible, a result rounded up to the next binade is one and a half time the right one. -/
theorem C74_carry_wrong {F G : Fmt} (heF : 1 ≤ F.e) (heG : 1 ≤ G.e) (hf : 1 ≤ G.f) (hpq : G.f ≤ 2 * F.f)
    (hM : G.f + 2 ≤ 2 ^ (max F.e G.e - 1)) {x y z : ℕ} (hx : x < 2 ^ (1 + F.e + F.f)) (hy : y < 2 ^ (1 + F.e + F.f))
    (hz : z < 2 ^ (1 + G.e + G.f)) {a b c : ℚ} (ha : F.decode x = .num a) (hb : F.decode y = .num b) (hc : G.decode z = .num c)
    (hna : F.Normal a) (hnb : F.Normal b) (hnc : G.Normal c) {A B E : ℤ} (hA : InBinade A a) (hB : InBinade B b)
    (hgap : (2 : ℚ) ^ (A + B + G.f + 5) ≤ |c|) {v : ℚ} (hv : NearestEven G ((a * b + c : ℚ) : ℝ) v) (hE : InBinade E (a * b + c))
    (hEv : (2 : ℚ) ^ (E + 1) ≤ |v|) (hmin : G.emin ≤ E) (hmax : E + 1 ≤ G.emax) : G.decode (fma F G x y z) = .num (3 / 2 * v) := by
  obtain ⟨x1, x2, x3, x4, x5⟩ := decode_normal hx ha hna.2
  obtain ⟨y1, y2, y3, y4, y5⟩ := decode_normal hy hb hnb.2
  obtain ⟨z1, z2, z3, z4, z5⟩ := decode_normal hz hc hnc.2
  have hAx := binade_unique hA (by rw [x5]; exact mant_binade x3 x4 _ _)
  have hBy := binade_unique hB (by rw [y5]; exact mant_binade y3 y4 _ _)
  have hcz : InBinade ((expField G z : ℤ) - G.emax) c := by rw [z5]; exact mant_binade z3 z4 _ _
  have hg := zlt (hgap.trans_lt hcz.2)
  have hd := expDiff_eq heF heG (z := z) x1 x2 y1 y2 z2 hM
  rw [← hAx, ← hBy] at hd
  rw [← hAx] at x5
  rw [← hBy] at y5
  have hbase : resExpBase F G x y z = ((expField G z : ℤ) - G.emax - G.f - (G.f + 2 * F.f + 7)) + width F G + 0 := by
    unfold resExpBase
    rw [hd, if_pos (by omega), bias_eq, width_eq hpq]; push_cast; ring
  have := (fma_finish heG hf (far_add_core hpq x3 x4 y3 y4 z3 z4 x5 y5 z5 hd (by omega)) hbase hv hE hmin).2 hEv (by omega) (by omega)
  rw [this]; simp

/-- **C74** (wrong).  A tie is rounded up when the signs agree, whatever the parity: `1 * 1 + 2 ^ 24` gives half of `2 ^ 24 + 2`, the nearest
number with an even significand is `2 ^ 24`. -/
theorem C74_tie_wrong : b32.decode (fma b32 b32 0x3f800000 0x3f800000 0x4b800000) = .num ((2 ^ 24 + 2) / 2) ∧
    b32.decode 0x3f800000 = .num 1 ∧ b32.decode 0x4b800000 = .num (2 ^ 24) ∧ NearestEven b32 ((1 * 1 + 2 ^ 24 : ℚ) : ℝ) (2 ^ 24) := by
  have h : fma b32 b32 0x3f800000 0x3f800000 0x4b800000 = 0x4b000001 := by decide +kernel
  refine ⟨by rw [h, b32_dec]; norm_num, by rw [b32_dec]; norm_num, by rw [b32_dec]; norm_num, ?_⟩
  have hl : lastPlace b32 ((1 * 1 + 2 ^ 24 : ℚ) : ℝ) = 1 := by
    unfold lastPlace; rw [log_of (k := 24) (by norm_num) (by norm_num), b32_emin]; norm_num
  have hfl : ⌊((1 * 1 + 2 ^ 24 : ℚ) : ℝ) / (2 : ℝ) ^ (1 : ℤ)⌋ = 8388608 := by rw [Int.floor_eq_iff]; norm_num
  have ht : toInt .RN (((1 * 1 + 2 ^ 24 : ℚ) : ℝ) / (2 : ℝ) ^ (1 : ℤ)) = 8388608 := by
    unfold toInt
    dsimp only
    rw [hfl, if_neg (by norm_num), if_neg (by norm_num), if_pos (by norm_num)]
  rw [nearest_iff (by decide), roundUnb, if_neg (by norm_num), hl, ht]
  norm_num

/-- binary16 -/
abbrev b16 : Fmt := ⟨5, 10⟩

/-- **C74** (wrong).  When the precision of the result exceeds twice the one of the factors, the product is not aligned with the addend: with
binary16 factors and a binary32 addend, `1 * 1 + 0` is `1 / 16` and `1 * 1 + 1` is `9 / 16`. -/
theorem C74_mixed_wrong : b16.decode 0x3c00 = .num 1 ∧ b32.decode 0 = .plusZero ∧ b32.decode 0x3f800000 = .num 1 ∧
    b32.decode (fma b16 b32 0x3c00 0x3c00 0) = .num (1 / 16) ∧ b32.decode (fma b16 b32 0x3c00 0x3c00 0x3f800000) = .num (9 / 16) := by
  have h1 : fma b16 b32 0x3c00 0x3c00 0 = 0x3d800000 := by decide +kernel
  have h2 : fma b16 b32 0x3c00 0x3c00 0x3f800000 = 0x3f100000 := by decide +kernel
  refine ⟨?_, by rw [b32_dec]; norm_num, by rw [b32_dec]; norm_num, by rw [h1, b32_dec]; norm_num, by rw [h2, b32_dec]; norm_num⟩
  unfold Fmt.decode
  norm_num [Fmt.emax]

/-! ## The hypotheses are met -/

/-- `1 * 1 + 2 ^ 40` -/
example : b32.decode (fma b32 b32 0x3f800000 0x3f800000 0x53800000) = .num (2 ^ 40) := by
  have n1 : b32.Normal 1 := b32_normal (2 ^ 23) 0 (by norm_num) (by norm_num) (by norm_num) (by norm_num) (by norm_num)
  have n2 : b32.Normal (2 ^ 40) := b32_normal (2 ^ 23) 40 (by norm_num) (by norm_num) (by norm_num) (by norm_num) (by norm_num)
  have hv : NearestEven b32 ((1 * 1 + 2 ^ 40 : ℚ) : ℝ) (2 ^ 40) := by
    rw [nearest_iff (by decide), rn_eq (k := 40) (n := 8388608) (by norm_num) (by norm_num) (by rw [b32_emin]; norm_num), b32_emin]
    norm_num
  exact C74_partial (F := b32) (G := b32) (by decide) (by decide) (by decide) (by decide) (by decide) (by norm_num) (by norm_num) (by norm_num)
    (a := 1) (b := 1) (c := 2 ^ 40) (by rw [b32_dec]; norm_num) (by rw [b32_dec]; norm_num) (by rw [b32_dec]; norm_num) n1 n1 n2 (A := 0)
    (B := 0) (E := 40) (by norm_num [InBinade]) (by norm_num [InBinade]) (by norm_num) hv (by norm_num [InBinade]) (by norm_num [InBinade])
    (by rw [b32_emin]; norm_num) (by rw [b32_emax]; norm_num)

/-- `-1 * 1 + 2 ^ 40` is rounded to `2 ^ 40`, the operator returns `3 * 2 ^ 39` -/
example : b32.decode (fma b32 b32 0xbf800000 0x3f800000 0x53800000) = .num (3 * 2 ^ 39) := by
  have n0 : b32.Normal (-1) := b32_normal (-2 ^ 23) 0 (by norm_num) (by norm_num) (by norm_num) (by norm_num) (by norm_num)
  have n1 : b32.Normal 1 := b32_normal (2 ^ 23) 0 (by norm_num) (by norm_num) (by norm_num) (by norm_num) (by norm_num)
  have n2 : b32.Normal (2 ^ 40) := b32_normal (2 ^ 23) 40 (by norm_num) (by norm_num) (by norm_num) (by norm_num) (by norm_num)
  have hv : NearestEven b32 ((-1 * 1 + 2 ^ 40 : ℚ) : ℝ) (2 ^ 40) := by
    rw [nearest_iff (by decide), rn_eq (k := 39) (n := 16777216) (by norm_num) (by norm_num) (by rw [b32_emin]; norm_num), b32_emin]
    norm_num
  rw [C74_carry_wrong (F := b32) (G := b32) (by decide) (by decide) (by decide) (by decide) (by decide) (by norm_num) (by norm_num) (by norm_num)
    (a := -1) (b := 1) (c := 2 ^ 40) (by rw [b32_dec]; norm_num) (by rw [b32_dec]; norm_num) (by rw [b32_dec]; norm_num) n0 n1 n2 (A := 0)
    (B := 0) (E := 39) (by norm_num [InBinade]) (by norm_num [InBinade]) (by norm_num) hv (by norm_num [InBinade]) (by norm_num)
    (by rw [b32_emin]; norm_num) (by rw [b32_emax]; norm_num)]
  norm_num

/-- `1 * 1 + 1` is `1` -/
example : b32.decode (fma b32 b32 0x3f800000 0x3f800000 0x3f800000) = .num 1 := by
  have n1 : b32.Normal 1 := b32_normal (2 ^ 23) 0 (by norm_num) (by norm_num) (by norm_num) (by norm_num) (by norm_num)
  have n2 : b32.Normal (1 * 1 + 1) := b32_normal (2 ^ 23) 1 (by norm_num) (by norm_num) (by norm_num) (by norm_num) (by norm_num)
  have hm : ¬ Midpoint b32 1 (1 * 1 + 1) := by
    rintro ⟨m, hm⟩
    have h : (2 : ℚ) ^ ((1 : ℤ) - (b32.f : ℤ) - 1) = 1 / 2 ^ 23 := by norm_num
    rw [h] at hm
    have : (2 : ℚ) ^ 24 = 2 * m + 1 := by linarith
    have : (2 : ℤ) ^ 24 = 2 * m + 1 := by exact_mod_cast this
    omega
  rw [C74_half_wrong (F := b32) (G := b32) (by decide) (by decide) (by decide) (by decide) (by decide) (by norm_num) (by norm_num) (by norm_num)
    (a := 1) (b := 1) (c := 1) (by rw [b32_dec]; norm_num) (by rw [b32_dec]; norm_num) (.inl ⟨by rw [b32_dec]; norm_num, n1⟩) n1 n1 (A := 0)
    (B := 0) (E := 1) (by norm_num [InBinade]) (by norm_num [InBinade]) (by norm_num) (nearest_self (by decide) n2.1) (by norm_num [InBinade])
    (.inr hm) (by norm_num [InBinade]) (by rw [b32_emin]; norm_num) (by rw [b32_emax]; norm_num)]
  norm_num

/-- `-3 * 1 + 1` is `-1` -/
example : b32.decode (fma b32 b32 0xc0400000 0x3f800000 0x3f800000) = .num (-1) := by
  have n0 : b32.Normal (-3) := b32_normal (-3 * 2 ^ 22) 1 (by norm_num) (by norm_num) (by norm_num) (by norm_num) (by norm_num)
  have n1 : b32.Normal 1 := b32_normal (2 ^ 23) 0 (by norm_num) (by norm_num) (by norm_num) (by norm_num) (by norm_num)
  have n2 : b32.Normal (-3 * 1 + 1) := b32_normal (-2 ^ 23) 1 (by norm_num) (by norm_num) (by norm_num) (by norm_num) (by norm_num)
  rw [C74_half_wrong (F := b32) (G := b32) (by decide) (by decide) (by decide) (by decide) (by decide) (by norm_num) (by norm_num) (by norm_num)
    (a := -3) (b := 1) (c := 1) (by rw [b32_dec]; norm_num) (by rw [b32_dec]; norm_num) (.inl ⟨by rw [b32_dec]; norm_num, n1⟩) n0 n1 (A := 1)
    (B := 0) (E := 1) (by norm_num [InBinade]) (by norm_num [InBinade]) (by norm_num) (nearest_self (by decide) n2.1) (by norm_num [InBinade])
    (.inl (by norm_num)) (by norm_num [InBinade]) (by rw [b32_emin]; norm_num) (by rw [b32_emax]; norm_num)]
  norm_num

end Verif.FpHw
