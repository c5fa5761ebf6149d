import Verif.FpHw.Lemmas

/-! # C73: the hardware floating-point adder -/

namespace Verif.FpHw

open Verif.Float (Fmt Val)
open Verif.Check

theorem lzc_spec {N v : ℕ} (h : v < 2 ^ N) : HW.IsLzc N v (lzc N v) := by
  have := (HW.C35_lzc N (BitVec.ofNat N v)).1
  rwa [BitVec.toNat_ofNat, Nat.mod_eq_of_lt h] at this

theorem zlt {a b : ℤ} (h : (2 : ℚ) ^ a < (2 : ℚ) ^ b) : a < b := (zpow_lt_zpow_iff_right₀ (by norm_num)).1 h

theorem zle {a b : ℤ} (h : a ≤ b) : (2 : ℚ) ^ a ≤ (2 : ℚ) ^ b := zpow_le_zpow_right₀ (by norm_num) h

theorem binade_unique {E E' : ℤ} {v : ℚ} (h : InBinade E v) (h' : InBinade E' v) : E = E' := by
  have h1 := zlt (h.1.trans_lt h'.2)
  have h2 := zlt (h'.1.trans_lt h.2)
  omega

theorem mant_binade {F : Fmt} {m : ℕ} (h1 : 2 ^ F.f ≤ m) (h2 : m < 2 ^ (F.f + 1)) (t : Bool) (E : ℤ) :
    InBinade E (sg t * (m * (2 : ℚ) ^ (E - F.f))) := by
  have h1' : (2 : ℚ) ^ F.f ≤ m := by exact_mod_cast h1
  have h2' : (m : ℚ) < 2 ^ (F.f + 1) := by exact_mod_cast h2
  unfold InBinade
  rw [abs_mul, sg_abs, one_mul, abs_mul, Nat.abs_cast, abs_of_pos (zp _)]
  constructor
  · calc (2 : ℚ) ^ E = 2 ^ F.f * (2 : ℚ) ^ (E - F.f) := by rw [← zpow_natCast, ← zadd]; congr 1; ring
      _ ≤ _ := mul_le_mul_of_nonneg_right h1' (zp _).le
  · calc _ < 2 ^ (F.f + 1) * (2 : ℚ) ^ (E - F.f) := mul_lt_mul_of_pos_right h2' (zp _)
      _ = _ := by rw [← zpow_natCast, ← zadd]; congr 1; push_cast; ring

/-- the exponent field of a result whose exponent is in range -/
theorem exp_field {F : Fmt} (he : 1 ≤ F.e) {n E : ℤ} (hn : n = E + F.emax) (h1 : F.emin ≤ E) (h2 : E ≤ F.emax) :
    1 ≤ (n % 2 ^ (F.e + 2) % 2 ^ F.e).toNat ∧ (n % 2 ^ (F.e + 2) % 2 ^ F.e).toNat + 2 ≤ 2 ^ F.e ∧
      (((n % 2 ^ (F.e + 2) % 2 ^ F.e).toNat : ℕ) : ℤ) - F.emax = E := by
  have hp : (2 : ℤ) ^ F.e = 2 * 2 ^ (F.e - 1) := by
    rw [← pow_succ']; congr 1; omega
  have hm : F.emax = 2 ^ (F.e - 1) - 1 := rfl
  have hmin : F.emin = 1 - F.emax := rfl
  have hlt : n < 2 ^ F.e := by omega
  have hdvd : (2 : ℤ) ^ F.e ∣ 2 ^ (F.e + 2) := pow_dvd_pow 2 (by omega)
  rw [Int.emod_emod_of_dvd _ hdvd, Int.emod_eq_of_lt (by omega) hlt]
  have hcast : ((2 ^ F.e : ℕ) : ℤ) = 2 ^ F.e := by push_cast; rfl
  omega

theorem neg_eq {N v : ℕ} (h0 : 0 < v) (h : v < 2 ^ N) : neg N v = 2 ^ N - v := by
  unfold neg
  rw [Nat.mod_eq_of_lt (by omega)]; omega

/-- the result of the operator when the sum of significands is not negative -/
theorem fpAdd_eq {F : Fmt} {x y S : ℕ} (hS : mantAdd F x y = S)
    (hneg : S / 2 ^ (3 * (F.f + 1) + 4) % 2 = 1 → signBit F x = signBit F y) :
    fpAdd F x y = build F (signBit F y)
      ((((expField F x : ℤ) + (3 + (F.f + 1 : ℕ)) - lzc (3 * (F.f + 1) + 5) S) +
        (roundField (3 * (F.f + 1) + 5) (F.f + 1) (S * 2 ^ lzc (3 * (F.f + 1) + 5) S % 2 ^ (3 * (F.f + 1) + 5))).2) % 2 ^ (F.e + 2) %
          2 ^ F.e).toNat
      (roundField (3 * (F.f + 1) + 5) (F.f + 1) (S * 2 ^ lzc (3 * (F.f + 1) + 5) S % 2 ^ (3 * (F.f + 1) + 5))).1 := by
  have h : (decide (S / 2 ^ (3 * (F.f + 1) + 5 - 1) % 2 = 1) && xor (signBit F x) (signBit F y)) = false := by
    rw [show 3 * (F.f + 1) + 5 - 1 = 3 * (F.f + 1) + 4 by omega, Bool.and_eq_false_iff]
    by_cases hc : S / 2 ^ (3 * (F.f + 1) + 4) % 2 = 1
    · right; rw [hneg hc, Bool.xor_self]
    · left; exact decide_eq_false hc
  unfold fpAdd
  dsimp only
  rw [hS]
  simp only [h, Bool.false_eq_true, if_false, Bool.false_xor]

theorem sg_mul_pos {s t : Bool} {u w : ℚ} (hu : 0 < u) (hw : 0 < w) : 0 < sg s * u * (sg t * w) ↔ s = t := by
  have := mul_pos hu hw
  cases s <;> cases t <;> simp [sg, this, this.le]

theorem sg_mul_abs (s : Bool) {u : ℚ} (hu : 0 < u) : |sg s * u| = u := by rw [abs_mul, sg_abs, one_mul, abs_of_pos hu]

/-- The sum of the significands stands for the exact sum. -/
theorem add_core {F : Fmt} {x y : ℕ} (hx : x < 2 ^ (1 + F.e + F.f)) (hy : y < 2 ^ (1 + F.e + F.f)) {a b : ℚ}
    (ha : F.decode x = .num a) (hb : F.decode y = .num b) (hna : (2 : ℚ) ^ F.emin ≤ |a|) (hnb : (2 : ℚ) ^ F.emin ≤ |b|) {A : ℤ}
    (hA : InBinade A a) (hgap : |b| < (2 : ℚ) ^ (A + F.f + 4)) (hs : 0 < a * b ∨ |a| < |b|) :
    ∃ (S : ℕ) (s : ℝ), mantAdd F x y = S ∧ 0 < S ∧ S < 2 ^ (3 * (F.f + 1) + 5) ∧
      (S / 2 ^ (3 * (F.f + 1) + 4) % 2 = 1 → signBit F x = signBit F y) ∧
      (s = S ∨ ∃ j c : ℕ, 2 ^ (j + F.f + 1) ≤ S ∧ S < 2 ^ (j + F.f + 2) ∧ (c : ℝ) * 2 ^ j ≤ s ∧
        (c % 2 = 1 → (c : ℝ) * 2 ^ j < s) ∧ s < (c + 1) * 2 ^ j ∧ c * 2 ^ j < S ∧ S < (c + 1) * 2 ^ j) ∧
      ((a + b : ℚ) : ℝ) = sg (signBit F y) * (s * (2 : ℝ) ^ ((expField F x : ℤ) - F.emax - F.f - (F.f + 3))) := by
  obtain ⟨x1, x2, x3, x4, x5⟩ := decode_normal hx ha hna
  obtain ⟨y1, y2, y3, y4, y5⟩ := decode_normal hy hb hnb
  have hax : InBinade ((expField F x : ℤ) - F.emax) a := by
    rw [x5]; exact mant_binade x3 x4 _ _
  have hby : InBinade ((expField F y : ℤ) - F.emax) b := by
    rw [y5]; exact mant_binade y3 y4 _ _
  have hAx := binade_unique hA hax
  have hg := zlt (hby.1.trans_lt hgap)
  unfold mantAdd addShift
  generalize expField F x = ex at *
  generalize expField F y = ey at *
  generalize mant F x = mx at *
  generalize mant F y = my at *
  generalize signBit F x = sx at *
  generalize signBit F y = sy at *
  have hp1 := Nat.two_pow_pos F.f
  have hmx : 0 < mx := by omega
  have hmy : 0 < my := by omega
  have hmxq : (0 : ℚ) < mx := by exact_mod_cast hmx
  have hmyq : (0 : ℚ) < my := by exact_mod_cast hmy
  have ux := mul_pos hmxq (zp ((ex : ℤ) - F.emax - F.f))
  have uy := mul_pos hmyq (zp ((ey : ℤ) - F.emax - F.f))
  have hX : mx * 2 ^ (F.f + 1 + 2) < 2 ^ (2 * (F.f + 1) + 2) := by
    calc mx * 2 ^ (F.f + 1 + 2) < 2 ^ (F.f + 1) * 2 ^ (F.f + 1 + 2) := Nat.mul_lt_mul_of_pos_right x4 (Nat.two_pow_pos _)
      _ = _ := by rw [← pow_add]; congr 1; omega
  dsimp only
  rw [if_neg (by omega : ¬ ((ex : ℤ) + (((F.f + 1 : ℕ) : ℤ) + 2) - ey < 0))]
  by_cases hcl : 2 * ((F.f + 1 : ℕ) : ℤ) + 4 < (ex : ℤ) + (((F.f + 1 : ℕ) : ℤ) + 2) - ey
  · -- y is too small to be aligned
    rw [if_pos hcl, Nat.mul_div_cancel _ (Nat.two_pow_pos _)]
    have hss : sx = sy := by
      rcases hs with h | h
      · rw [x5, y5] at h; exact (sg_mul_pos ux uy).1 h
      · exfalso
        have := zlt (hax.1.trans_lt (h.trans hby.2))
        omega
    subst hss
    rw [Bool.xor_self, if_neg (by decide)]
    obtain ⟨n, hn⟩ : ∃ n : ℕ, (ey : ℤ) = ex - (F.f + 3) - (n + 1) := ⟨((ex : ℤ) - (F.f + 3) - ey - 1).toNat, by omega⟩
    have hlt : my + mx * 2 ^ (F.f + 1 + 2) < 2 ^ (2 * (F.f + 1) + 2) := by
      have e1 : mx * 2 ^ (F.f + 1 + 2) + 2 ^ (F.f + 1 + 2) ≤ 2 ^ (2 * (F.f + 1) + 2) := by
        calc mx * 2 ^ (F.f + 1 + 2) + 2 ^ (F.f + 1 + 2) = (mx + 1) * 2 ^ (F.f + 1 + 2) := by ring
          _ ≤ 2 ^ (F.f + 1) * 2 ^ (F.f + 1 + 2) := Nat.mul_le_mul_right _ x4
          _ = _ := by rw [← pow_add]; congr 1; omega
      have e2 : (2 : ℕ) ^ (F.f + 1 + 2) = 4 * 2 ^ (F.f + 1) := by rw [pow_add]; ring
      omega
    have hN : (2 : ℕ) ^ (2 * (F.f + 1) + 2) ≤ 2 ^ (3 * (F.f + 1) + 4) := Nat.pow_le_pow_right (by decide) (by omega)
    have hN' : (2 : ℕ) ^ (3 * (F.f + 1) + 5) = 2 * 2 ^ (3 * (F.f + 1) + 4) := by rw [pow_succ]; ring
    rw [Nat.mod_eq_of_lt (by omega)]
    refine ⟨_, (mx * 2 ^ (F.f + 1 + 2) : ℕ) + my * (2 : ℝ) ^ (-((n : ℤ) + 1)), rfl, by omega, by omega, fun _ => rfl, .inr ?_, ?_⟩
    · refine ⟨F.f + 2, 2 * mx, ?_, ?_, ?_, fun h => by omega, ?_, ?_, ?_⟩
      · calc 2 ^ (F.f + 2 + F.f + 1) = 2 ^ F.f * 2 ^ (F.f + 1 + 2) := by rw [← pow_add]; congr 1; omega
          _ ≤ mx * 2 ^ (F.f + 1 + 2) := Nat.mul_le_mul_right _ x3
          _ ≤ _ := Nat.le_add_left _ _
      · rw [show F.f + 2 + F.f + 2 = 2 * (F.f + 1) + 2 by ring]; exact hlt
      · have : (0 : ℝ) < my * (2 : ℝ) ^ (-((n : ℤ) + 1)) := mul_pos (by exact_mod_cast hmy) (rp _)
        push_cast
        have e : (2 * (mx : ℝ)) * 2 ^ (F.f + 2) = mx * 2 ^ (F.f + 1 + 2) := by ring
        rw [e]; linarith
      · have h1 : (my : ℝ) < 2 ^ (F.f + 1) := by exact_mod_cast y4
        have h2 : (2 : ℝ) ^ (-((n : ℤ) + 1)) ≤ 1 := by
          have := rle (a := -((n : ℤ) + 1)) (b := 0) (by omega)
          simpa using this
        have h3 : my * (2 : ℝ) ^ (-((n : ℤ) + 1)) ≤ my := mul_le_of_le_one_right (by positivity) h2
        push_cast
        have e : (2 * (mx : ℝ) + 1) * 2 ^ (F.f + 2) = mx * 2 ^ (F.f + 1 + 2) + 2 * 2 ^ (F.f + 1) := by ring
        have h4 : (0 : ℝ) < 2 ^ (F.f + 1) := by positivity
        rw [e]; linarith
      · have e : 2 * mx * 2 ^ (F.f + 2) = mx * 2 ^ (F.f + 1 + 2) := by ring
        rw [e]; omega
      · have e : (2 * mx + 1) * 2 ^ (F.f + 2) = mx * 2 ^ (F.f + 1 + 2) + 2 * 2 ^ (F.f + 1) := by ring
        rw [e]; omega
    · rw [x5, y5, ← mul_add]
      push_cast
      congr 1
      rw [add_mul, mul_assoc _ _ ((2 : ℝ) ^ ((ex : ℤ) - F.emax - F.f - (F.f + 3))), ← zpow_natCast, ← radd,
        mul_assoc _ _ ((2 : ℝ) ^ ((ex : ℤ) - F.emax - F.f - (F.f + 3))), ← radd]
      congr 3
      · push_cast; ring
      · rw [hn]; ring
  · rw [if_neg hcl]
    obtain ⟨d, hd⟩ : ∃ d : ℕ, (ey : ℤ) + F.f + 3 = ex + d := ⟨((ey : ℤ) + F.f + 3 - ex).toNat, by omega⟩
    have hdl : d ≤ 2 * (F.f + 1) + 4 := by omega
    have hsh : ((ex : ℤ) + (((F.f + 1 : ℕ) : ℤ) + 2) - ey).toNat = 2 * (F.f + 1) + 4 - d := by omega
    have hY : my * 2 ^ (2 * (F.f + 1) + 4) / 2 ^ (2 * (F.f + 1) + 4 - d) = my * 2 ^ d := by
      have : my * 2 ^ (2 * (F.f + 1) + 4) = my * 2 ^ d * 2 ^ (2 * (F.f + 1) + 4 - d) := by
        rw [mul_assoc, ← pow_add]; congr 2; omega
      rw [this, Nat.mul_div_cancel _ (Nat.two_pow_pos _)]
    rw [hsh, hY]
    have hYl : my * 2 ^ d < 2 ^ (3 * (F.f + 1) + 4) := by
      calc my * 2 ^ d < 2 ^ (F.f + 1) * 2 ^ d := Nat.mul_lt_mul_of_pos_right y4 (Nat.two_pow_pos _)
        _ ≤ 2 ^ (F.f + 1) * 2 ^ (2 * (F.f + 1) + 4) := Nat.mul_le_mul_left _ (Nat.pow_le_pow_right (by decide) hdl)
        _ = _ := by rw [← pow_add]; congr 1; omega
    have hN : (2 : ℕ) ^ (2 * (F.f + 1) + 2) ≤ 2 ^ (3 * (F.f + 1) + 4) := Nat.pow_le_pow_right (by decide) (by omega)
    have hN' : (2 : ℕ) ^ (3 * (F.f + 1) + 5) = 2 * 2 ^ (3 * (F.f + 1) + 4) := by rw [pow_succ]; ring
    have hYp : 0 < my * 2 ^ d := Nat.mul_pos hmy (Nat.two_pow_pos _)
    have hXp : 0 < mx * 2 ^ (F.f + 1 + 2) := Nat.mul_pos hmx (Nat.two_pow_pos _)
    -- the scaled values
    have vx : (mx : ℚ) * (2 : ℚ) ^ ((ex : ℤ) - F.emax - F.f) =
        ((mx * 2 ^ (F.f + 1 + 2) : ℕ) : ℚ) * (2 : ℚ) ^ ((ex : ℤ) - F.emax - F.f - (F.f + 3)) := by
      push_cast
      rw [mul_assoc, ← zpow_natCast, ← zadd]; congr 2; push_cast; ring
    have vy : (my : ℚ) * (2 : ℚ) ^ ((ey : ℤ) - F.emax - F.f) =
        ((my * 2 ^ d : ℕ) : ℚ) * (2 : ℚ) ^ ((ex : ℤ) - F.emax - F.f - (F.f + 3)) := by
      push_cast
      rw [mul_assoc, ← zpow_natCast, ← zadd]; congr 2; omega
    by_cases hss : sx = sy
    · subst hss
      rw [Bool.xor_self, if_neg (by decide), Nat.mod_eq_of_lt (by omega)]
      refine ⟨_, _, rfl, by omega, by omega, fun _ => rfl, .inl rfl, ?_⟩
      rw [x5, y5, ← mul_add, vx, vy, ← add_mul]
      push_cast
      ring
    · have hlt : |a| < |b| := by
        rcases hs with h | h
        · rw [x5, y5] at h; exact absurd ((sg_mul_pos ux uy).1 h) hss
        · exact h
      have hXY : mx * 2 ^ (F.f + 1 + 2) < my * 2 ^ d := by
        rw [x5, y5, sg_mul_abs _ ux, sg_mul_abs _ uy, vx, vy] at hlt
        exact_mod_cast lt_of_mul_lt_mul_right hlt (zp _).le
      have hxor : xor sx sy = true := by cases sx <;> cases sy <;> simp_all
      rw [hxor, if_pos rfl, neg_eq hXp (by omega)]
      have hmod : (my * 2 ^ d + (2 ^ (3 * (F.f + 1) + 5) - mx * 2 ^ (F.f + 1 + 2))) % 2 ^ (3 * (F.f + 1) + 5) =
          my * 2 ^ d - mx * 2 ^ (F.f + 1 + 2) := by
        rw [show my * 2 ^ d + (2 ^ (3 * (F.f + 1) + 5) - mx * 2 ^ (F.f + 1 + 2)) =
          (my * 2 ^ d - mx * 2 ^ (F.f + 1 + 2)) + 2 ^ (3 * (F.f + 1) + 5) by omega, Nat.add_mod_right, Nat.mod_eq_of_lt (by omega)]
      rw [hmod]
      refine ⟨_, _, rfl, by omega, by omega, fun h => ?_, .inl rfl, ?_⟩
      · rw [Nat.div_eq_of_lt (by omega)] at h; omega
      · have hsg : sg sx = -sg sy := by cases sx <;> cases sy <;> simp_all [sg]
        rw [x5, y5, vx, vy, hsg, Nat.cast_sub hXY.le]
        push_cast
        ring

/-- a remainder below the half unit is dropped -/
theorem roundField_down {N o M T : ℕ} (ho : 2 ≤ o) (hN : o + 1 ≤ N) (hT : T < 2 ^ (N - o - 1)) :
    roundField N o (M * 2 ^ (N - o) + T) = (M % 2 ^ (o - 1), 0) := by
  obtain ⟨L, hL⟩ : ∃ L, N - o = L + 1 := ⟨N - o - 1, by omega⟩
  have hL' : L + 1 - 1 = L := by omega
  rw [hL, hL'] at hT
  unfold roundField
  dsimp only
  rw [hL, hL']
  have h2 : (2 : ℕ) ^ (L + 1) = 2 * 2 ^ L := by rw [pow_succ]; ring
  have hp := Nat.two_pow_pos L
  have q1 : (M * 2 ^ (L + 1) + T) / 2 ^ (L + 1) = M := by
    rw [mul_comm, Nat.mul_add_div (Nat.two_pow_pos _), Nat.div_eq_of_lt (by omega), Nat.add_zero]
  have q2 : (M * 2 ^ (L + 1) + T) / 2 ^ L % 2 = 0 := by
    rw [h2, show M * (2 * 2 ^ L) + T = 2 ^ L * (2 * M) + T by ring, Nat.mul_add_div hp, Nat.div_eq_of_lt hT]; omega
  rw [q1, q2, Nat.zero_and, Nat.add_zero]
  have hlt := Nat.mod_lt M (Nat.two_pow_pos (o - 1))
  have hle : (2 : ℕ) ^ (o - 1) ≤ 2 ^ o := Nat.pow_le_pow_right (by decide) (by omega)
  rw [Nat.mod_eq_of_lt (show M % 2 ^ (o - 1) < 2 ^ o by omega), Nat.div_eq_of_lt hlt, Nat.mod_mod]
  simp

/-- **C73** (partial).  For every format and every pair of normal numbers of the format, the hardware adder returns the sum correctly
rounded to nearest, ties to even, if `y` is not larger than `x` by more than `f + 3` binades, the signs are equal or `y` is the largest
in magnitude, and the rounded sum is a normal number of the binade of the exact sum.  Missing: all the cases the next theorems show to be
wrong, and the other zeros, subnormal numbers, overflows and special values, that the operator does not handle. -/
theorem C73_partial {F : Fmt} (he : 1 ≤ F.e) (hf : 1 ≤ F.f) {x y : ℕ} (hx : x < 2 ^ (1 + F.e + F.f)) (hy : y < 2 ^ (1 + F.e + F.f))
    {a b : ℚ} (ha : F.decode x = .num a) (hb : F.decode y = .num b) (hna : F.Normal a) (hnb : F.Normal b) {A E : ℤ} (hA : InBinade A a)
    (hgap : |b| < (2 : ℚ) ^ (A + F.f + 4)) (hs : 0 < a * b ∨ |a| < |b|) {v : ℚ} (hv : NearestEven F ((a + b : ℚ) : ℝ) v)
    (hE : InBinade E (a + b)) (hEv : InBinade E v) (hmin : F.emin ≤ E) (hmax : E ≤ F.emax) : F.decode (fpAdd F x y) = .num v := by
  obtain ⟨S, s, c1, c2, c3, c4, c5, c6⟩ := add_core hx hy ha hb hna.2 hnb.2 hA hgap hs
  obtain ⟨d1, d2, d3⟩ := finish hf (by omega) c2 (lzc_spec c3) c5 _ _ c6 hE hmin hv
  rw [fpAdd_eq c1 c4]
  rcases d3 with ⟨g1, g2, _⟩ | ⟨_, _, g3⟩
  · rw [g1]
    obtain ⟨e1, e2, e3⟩ := exp_field (F := F) (E := E)
      (n := (expField F x : ℤ) + (3 + (F.f + 1 : ℕ)) - lzc (3 * (F.f + 1) + 5) S + (0 : ℕ)) he (by rw [d1]; push_cast; ring) hmin hmax
    rw [decode_build _ e1 e2 d2, e3, g2]
  · exfalso
    have := hEv.2
    rw [g3, abs_mul, sg_abs, one_mul, abs_of_pos (zp _)] at this
    exact lt_irrefl _ this

/-- **C73** (wrong).  When the sum rounds up to the next binade, the adder returns one and a half time the correctly rounded sum: the
carry is put in the first bit of the significand field. -/
theorem C73_carry_wrong {F : Fmt} (he : 1 ≤ F.e) (hf : 1 ≤ F.f) {x y : ℕ} (hx : x < 2 ^ (1 + F.e + F.f)) (hy : y < 2 ^ (1 + F.e + F.f))
    {a b : ℚ} (ha : F.decode x = .num a) (hb : F.decode y = .num b) (hna : F.Normal a) (hnb : F.Normal b) {A E : ℤ} (hA : InBinade A a)
    (hgap : |b| < (2 : ℚ) ^ (A + F.f + 4)) (hs : 0 < a * b ∨ |a| < |b|) {v : ℚ} (hv : NearestEven F ((a + b : ℚ) : ℝ) v)
    (hE : InBinade E (a + b)) (hEv : (2 : ℚ) ^ (E + 1) ≤ |v|) (hmin : F.emin ≤ E) (hmax : E + 1 ≤ F.emax) :
    F.decode (fpAdd F x y) = .num (3 / 2 * v) := by
  obtain ⟨S, s, c1, c2, c3, c4, c5, c6⟩ := add_core hx hy ha hb hna.2 hnb.2 hA hgap hs
  obtain ⟨d1, d2, d3⟩ := finish hf (by omega) c2 (lzc_spec c3) c5 _ _ c6 hE hmin hv
  rw [fpAdd_eq c1 c4]
  rcases d3 with ⟨_, _, g3⟩ | ⟨g1, g2, g3⟩
  · exact absurd hEv (not_le.2 g3)
  · rw [g1]
    obtain ⟨e1, e2, e3⟩ := exp_field (F := F) (E := E + 1)
      (n := (expField F x : ℤ) + (3 + (F.f + 1 : ℕ)) - lzc (3 * (F.f + 1) + 5) S + (1 : ℕ)) he (by rw [d1]; push_cast; ring) (by omega) hmax
    rw [decode_build _ e1 e2 d2, e3, g2, g3]
    congr 1
    have : (2 : ℚ) ^ (E + 1) = 2 * 2 ^ (F.f - 1) * (2 : ℚ) ^ (E + 1 - F.f) := by
      rw [← pow_succ', show F.f - 1 + 1 = F.f by omega, ← zpow_natCast, ← zadd]; congr 1; ring
    rw [this]
    have h2 : (2 : ℚ) ^ F.f = 2 * 2 ^ (F.f - 1) := by rw [← pow_succ', show F.f - 1 + 1 = F.f by omega]
    push_cast
    rw [h2]
    ring

/-- the operator when the exponent of `y` is too large for the data path -/
theorem far_core {F : Fmt} (he : 1 ≤ F.e) (hf : 1 ≤ F.f) {x y : ℕ} (hmx : mant F x < 2 ^ (F.f + 1)) (hy3 : 2 ^ F.f ≤ mant F y)
    (hy4 : mant F y < 2 ^ (F.f + 1)) (hgap : expField F x + F.f + 3 < expField F y) (hey : expField F y + 2 ≤ 2 ^ F.e)
    (hs : mant F x = 0 ∨ signBit F x = signBit F y) :
    F.decode (fpAdd F x y) = .num (sg (signBit F y) * (mant F y * (2 : ℚ) ^ ((expField F x : ℤ) + F.f + 3 - F.emax - F.f))) := by
  have hX : mant F x * 2 ^ (F.f + 1 + 2) < 2 ^ (2 * (F.f + 1) + 2) := by
    calc mant F x * 2 ^ (F.f + 1 + 2) < 2 ^ (F.f + 1) * 2 ^ (F.f + 1 + 2) := Nat.mul_lt_mul_of_pos_right hmx (Nat.two_pow_pos _)
      _ = _ := by rw [← pow_add]; congr 1; omega
  have hN1 : (2 : ℕ) ^ (2 * (F.f + 1) + 4) = 4 * 2 ^ (2 * (F.f + 1) + 2) := by rw [pow_add _ _ 2, pow_add]; ring
  have hYu : mant F y * 2 ^ (2 * (F.f + 1) + 4) + 2 ^ (2 * (F.f + 1) + 4) ≤ 2 ^ (3 * (F.f + 1) + 4) := by
    calc mant F y * 2 ^ (2 * (F.f + 1) + 4) + 2 ^ (2 * (F.f + 1) + 4) = (mant F y + 1) * 2 ^ (2 * (F.f + 1) + 4) := by ring
      _ ≤ 2 ^ (F.f + 1) * 2 ^ (2 * (F.f + 1) + 4) := Nat.mul_le_mul_right _ hy4
      _ = _ := by rw [← pow_add]; congr 1; omega
  have hYl : 2 ^ (3 * (F.f + 1) + 3) ≤ mant F y * 2 ^ (2 * (F.f + 1) + 4) := by
    calc 2 ^ (3 * (F.f + 1) + 3) = 2 ^ F.f * 2 ^ (2 * (F.f + 1) + 4) := by rw [← pow_add]; congr 1; omega
      _ ≤ _ := Nat.mul_le_mul_right _ hy3
  have hN2 : (2 : ℕ) ^ (3 * (F.f + 1) + 5) = 2 * 2 ^ (3 * (F.f + 1) + 4) := by rw [pow_succ]; ring
  have hS : mantAdd F x y = mant F y * 2 ^ (2 * (F.f + 1) + 4) + mant F x * 2 ^ (F.f + 1 + 2) := by
    unfold mantAdd addShift
    dsimp only
    rw [if_pos (by push_cast; omega), pow_zero, Nat.div_one]
    have : (if xor (signBit F x) (signBit F y) = true then neg (3 * (F.f + 1) + 5) (mant F x * 2 ^ (F.f + 1 + 2))
        else mant F x * 2 ^ (F.f + 1 + 2)) = mant F x * 2 ^ (F.f + 1 + 2) := by
      rcases hs with h | h
      · rw [h, Nat.zero_mul]
        have : neg (3 * (F.f + 1) + 5) 0 = 0 := by
          unfold neg
          rw [Nat.sub_zero, Nat.sub_add_cancel (Nat.two_pow_pos _), Nat.mod_self]
        rw [this, ite_self]
      · rw [h, Bool.xor_self, if_neg (by decide)]
    rw [this, Nat.mod_eq_of_lt (by omega)]
  have hk : lzc (3 * (F.f + 1) + 5) (mant F y * 2 ^ (2 * (F.f + 1) + 4) + mant F x * 2 ^ (F.f + 1 + 2)) = 1 := by
    apply (lzc_spec (by omega)).unique
    refine ⟨by omega, ?_, fun _ => ?_⟩
    · rw [show 3 * (F.f + 1) + 5 - 1 = 3 * (F.f + 1) + 4 by omega]; omega
    · rw [show 3 * (F.f + 1) + 5 - 1 - 1 = 3 * (F.f + 1) + 3 by omega]; omega
  have hr : roundField (3 * (F.f + 1) + 5) (F.f + 1)
      ((mant F y * 2 ^ (2 * (F.f + 1) + 4) + mant F x * 2 ^ (F.f + 1 + 2)) * 2 ^ 1 % 2 ^ (3 * (F.f + 1) + 5)) = (mant F y - 2 ^ F.f, 0) := by
    rw [Nat.mod_eq_of_lt (by omega)]
    have e : (mant F y * 2 ^ (2 * (F.f + 1) + 4) + mant F x * 2 ^ (F.f + 1 + 2)) * 2 ^ 1 =
        mant F y * 2 ^ (3 * (F.f + 1) + 5 - (F.f + 1)) + 2 * (mant F x * 2 ^ (F.f + 1 + 2)) := by
      rw [show 3 * (F.f + 1) + 5 - (F.f + 1) = 2 * (F.f + 1) + 4 + 1 by omega, pow_succ]; ring
    rw [e, roundField_down (by omega) (by omega)
      (by rw [show 3 * (F.f + 1) + 5 - (F.f + 1) - 1 = 2 * (F.f + 1) + 4 by omega]; omega), show F.f + 1 - 1 = F.f by omega,
      Nat.mod_eq_sub_mod hy3, Nat.mod_eq_of_lt (by rw [pow_succ] at hy4; omega)]
  rw [fpAdd_eq hS (fun h => by rw [Nat.div_eq_of_lt (by omega)] at h; omega), hk, hr]
  have hm : F.emax = 2 ^ (F.e - 1) - 1 := rfl
  have hp : (2 : ℤ) ^ F.e = 2 * 2 ^ (F.e - 1) := by rw [← pow_succ']; congr 1; omega
  have hcast : ((2 ^ F.e : ℕ) : ℤ) = 2 ^ F.e := by push_cast; rfl
  obtain ⟨e1, e2, e3⟩ := exp_field (F := F) (E := (expField F x : ℤ) + F.f + 3 - F.emax)
    (n := (expField F x : ℤ) + (3 + (F.f + 1 : ℕ)) - (1 : ℕ) + (0 : ℕ)) he (by push_cast; ring)
    (by have : F.emin = 1 - F.emax := rfl
        omega) (by omega)
  rw [decode_build _ e1 e2 (by rw [pow_succ] at hy4; omega), e3, Nat.add_sub_cancel' hy3]

/-- **C73** (wrong).  When `y` is larger than `x` by more than `f + 3` binades and the signs are equal, the adder returns `y` scaled down
to the exponent of `x` plus `f + 3`: `1 + 2 ^ 60` is `2 ^ 26` in binary32. -/
theorem C73_far_wrong {F : Fmt} (he : 1 ≤ F.e) (hf : 1 ≤ F.f) {x y : ℕ} (hx : x < 2 ^ (1 + F.e + F.f)) (hy : y < 2 ^ (1 + F.e + F.f))
    {a b : ℚ} (ha : F.decode x = .num a) (hb : F.decode y = .num b) (hna : F.Normal a) (hnb : F.Normal b) {A B : ℤ} (hA : InBinade A a)
    (hB : InBinade B b) (hgap : A + F.f + 3 < B) (hs : 0 < a * b) :
    F.decode (fpAdd F x y) = .num (b * (2 : ℚ) ^ (A + F.f + 3 - B)) := by
  obtain ⟨x1, x2, x3, x4, x5⟩ := decode_normal hx ha hna.2
  obtain ⟨y1, y2, y3, y4, y5⟩ := decode_normal hy hb hnb.2
  have hAx := binade_unique hA (by rw [x5]; exact mant_binade x3 x4 _ _)
  have hBy := binade_unique hB (by rw [y5]; exact mant_binade y3 y4 _ _)
  have hp := Nat.two_pow_pos F.f
  have ux : (0 : ℚ) < mant F x * (2 : ℚ) ^ ((expField F x : ℤ) - F.emax - F.f) := mul_pos (by exact_mod_cast (by omega)) (zp _)
  have uy : (0 : ℚ) < mant F y * (2 : ℚ) ^ ((expField F y : ℤ) - F.emax - F.f) := mul_pos (by exact_mod_cast (by omega)) (zp _)
  have hss : signBit F x = signBit F y := by
    rw [x5, y5] at hs
    exact (sg_mul_pos ux uy).1 hs
  rw [far_core he hf x4 y3 y4 (by omega) y2 (.inr hss)]
  congr 1
  conv_rhs => rw [y5, mul_assoc, mul_assoc, ← zadd]
  congr 3
  omega

/-- **C73** (wrong).  A zero plus `y`, whatever the signs, is `y` scaled down to the exponent `emin + f + 2`: `0 + 1` is `2 ^ -101` in
binary32. -/
theorem C73_zero_wrong {F : Fmt} (he : 1 ≤ F.e) (hf : 1 ≤ F.f) {x y : ℕ} (hx : F.decode x = .plusZero ∨ F.decode x = .minusZero)
    (hy : y < 2 ^ (1 + F.e + F.f)) {b : ℚ} (hb : F.decode y = .num b) (hnb : F.Normal b) {B : ℤ} (hB : InBinade B b)
    (hgap : F.emin + F.f + 2 < B) : F.decode (fpAdd F x y) = .num (b * (2 : ℚ) ^ (F.emin + F.f + 2 - B)) := by
  obtain ⟨y1, y2, y3, y4, y5⟩ := decode_normal hy hb hnb.2
  have hBy := binade_unique hB (by rw [y5]; exact mant_binade y3 y4 _ _)
  have hx0 : expField F x = 0 ∧ x % 2 ^ F.f = 0 := by
    unfold Fmt.decode at hx
    dsimp only at hx
    rw [show x / 2 ^ F.f % 2 ^ F.e = expField F x from rfl] at hx
    split_ifs at hx <;> simp_all
  have hm0 : mant F x = 0 := by rw [mant, if_pos hx0.1, hx0.2]
  have hmin : F.emin = 1 - F.emax := rfl
  rw [far_core he hf (by rw [hm0]; exact Nat.two_pow_pos _) y3 y4 (by omega) y2 (.inl hm0)]
  congr 1
  conv_rhs => rw [y5, mul_assoc, mul_assoc, ← zadd]
  congr 3
  omega

/-- **C73** (wrong).  A number minus itself is not a zero but a power of two: `1 - 1` is `2 ^ -50` in binary32. -/
theorem C73_cancel_wrong {F : Fmt} (he : 1 ≤ F.e) (hf : 1 ≤ F.f) {x y : ℕ} (hx : x < 2 ^ (1 + F.e + F.f)) (hy : y < 2 ^ (1 + F.e + F.f))
    {a : ℚ} (ha : F.decode x = .num a) (hb : F.decode y = .num (-a)) (hna : F.Normal a) {A : ℤ} (hA : InBinade A a)
    (hgap : F.emin ≤ A - 2 * F.f - 4) : ∃ r, F.decode (fpAdd F x y) = .num r ∧ |r| = (2 : ℚ) ^ (A - 2 * F.f - 4) := by
  obtain ⟨x1, x2, x3, x4, x5⟩ := decode_normal hx ha hna.2
  obtain ⟨y1, y2, y3, y4, y5⟩ := decode_normal hy hb (by rw [abs_neg]; exact hna.2)
  have hAx := binade_unique hA (by rw [x5]; exact mant_binade x3 x4 _ _)
  have hAy := binade_unique (show InBinade A (-a) by unfold InBinade; rw [abs_neg]; exact hA) (by rw [y5]; exact mant_binade y3 y4 _ _)
  have hee : expField F x = expField F y := by omega
  have hp := Nat.two_pow_pos F.f
  have ux : (0 : ℚ) < mant F x * (2 : ℚ) ^ ((expField F x : ℤ) - F.emax - F.f) := mul_pos (by exact_mod_cast (by omega)) (zp _)
  have uy : (0 : ℚ) < mant F y * (2 : ℚ) ^ ((expField F y : ℤ) - F.emax - F.f) := mul_pos (by exact_mod_cast (by omega)) (zp _)
  have hmm : mant F x = mant F y := by
    have h1 : |a| = mant F x * (2 : ℚ) ^ ((expField F x : ℤ) - F.emax - F.f) := by rw [x5, sg_mul_abs _ ux]
    have h2 : |-a| = mant F y * (2 : ℚ) ^ ((expField F y : ℤ) - F.emax - F.f) := by rw [y5, sg_mul_abs _ uy]
    rw [abs_neg, h1, hee] at h2
    exact_mod_cast mul_right_cancel₀ (zp _).ne' h2
  have hxor : xor (signBit F x) (signBit F y) = true := by
    have h : ¬ signBit F x = signBit F y := fun h => by
      have := (sg_mul_pos ux uy).2 h
      rw [← x5, ← y5] at this
      nlinarith [sq_nonneg a]
    revert h
    cases signBit F x <;> cases signBit F y <;> simp
  have hX : mant F y * 2 ^ (F.f + 1 + 2) < 2 ^ (3 * (F.f + 1) + 5) := by
    calc mant F y * 2 ^ (F.f + 1 + 2) < 2 ^ (F.f + 1) * 2 ^ (F.f + 1 + 2) := Nat.mul_lt_mul_of_pos_right y4 (Nat.two_pow_pos _)
      _ = 2 ^ (2 * F.f + 4) := by rw [← pow_add]; congr 1; omega
      _ ≤ _ := Nat.pow_le_pow_right (by decide) (by omega)
  have hXp : 0 < mant F y * 2 ^ (F.f + 1 + 2) := Nat.mul_pos (by omega) (Nat.two_pow_pos _)
  have hS : mantAdd F x y = 0 := by
    unfold mantAdd addShift
    dsimp only
    rw [hxor, if_pos rfl, hee, hmm, if_neg (by push_cast; omega), if_neg (by push_cast; omega), neg_eq hXp hX]
    have e : ((expField F y : ℤ) + (((F.f + 1 : ℕ) : ℤ) + 2) - (expField F y : ℤ)).toNat = F.f + 1 + 2 := by omega
    have hY : mant F y * 2 ^ (2 * (F.f + 1) + 4) / 2 ^ (F.f + 1 + 2) = mant F y * 2 ^ (F.f + 1 + 2) := by
      rw [show mant F y * 2 ^ (2 * (F.f + 1) + 4) = mant F y * 2 ^ (F.f + 1 + 2) * 2 ^ (F.f + 1 + 2) by
        rw [mul_assoc, ← pow_add]; congr 2; omega, Nat.mul_div_cancel _ (Nat.two_pow_pos _)]
    rw [e, hY, Nat.add_sub_cancel' hX.le, Nat.mod_self]
  have hk : lzc (3 * (F.f + 1) + 5) 0 = 3 * (F.f + 1) + 5 := by
    have h := lzc_spec (N := 3 * (F.f + 1) + 5) (v := 0) (Nat.two_pow_pos _)
    by_contra hc
    have := h.2.2 (lt_of_le_of_ne h.1 hc)
    have := Nat.two_pow_pos (3 * (F.f + 1) + 5 - 1 - lzc (3 * (F.f + 1) + 5) 0)
    omega
  have hr : roundField (3 * (F.f + 1) + 5) (F.f + 1) (0 * 2 ^ (3 * (F.f + 1) + 5) % 2 ^ (3 * (F.f + 1) + 5)) = (0, 0) := by
    have := roundField_down (N := 3 * (F.f + 1) + 5) (o := F.f + 1) (M := 0) (T := 0) (by omega) (by omega) (Nat.two_pow_pos _)
    rw [Nat.zero_mul, Nat.zero_add, Nat.zero_mod] at this
    rw [Nat.zero_mul, Nat.zero_mod, this]
  rw [fpAdd_eq hS (fun h => by rw [Nat.zero_div] at h; omega), hk, hr]
  have hmax : A ≤ F.emax := by
    have hm : F.emax = 2 ^ (F.e - 1) - 1 := rfl
    have hp : (2 : ℤ) ^ F.e = 2 * 2 ^ (F.e - 1) := by rw [← pow_succ']; congr 1; omega
    have hcast : ((2 ^ F.e : ℕ) : ℤ) = 2 ^ F.e := by push_cast; rfl
    omega
  obtain ⟨e1, e2, e3⟩ := exp_field (F := F) (E := A - 2 * F.f - 4)
    (n := (expField F x : ℤ) + (3 + (F.f + 1 : ℕ)) - (3 * (F.f + 1) + 5 : ℕ) + (0 : ℕ)) he (by rw [hAx]; push_cast; ring)
    hgap (by omega)
  refine ⟨_, decode_build _ e1 e2 hp, ?_⟩
  rw [e3, abs_mul, sg_abs, one_mul, abs_mul, abs_of_pos (zp _), Nat.abs_cast]
  push_cast
  rw [add_zero, ← zpow_natCast, ← zadd]
  congr 1
  ring

/-- the result of the operator when the sum of significands is negative -/
theorem fpAdd_neg {F : Fmt} {x y D : ℕ} (hD0 : 0 < D) (hD : D ≤ 2 ^ (3 * (F.f + 1) + 4)) (hS : mantAdd F x y = 2 ^ (3 * (F.f + 1) + 5) - D)
    (hxor : xor (signBit F x) (signBit F y) = true) :
    fpAdd F x y = build F (!signBit F y)
      ((((expField F x : ℤ) + (3 + (F.f + 1 : ℕ)) - lzc (3 * (F.f + 1) + 5) D) +
        (roundField (3 * (F.f + 1) + 5) (F.f + 1)
          ((2 ^ (3 * (F.f + 1) + 5) - D) * 2 ^ lzc (3 * (F.f + 1) + 5) D % 2 ^ (3 * (F.f + 1) + 5))).2) % 2 ^ (F.e + 2) % 2 ^ F.e).toNat
      (roundField (3 * (F.f + 1) + 5) (F.f + 1)
        ((2 ^ (3 * (F.f + 1) + 5) - D) * 2 ^ lzc (3 * (F.f + 1) + 5) D % 2 ^ (3 * (F.f + 1) + 5))).1 := by
  have hN : (2 : ℕ) ^ (3 * (F.f + 1) + 5) = 2 * 2 ^ (3 * (F.f + 1) + 4) := by rw [pow_succ]; ring
  have hp := Nat.two_pow_pos (3 * (F.f + 1) + 4)
  have h : (decide ((2 ^ (3 * (F.f + 1) + 5) - D) / 2 ^ (3 * (F.f + 1) + 5 - 1) % 2 = 1) && xor (signBit F x) (signBit F y)) = true := by
    rw [hxor, Bool.and_true, decide_eq_true_eq, show 3 * (F.f + 1) + 5 - 1 = 3 * (F.f + 1) + 4 by omega,
      show (2 ^ (3 * (F.f + 1) + 5) - D) / 2 ^ (3 * (F.f + 1) + 4) = 1 by rw [Nat.div_eq_iff hp]; omega]
  have hneg : neg (3 * (F.f + 1) + 5) (2 ^ (3 * (F.f + 1) + 5) - D) = D := by rw [neg_eq (by omega) (by omega)]; omega
  unfold fpAdd
  dsimp only
  rw [hS]
  simp only [h, if_true, hneg, Bool.true_xor]

/-- **C73** (wrong).  When the signs differ and `x` is the largest in magnitude, the adder returns a number of the right sign and exponent
but with the two's complement of the significand field: if the sum is exact and not a power of two, `3 * 2 ^ E - |x + y|` instead of
`|x + y|`: `8 - 1` is `5`. -/
theorem C73_sub_wrong {F : Fmt} (he : 1 ≤ F.e) (hf : 1 ≤ F.f) {x y : ℕ} (hx : x < 2 ^ (1 + F.e + F.f)) (hy : y < 2 ^ (1 + F.e + F.f))
    {a b : ℚ} (ha : F.decode x = .num a) (hb : F.decode y = .num b) (hna : F.Normal a) (hnb : F.Normal b) {B E : ℤ} (hB : InBinade B b)
    (hgap : |a| < (2 : ℚ) ^ (B + F.f + 4)) (hs : a * b < 0) (hab : |b| < |a|) (hfin : F.Finite (a + b)) (hE : InBinade E (a + b))
    (hne : |a + b| ≠ (2 : ℚ) ^ E) (hmin : F.emin ≤ E) :
    ∃ r, F.decode (fpAdd F x y) = .num r ∧ |r| = 3 * (2 : ℚ) ^ E - |a + b| ∧ 0 < r * a := by
  obtain ⟨x1, x2, x3, x4, x5⟩ := decode_normal hx ha hna.2
  obtain ⟨y1, y2, y3, y4, y5⟩ := decode_normal hy hb hnb.2
  have hax : InBinade ((expField F x : ℤ) - F.emax) a := by rw [x5]; exact mant_binade x3 x4 _ _
  have hby : InBinade ((expField F y : ℤ) - F.emax) b := by rw [y5]; exact mant_binade y3 y4 _ _
  have hBy := binade_unique hB hby
  have g1 := zlt (hax.1.trans_lt hgap)
  have g2 := zlt (hby.1.trans_lt (hab.trans hax.2))
  have hp := Nat.two_pow_pos F.f
  have ux : (0 : ℚ) < mant F x * (2 : ℚ) ^ ((expField F x : ℤ) - F.emax - F.f) := mul_pos (by exact_mod_cast (by omega)) (zp _)
  have uy : (0 : ℚ) < mant F y * (2 : ℚ) ^ ((expField F y : ℤ) - F.emax - F.f) := mul_pos (by exact_mod_cast (by omega)) (zp _)
  have hns : ¬ signBit F x = signBit F y := fun h => by
    have := (sg_mul_pos ux uy).2 h
    rw [← x5, ← y5] at this
    exact lt_asymm this hs
  have hxor : xor (signBit F x) (signBit F y) = true := by
    revert hns
    cases signBit F x <;> cases signBit F y <;> simp
  have hnot : (!signBit F y) = signBit F x := by
    revert hns
    cases signBit F x <;> cases signBit F y <;> simp
  obtain ⟨d, hd⟩ : ∃ d : ℕ, (expField F y : ℤ) + F.f + 3 = expField F x + d :=
    ⟨((expField F y : ℤ) + F.f + 3 - expField F x).toNat, by omega⟩
  have hX : mant F x * 2 ^ (F.f + 1 + 2) < 2 ^ (3 * (F.f + 1) + 4) := by
    calc mant F x * 2 ^ (F.f + 1 + 2) < 2 ^ (F.f + 1) * 2 ^ (F.f + 1 + 2) := Nat.mul_lt_mul_of_pos_right x4 (Nat.two_pow_pos _)
      _ = 2 ^ (2 * F.f + 4) := by rw [← pow_add]; congr 1; omega
      _ ≤ _ := Nat.pow_le_pow_right (by decide) (by omega)
  have hN : (2 : ℕ) ^ (3 * (F.f + 1) + 5) = 2 * 2 ^ (3 * (F.f + 1) + 4) := by rw [pow_succ]; ring
  have vx : (mant F x : ℚ) * (2 : ℚ) ^ ((expField F x : ℤ) - F.emax - F.f) =
      ((mant F x * 2 ^ (F.f + 1 + 2) : ℕ) : ℚ) * (2 : ℚ) ^ ((expField F x : ℤ) - F.emax - F.f - (F.f + 3)) := by
    push_cast
    rw [mul_assoc, ← zpow_natCast, ← zadd]; congr 2; push_cast; ring
  have vy : (mant F y : ℚ) * (2 : ℚ) ^ ((expField F y : ℤ) - F.emax - F.f) =
      ((mant F y * 2 ^ d : ℕ) : ℚ) * (2 : ℚ) ^ ((expField F x : ℤ) - F.emax - F.f - (F.f + 3)) := by
    push_cast
    rw [mul_assoc, ← zpow_natCast, ← zadd]; congr 2; omega
  have hXY : mant F y * 2 ^ d < mant F x * 2 ^ (F.f + 1 + 2) := by
    have := hab
    rw [x5, y5, sg_mul_abs _ ux, sg_mul_abs _ uy, vx, vy] at this
    exact_mod_cast lt_of_mul_lt_mul_right this (zp _).le
  obtain ⟨D, hDe⟩ : ∃ D, mant F x * 2 ^ (F.f + 1 + 2) = mant F y * 2 ^ d + D := ⟨_, (Nat.add_sub_cancel' hXY.le).symm⟩
  have hD0 : 0 < D := by omega
  have hDl : D ≤ 2 ^ (3 * (F.f + 1) + 4) := by omega
  have hS : mantAdd F x y = 2 ^ (3 * (F.f + 1) + 5) - D := by
    unfold mantAdd addShift
    dsimp only
    rw [hxor, if_pos rfl, if_neg (by push_cast; omega), if_neg (by push_cast; omega), neg_eq (by omega) (by omega)]
    have e : ((expField F x : ℤ) + (((F.f + 1 : ℕ) : ℤ) + 2) - (expField F y : ℤ)).toNat = 2 * (F.f + 1) + 4 - d := by omega
    have hY : mant F y * 2 ^ (2 * (F.f + 1) + 4) / 2 ^ (2 * (F.f + 1) + 4 - d) = mant F y * 2 ^ d := by
      rw [show mant F y * 2 ^ (2 * (F.f + 1) + 4) = mant F y * 2 ^ d * 2 ^ (2 * (F.f + 1) + 4 - d) by
        rw [mul_assoc, ← pow_add]; congr 2; omega, Nat.mul_div_cancel _ (Nat.two_pow_pos _)]
    rw [e, hY, Nat.mod_eq_of_lt (by omega)]
    omega
  have hDN : D < 2 ^ (3 * (F.f + 1) + 5) := by omega
  -- the exact difference
  have hsg : sg (signBit F y) = -sg (signBit F x) := by
    revert hns
    cases signBit F x <;> cases signBit F y <;> simp [sg]
  have hval : a + b = sg (signBit F x) * (D * (2 : ℚ) ^ ((expField F x : ℤ) - F.emax - F.f - (F.f + 3))) := by
    rw [x5, y5, vx, vy, hsg, hDe]
    push_cast
    ring
  have habs : |a + b| = D * (2 : ℚ) ^ ((expField F x : ℤ) - F.emax - F.f - (F.f + 3)) := by
    rw [hval, sg_mul_abs _ (mul_pos (by exact_mod_cast hD0) (zp _))]
  obtain ⟨k1, k2, k3⟩ := lzc_spec hDN
  rw [fpAdd_neg hD0 hDl hS hxor, hnot]
  generalize lzc (3 * (F.f + 1) + 5) D = k at *
  have hkN : k < 3 * (F.f + 1) + 5 := by
    rcases Nat.lt_or_ge k (3 * (F.f + 1) + 5) with h | h
    · exact h
    · rw [show 3 * (F.f + 1) + 5 - k = 0 by omega] at k2; omega
  have k3 := k3 hkN
  have hEK : E = (expField F x : ℤ) - F.emax - F.f - (F.f + 3) + ((3 * (F.f + 1) + 4 : ℕ) - k) := by
    apply binade_unique hE
    unfold InBinade
    rw [habs]
    have k2' : (D : ℚ) < 2 ^ (3 * (F.f + 1) + 5 - k) := by exact_mod_cast k2
    have k3' : (2 : ℚ) ^ (3 * (F.f + 1) + 5 - 1 - k) ≤ D := by exact_mod_cast k3
    constructor
    · rw [add_comm, zadd, show ((3 * (F.f + 1) + 4 : ℕ) : ℤ) - k = ((3 * (F.f + 1) + 5 - 1 - k : ℕ) : ℤ) by omega, zpow_natCast]
      exact mul_le_mul_of_nonneg_right k3' (zp _).le
    · rw [add_assoc, zadd, mul_comm (_ ^ (_ : ℤ)), show ((3 * (F.f + 1) + 4 : ℕ) : ℤ) - k + 1 = ((3 * (F.f + 1) + 5 - k : ℕ) : ℤ) by omega,
        zpow_natCast]
      exact mul_lt_mul_of_pos_right k2' (zp _)
  -- its significand
  obtain ⟨m, hm⟩ : ∃ m : ℕ, |a + b| = m * (2 : ℚ) ^ (E - F.f) := by
    obtain ⟨m', E', f1, _, _, f4⟩ := hfin
    have hlow : E ≤ E' := by
      have h1 := hE.1
      rw [f4, abs_mul, abs_of_pos (zp _)] at h1
      have h2 : |(m' : ℚ)| < 2 ^ (F.f + 1) := by exact_mod_cast f1
      have h3 : (2 : ℚ) ^ E < (2 : ℚ) ^ (E' + 1) := by
        calc _ ≤ _ := h1
          _ < 2 ^ (F.f + 1) * (2 : ℚ) ^ (E' - F.f) := mul_lt_mul_of_pos_right h2 (zp _)
          _ = _ := by rw [← zpow_natCast, ← zadd]; congr 1; push_cast; ring
      have := zlt h3
      omega
    refine ⟨m'.natAbs * 2 ^ (E' - E).toNat, ?_⟩
    rw [f4, abs_mul, abs_of_pos (zp _)]
    push_cast
    rw [mul_assoc, Nat.cast_natAbs, Int.cast_abs, ← zpow_natCast, ← zadd]
    congr 2
    omega
  have hm1 : 2 ^ F.f < m := by
    have h := lt_of_le_of_ne hE.1 (Ne.symm hne)
    rw [hm, show E = (F.f : ℤ) + (E - F.f) by ring, zadd, zpow_natCast, show (F.f : ℤ) + (E - F.f) - F.f = E - F.f by ring] at h
    exact_mod_cast lt_of_mul_lt_mul_right h (zp _).le
  have hm2 : m < 2 ^ (F.f + 1) := by
    have h := hE.2
    rw [hm, show E + 1 = ((F.f + 1 : ℕ) : ℤ) + (E - F.f) by push_cast; ring, zadd, zpow_natCast] at h
    exact_mod_cast lt_of_mul_lt_mul_right h (zp _).le
  have hDm : D * 2 ^ k = m * 2 ^ (2 * (F.f + 1) + 5) := by
    have h : (D : ℚ) * 2 ^ k = m * 2 ^ (2 * (F.f + 1) + 5) := by
      have h1 := habs.symm.trans hm
      have h2 : (D : ℚ) = m * (2 : ℚ) ^ (E - F.f - ((expField F x : ℤ) - F.emax - F.f - (F.f + 3))) := by
        rw [zpow_sub₀ (by norm_num), mul_div_assoc', eq_div_iff (zp _).ne']; exact h1
      rw [h2, mul_assoc, ← zpow_natCast (2 : ℚ) k, ← zadd, ← zpow_natCast (2 : ℚ) (2 * (F.f + 1) + 5)]
      congr 2
      rw [hEK]; push_cast; ring
    exact_mod_cast h
  have hR : (2 ^ (3 * (F.f + 1) + 5) - D) * 2 ^ k % 2 ^ (3 * (F.f + 1) + 5) =
      (2 ^ (F.f + 1) - m) * 2 ^ (3 * (F.f + 1) + 5 - (F.f + 1)) + 0 := by
    rw [show 3 * (F.f + 1) + 5 - (F.f + 1) = 2 * (F.f + 1) + 5 by omega, Nat.add_zero, Nat.sub_mul, Nat.sub_mul, hDm, ← pow_add (2 : ℕ) (F.f + 1),
      show F.f + 1 + (2 * (F.f + 1) + 5) = 3 * (F.f + 1) + 5 by ring]
    have h1 : m * 2 ^ (2 * (F.f + 1) + 5) < 2 ^ (3 * (F.f + 1) + 5) := by
      calc _ < 2 ^ (F.f + 1) * 2 ^ (2 * (F.f + 1) + 5) := Nat.mul_lt_mul_of_pos_right hm2 (Nat.two_pow_pos _)
        _ = _ := by rw [← pow_add]; congr 1; ring
    have h2 : 0 < m * 2 ^ (2 * (F.f + 1) + 5) := Nat.mul_pos (by omega) (Nat.two_pow_pos _)
    obtain ⟨j, hj⟩ : ∃ j, 2 ^ k = j + 1 := ⟨2 ^ k - 1, by have := Nat.two_pow_pos k; omega⟩
    rw [hj, Nat.mul_add, Nat.mul_one, show 2 ^ (3 * (F.f + 1) + 5) * j + 2 ^ (3 * (F.f + 1) + 5) - m * 2 ^ (2 * (F.f + 1) + 5) =
      (2 ^ (3 * (F.f + 1) + 5) - m * 2 ^ (2 * (F.f + 1) + 5)) + 2 ^ (3 * (F.f + 1) + 5) * j by omega, Nat.add_mul_mod_self_left,
      Nat.mod_eq_of_lt (by omega)]
    exact (Nat.add_zero _).symm
  rw [hR, roundField_down (by omega) (by omega) (Nat.two_pow_pos _), show F.f + 1 - 1 = F.f by omega,
    Nat.mod_eq_of_lt (by rw [pow_succ] at *; omega)]
  have hmax : E ≤ F.emax := by
    have hab2 : |a + b| < |a| := by
      rw [habs, x5, sg_mul_abs _ ux, vx, hDe]
      apply mul_lt_mul_of_pos_right _ (zp _)
      have : 0 < mant F y * 2 ^ d := Nat.mul_pos (by omega) (Nat.two_pow_pos _)
      exact_mod_cast (by omega)
    have := zlt (hE.1.trans_lt (hab2.trans hax.2))
    have hm : F.emax = 2 ^ (F.e - 1) - 1 := rfl
    have hp : (2 : ℤ) ^ F.e = 2 * 2 ^ (F.e - 1) := by rw [← pow_succ']; congr 1; omega
    have hcast : ((2 ^ F.e : ℕ) : ℤ) = 2 ^ F.e := by push_cast; rfl
    omega
  obtain ⟨e1, e2, e3⟩ := exp_field (F := F) (E := E)
    (n := (expField F x : ℤ) + (3 + (F.f + 1 : ℕ)) - k + (0 : ℕ)) he (by rw [hEK]; push_cast; ring) hmin hmax
  refine ⟨_, decode_build _ e1 e2 (by rw [pow_succ] at *; omega), ?_, ?_⟩
  · rw [e3, sg_mul_abs _ (mul_pos (by exact_mod_cast (by omega)) (zp _)), hm, Nat.cast_add, Nat.cast_sub hm2.le]
    have : (2 : ℚ) ^ E = 2 ^ F.f * (2 : ℚ) ^ (E - F.f) := by rw [← zpow_natCast, ← zadd]; congr 1; ring
    rw [this]
    push_cast
    ring
  · conv_rhs => rw [x5]
    exact (sg_mul_pos (mul_pos (by exact_mod_cast (by omega)) (zp _)) ux).2 rfl

/-! ## The hypotheses are met -/

theorem b32_dec (c : ℕ) : b32.decode c = if c / 2 ^ 23 % 2 ^ 8 = 255 then (if c % 2 ^ 23 = 0 then (if c / 2 ^ 31 = 1 then .minusInf else .plusInf)
      else if 2 ^ 22 ≤ c % 2 ^ 23 then .qNaN else .sNaN)
    else if c / 2 ^ 23 % 2 ^ 8 = 0 then
      if c % 2 ^ 23 = 0 then (if c / 2 ^ 31 = 1 then .minusZero else .plusZero)
      else .num ((if c / 2 ^ 31 = 1 then -1 else 1) * ((c % 2 ^ 23 : ℕ) * (2 : ℚ) ^ (-149 : ℤ)))
    else .num ((if c / 2 ^ 31 = 1 then -1 else 1) * ((2 ^ 23 + (c % 2 ^ 23 : ℕ)) * (2 : ℚ) ^ (((c / 2 ^ 23 % 2 ^ 8 : ℕ) : ℤ) - 127 - 23))) := by
  unfold Fmt.decode
  norm_num [Fmt.emax, Fmt.emin]

example : b32.decode 0x3f800000 = .num 1 := by rw [b32_dec]; norm_num

theorem b32_normal {v : ℚ} (m E : ℤ) (h1 : |m| < 2 ^ 24) (h2 : -126 ≤ E) (h3 : E ≤ 127) (h4 : v = m * (2 : ℚ) ^ (E - 23))
    (h5 : (2 : ℚ) ^ (-126 : ℤ) ≤ |v|) : b32.Normal v :=
  ⟨⟨m, E, h1, by rw [b32_emin]; exact h2, by rw [b32_emax]; exact h3, h4⟩, by rw [b32_emin]; exact h5⟩

/-- the number is its own rounding -/
theorem nearest_self {F : Fmt} (hf : 1 ≤ F.f) {v : ℚ} (h : F.Finite v) : NearestEven F (v : ℝ) v := by
  rw [nearest_iff hf, rn_of_unb]
  obtain ⟨m, E, a, b, _, d⟩ := h
  exact ⟨m, E, a, b, d⟩

/-- `1 + 2 = 3` -/
example : b32.decode (fpAdd b32 0x3f800000 0x40000000) = .num 3 := by
  have n1 : b32.Normal 1 := b32_normal (2 ^ 23) 0 (by norm_num) (by norm_num) (by norm_num) (by norm_num) (by norm_num)
  have n2 : b32.Normal 2 := b32_normal (2 ^ 23) 1 (by norm_num) (by norm_num) (by norm_num) (by norm_num) (by norm_num)
  have n3 : b32.Normal 3 := b32_normal (3 * 2 ^ 22) 1 (by norm_num) (by norm_num) (by norm_num) (by norm_num) (by norm_num)
  exact C73_partial (F := b32) (by decide) (by decide) (by norm_num) (by norm_num) (a := 1) (b := 2) (by rw [b32_dec]; norm_num)
    (by rw [b32_dec]; norm_num) n1 n2 (A := 0) (E := 1) (by norm_num [InBinade]) (by norm_num) (by norm_num)
    (by have := nearest_self (F := b32) (by decide) n3.1; norm_num at this ⊢; exact this) (by norm_num [InBinade]) (by norm_num [InBinade])
    (by rw [b32_emin]; norm_num) (by rw [b32_emax]; norm_num)

/-- `16777215 + 0.75` is rounded to `16777216`, the operator returns `25165824` -/
example : b32.decode (fpAdd b32 0x4b7fffff 0x3f400000) = .num 25165824 := by
  have n1 : b32.Normal 16777215 := b32_normal (2 ^ 24 - 1) 23 (by norm_num) (by norm_num) (by norm_num) (by norm_num) (by norm_num)
  have n2 : b32.Normal (3 / 4) := b32_normal (3 * 2 ^ 22) (-1) (by norm_num) (by norm_num) (by norm_num) (by norm_num) (by norm_num)
  have hv : NearestEven b32 ((16777215 + 3 / 4 : ℚ) : ℝ) 16777216 := by
    rw [nearest_iff (by decide), rn_eq (k := 23) (n := 16777216) (by norm_num) (by norm_num) (by rw [b32_emin]; norm_num), b32_emin]
    norm_num
  rw [C73_carry_wrong (F := b32) (by decide) (by decide) (by norm_num) (by norm_num) (a := 16777215) (b := 3 / 4) (by rw [b32_dec]; norm_num)
    (by rw [b32_dec]; norm_num) n1 n2 (A := 23) (E := 23) (by norm_num [InBinade]) (by norm_num) (by norm_num) hv (by norm_num [InBinade])
    (by norm_num) (by rw [b32_emin]; norm_num) (by rw [b32_emax]; norm_num)]
  norm_num

/-- `1 + 2 ^ 60` -/
example : b32.decode (fpAdd b32 0x3f800000 0x5d800000) = .num (2 ^ 26) := by
  have n1 : b32.Normal 1 := b32_normal (2 ^ 23) 0 (by norm_num) (by norm_num) (by norm_num) (by norm_num) (by norm_num)
  have n2 : b32.Normal (2 ^ 60) := b32_normal (2 ^ 23) 60 (by norm_num) (by norm_num) (by norm_num) (by norm_num) (by norm_num)
  have := C73_far_wrong (F := b32) (by decide) (by decide) (x := 0x3f800000) (y := 0x5d800000) (by norm_num) (by norm_num) (a := 1) (b := 2 ^ 60)
    (by rw [b32_dec]; norm_num) (by rw [b32_dec]; norm_num) n1 n2 (A := 0) (B := 60) (by norm_num [InBinade]) (by norm_num [InBinade])
    (by norm_num) (by norm_num)
  rw [this]; norm_num

/-- `0 + 1` -/
example : b32.decode (fpAdd b32 0 0x3f800000) = .num ((2 : ℚ) ^ (-101 : ℤ)) := by
  have n1 : b32.Normal 1 := b32_normal (2 ^ 23) 0 (by norm_num) (by norm_num) (by norm_num) (by norm_num) (by norm_num)
  have := C73_zero_wrong (F := b32) (by decide) (by decide) (x := 0) (y := 0x3f800000) (by rw [b32_dec]; norm_num) (by norm_num) (b := 1)
    (by rw [b32_dec]; norm_num) n1 (B := 0) (by norm_num [InBinade]) (by rw [b32_emin]; norm_num)
  rw [this, b32_emin]; norm_num

/-- `1 - 1` -/
example : ∃ r, b32.decode (fpAdd b32 0x3f800000 0xbf800000) = .num r ∧ |r| = (2 : ℚ) ^ (-50 : ℤ) := by
  have n1 : b32.Normal 1 := b32_normal (2 ^ 23) 0 (by norm_num) (by norm_num) (by norm_num) (by norm_num) (by norm_num)
  have := C73_cancel_wrong (F := b32) (by decide) (by decide) (x := 0x3f800000) (y := 0xbf800000) (by norm_num) (by norm_num) (a := 1)
    (by rw [b32_dec]; norm_num) (by rw [b32_dec]; norm_num) n1 (A := 0) (by norm_num [InBinade]) (by rw [b32_emin]; norm_num)
  simpa using this

/-- `8 - 1` -/
example : ∃ r, b32.decode (fpAdd b32 0x41000000 0xbf800000) = .num r ∧ |r| = 5 ∧ 0 < r * 8 := by
  have n1 : b32.Normal 8 := b32_normal (2 ^ 23) 3 (by norm_num) (by norm_num) (by norm_num) (by norm_num) (by norm_num)
  have n2 : b32.Normal (-1) := b32_normal (-2 ^ 23) 0 (by norm_num) (by norm_num) (by norm_num) (by norm_num) (by norm_num)
  have n3 : b32.Normal (8 + -1) := b32_normal (7 * 2 ^ 21) 2 (by norm_num) (by norm_num) (by norm_num) (by norm_num) (by norm_num)
  obtain ⟨r, h1, h2, h3⟩ := C73_sub_wrong (F := b32) (by decide) (by decide) (x := 0x41000000) (y := 0xbf800000) (by norm_num) (by norm_num)
    (a := 8) (b := -1) (by rw [b32_dec]; norm_num) (by rw [b32_dec]; norm_num) n1 n2 (B := 0) (E := 2) (by norm_num [InBinade])
    (by norm_num) (by norm_num) (by norm_num) n3.1 (by norm_num [InBinade]) (by norm_num) (by rw [b32_emin]; norm_num)
  refine ⟨r, h1, ?_, h3⟩
  rw [h2]; norm_num

end Verif.FpHw
