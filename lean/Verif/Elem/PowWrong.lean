import Verif.Elem.PowThms
import Verif.Elem.SqrtWrong

/-! # Where the generated `pow` is wrong (property C89) -/

namespace Verif.Elem

open Verif.Float (Fmt Val)
open Verif.Check

/-- C89, refuted for the null bases.  Every format: the power `-inf` of a zero is `-inf` (the standard: `+inf`), its power `+inf` is `+inf` (the standard: `+0`). -/
theorem C89_pow_zero_inf_wrong (F : Fmt) (L P : Val → Val) (cv : Val → ℤ) (nm x : Val) (hx : Special.IsZero x) (hd : F.Datum x) :
    powModel F L P cv nm x .minusInf = some .minusInf ∧ powModel F L P cv nm x .plusInf = some .plusInf ∧
      ¬ PowSpecial x .minusInf (powModel F L P cv nm x .minusInf) ∧ ¬ PowSpecial x .plusInf (powModel F L P cv nm x .plusInf) := by
  have a0 : x = .plusZero ∨ x = .minusZero := by
    cases x <;> simp [Special.IsZero, Special.finVal] at hx <;> simp
    exact hd.2 hx
  have ho : ∀ y, Special.IsInf y → yIsOdd F cv y = false := by
    intro y hy
    have key : flt (fabs y) (cst F ((2 : ℝ) ^ (F.f + 2))) = false := by
      have : fabs y = .plusInf := by cases y <;> simp [Special.IsInf] at hy <;> rfl
      rw [this]
      unfold flt; cases cst F ((2 : ℝ) ^ (F.f + 2)) <;> rfl
    unfold yIsOdd
    rw [key]; rfl
  have h1 : powModel F L P cv nm x .minusInf = some .minusInf := by
    rcases a0 with rfl | rfl <;> simp [powModel, powCases, ho .minusInf (by simp [Special.IsInf]), isZero]
  have h2 : powModel F L P cv nm x .plusInf = some .plusInf := by
    rcases a0 with rfl | rfl <;> simp [powModel, powCases, ho .plusInf (by simp [Special.IsInf]), isZero]
  refine ⟨h1, h2, ?_, ?_⟩
  · intro h
    have := h.zeroMinusInf hx rfl
    rw [h1] at this; simp at this
  · intro h
    have := h.zeroPlusInf hx rfl
    rw [h2] at this; simp at this

example : Special.IsZero Val.minusZero ∧ Float.Fmt.Datum ⟨8, 23⟩ .minusZero := ⟨by simp [Special.IsZero, Special.finVal], trivial⟩

/-- C89, refuted for the negative odd exponents (the remainder of C has the sign of the dividend, the test compares it to `1`): for EVERY one the power of `-0` is `+inf` (the
standard: `-inf`), that of `-inf` is `+0` (the standard: `-0`). -/
theorem C89_pow_negative_odd_wrong (F : Fmt) (h1 : 10 ≤ F.f) (h2 : F.e ≤ F.f) (h3 : (F.f : ℤ) + 2 ≤ F.emax) (L P : Val → Val) (cv : Val → ℤ) (nm y : Val)
    (hy : F.Datum y) (ho : OddInt y) (hn : Special.neg y = true) :
    powModel F L P cv nm .minusZero y = some .plusInf ∧ powModel F L P cv nm .minusInf y = some .plusZero ∧
      ¬ PowSpecial .minusZero y (powModel F L P cv nm .minusZero y) ∧ ¬ PowSpecial .minusInf y (powModel F L P cv nm .minusInf y) := by
  have hF : Wide F := ⟨h1, h2, by omega⟩
  have hodd := yIsOdd_iff hF h3 cv hy
  have hoF : yIsOdd F cv y = false := by
    rcases hb : yIsOdd F cv y with _ | _
    · rfl
    · have := (hodd.1 hb).2; rw [hn] at this; exact absurd this (by simp)
  obtain ⟨w, rfl, hw⟩ : ∃ w, y = .num w ∧ w < 0 := by
    cases y <;> simp [OddInt, Special.finVal, Special.neg] at ho hn
    · obtain ⟨k, hk⟩ := ho
      exfalso
      have : (0 : ℤ) = 2 * k + 1 := by have : (0 : ℚ) = ((2 * k + 1 : ℤ) : ℚ) := by push_cast; exact hk
                                       exact_mod_cast this
      omega
    · exact ⟨_, rfl, hn⟩
  have l1 : flt (.num w) .plusZero = true := by
    have a : cLe (.num w) .plusZero = true := by show decide (w ≤ 0) = true; simp [hw.le]
    have b : cLe .plusZero (.num w) = false := by show decide (0 ≤ w) = false; simp [hw]
    simp [flt, a, b]
  have l2 : fgt (.num w) .plusZero = false := by
    have b : cLe .plusZero (.num w) = false := by show decide (0 ≤ w) = false; simp [hw]
    simp [fgt, flt, b]
  have c1 : cEq Val.minusZero (.num (-1)) = false := by
    have : cLe Val.minusZero (.num (-1)) = false := by show decide ((0 : ℚ) ≤ -1) = false; norm_num
    simp [cEq, this]
  have c2 : cEq Val.minusInf (.num (-1)) = false := by simp [cEq, cLe]
  have r1 : powModel F L P cv nm .minusZero (.num w) = some .plusInf := by
    simp [powModel, powCases, isZero, hw.ne, hoF, c1, isInf, l1, l2]
  have r2 : powModel F L P cv nm .minusInf (.num w) = some .plusZero := by
    simp [powModel, powCases, isZero, hw.ne, hoF, c2, isInf, l1, l2]
  refine ⟨r1, r2, ?_, ?_⟩
  · intro h
    have := h.zeroOddNeg (by simp [Special.IsZero, Special.finVal]) ho hn
    rw [r1] at this; simp [Special.neg] at this
  · intro h
    have := h.minusInfOddNeg rfl ho hn
    rw [r2] at this; simp at this

example : OddInt (.num (-3)) ∧ Special.neg (.num (-3)) = true := ⟨⟨-2, by norm_num [Special.finVal]⟩, by norm_num [Special.neg]⟩

theorem powCases_num (F : Fmt) (cv : Val → ℤ) {v w : ℚ} (h0 : v ≠ 0) (h1 : w ≠ 0) : powCases F cv (.num v) (.num w) = none := by
  simp [powCases, isZero, isInf, h0, h1]

/-- C89, refuted for the negative bases: the sign of a finite base is lost.  EVERY non-null base and exponent of every format: the power of `-v` is that of `v` (the standard: the
opposite if the exponent is odd, a NaN if it is not an integer). -/
theorem C89_pow_sign_wrong (F : Fmt) (L P : Val → Val) (cv : Val → ℤ) (nm : Val) (v w : ℚ) (h0 : v ≠ 0) (h1 : w ≠ 0) :
    powModel F L P cv nm (.num (-v)) (.num w) = powModel F L P cv nm (.num v) (.num w) := by
  have hc : ∀ u : ℚ, u ≠ 0 → cEq (.num u) .plusZero = false := by
    intro u hu
    have a : cLe (.num u) .plusZero = decide (u ≤ 0) := rfl
    have b : cLe .plusZero (.num u) = decide (0 ≤ u) := rfl
    rw [cEq, a, b]
    by_contra hcon
    simp at hcon
    exact hu (le_antisymm hcon.1 hcon.2)
  have e1 : expoOf F (.num (-v)) = expoOf F (.num v) := by simp [expoOf]
  have e2 : mantOf F nm (.num (-v)) = mantOf F nm (.num v) := by simp [mantOf]
  have e3 : logApprox F L nm (.num (-v)) = logApprox F L nm (.num v) := by
    simp [logApprox, hc v h0, hc (-v) (neg_ne_zero.2 h0), e2]
  unfold powModel
  rw [powCases_num F cv h0 h1, powCases_num F cv (neg_ne_zero.2 h0) h1]
  simp only [powNum, e1, e3]

/-- so a positive base and its opposite cannot both have the right power: the standard wants a NaN for the opposite when the exponent is not an integer -/
theorem C89_pow_invalid_wrong (F : Fmt) (L P : Val → Val) (cv : Val → ℤ) (nm : Val) (v w : ℚ) (h0 : 0 < v) (h1 : w ≠ 0) (hi : ¬ IsInteger (.num w))
    (hb : ∃ b x, powModel F L P cv nm (.num v) (.num w) = some b ∧ IsReal F b x) : ¬ PowSpecial (.num (-v)) (.num w) (powModel F L P cv nm (.num (-v)) (.num w)) := by
  intro h
  have := h.invalid (-v) w rfl (by linarith) rfl hi
  rw [C89_pow_sign_wrong F L P cv nm v w h0.ne' h1] at this
  obtain ⟨b, x, hb, hx⟩ := hb
  rw [this] at hb
  have hq : Val.qNaN = b := by simpa using hb
  rw [← hq] at hx
  have := (isReal_rv.1 hx).1.2.1
  simp [isNaN] at this

/-- C89, refuted for the base `1`: its test is a constant, the power of `1` by a NaN is a NaN (the standard: `1`), if the undefined conversion of a NaN is not out of the table -/
theorem C89_pow_one_nan_wrong (F : Fmt) (L P : Val → Val) (cv : Val → ℤ) (nm : Val) (h : cv .qNaN ≤ 8) (hP : P .qNaN = .qNaN) (he : 2 ≤ F.e) :
    powModel F L P cv nm (.num 1) .qNaN = some .qNaN ∧ ¬ PowSpecial (.num 1) .qNaN (powModel F L P cv nm (.num 1) .qNaN) := by
  have hm := emax_pos he
  have h1 : powModel F L P cv nm (.num 1) .qNaN = some .qNaN := by
    have hlt : ∀ a, flt a Val.qNaN = false ∧ flt Val.qNaN a = false := fun a => by cases a <;> exact ⟨rfl, rfl⟩
    have hc : powCases F cv (.num 1) .qNaN = none := by simp [powCases, isZero, isInf]
    have he1 : expoOf F (.num 1) = 0 := by
      have : ¬ (|(1 : ℚ)| < (2 : ℚ) ^ F.emin) := by
        rw [abs_one, not_lt]
        have := Float.zle (show F.emin ≤ 0 by unfold Fmt.emin; omega)
        rwa [zpow_zero] at this
      simp only [expoOf]
      rw [if_neg this]; simp
    unfold powModel
    rw [hc]
    have hm1 : ∀ a, fmul F a .qNaN = .qNaN := fun a => by simp [fmul, isNaN]
    have hm2 : ∀ a, fmul F .qNaN a = .qNaN := fun a => by simp [fmul, isNaN]
    have hn : fnearest .qNaN = .qNaN := by simp [fnearest, isNaN]
    have hs : fsub F .qNaN .qNaN = .qNaN := by simp [fsub, fadd, fneg, isNaN]
    simp only [powNum, he1, hm1, hn, Option.orElse, if_false, lt_irrefl, hs, C88_exp2_nan F P cv h .qNaN (Or.inl rfl) hP, Option.bind, Option.map]
  refine ⟨h1, fun h => ?_⟩
  have := h.one rfl (by simp)
  rw [h1] at this; simp at this

/-! ## The powers of `2` -/

/-- a product by `1` is exact -/
theorem fmul_one {F : Fmt} (he : 2 ≤ F.e) {b : Val} (hb : F.Datum b) (hn : isNaN b = false) : fmul F (.num 1) b = b ∧ fmul F b (.num 1) = b := by
  have s1 : sgn (.num 1) = false := by simp [sgn, Special.neg]
  cases b with
  | plusInf => simp [fmul, isNaN, isInf, isZero, s1, sgn, Special.neg, infS]
  | minusInf => simp [fmul, isNaN, isInf, isZero, s1, sgn, Special.neg, infS]
  | plusZero => simp [fmul, isNaN, isInf, s1, sgn, Special.neg, numOf, rnd, zeroS]
  | minusZero => simp [fmul, isNaN, isInf, s1, sgn, Special.neg, numOf, rnd, zeroS]
  | qNaN => simp [isNaN] at hn
  | sNaN => simp [isNaN] at hn
  | num v =>
    obtain ⟨hf, h0⟩ := hb
    unfold fmul
    simp only [isNaN, isInf, Bool.or_self, Bool.false_eq_true, if_false, numOf, one_mul, mul_one]
    exact ⟨rnd_exact he _ hf h0, rnd_exact he _ hf h0⟩

/-- the exponent insertion: the bias wraps around -/
theorem insExp_wrap {F : Fmt} {k j : ℤ} (h : (2 : ℤ) ^ F.e ∣ k - j) : insExp F k = insExp F j := by
  unfold insExp
  have : (k + F.emax) % 2 ^ F.e = (j + F.emax) % 2 ^ F.e := (Int.emod_eq_emod_iff_emod_sub_eq_zero.2 (Int.emod_eq_zero_of_dvd (by rw [show k + F.emax - (j + F.emax) = k - j by ring]; exact h)))
  rw [this]

theorem insExp_zero {F : Fmt} (he : 2 ≤ F.e) : insExp F (-F.emax) = .plusZero := by
  have hb : (2 : ℕ) ^ 2 ≤ 2 ^ F.e := Nat.pow_le_pow_right (by norm_num) he
  unfold insExp Fmt.decode
  have : ¬ (0 = 2 ^ F.e - 1) := by omega
  simp [this]

theorem insExp_inf {F : Fmt} (he : 2 ≤ F.e) : insExp F (F.emax + 1) = .plusInf := by
  have hb : (2 : ℤ) * 2 ^ (F.e - 1) = 2 ^ F.e := by rw [← pow_succ']; congr 1; omega
  have hemax : F.emax = 2 ^ (F.e - 1) - 1 := rfl
  have hp : (2 : ℕ) ^ 2 ≤ 2 ^ F.e := Nat.pow_le_pow_right (by norm_num) he
  have hpZ : (4 : ℤ) ≤ 2 ^ F.e := by exact_mod_cast hp
  have hv : ((F.emax + 1 + F.emax) % 2 ^ F.e).toNat = 2 ^ F.e - 1 := by
    rw [Int.emod_eq_of_lt (by omega) (by omega)]
    have : F.emax + 1 + F.emax = ((2 ^ F.e - 1 : ℕ) : ℤ) := by
      rw [Nat.cast_sub (by omega)]; push_cast; omega
    rw [this, Int.toNat_natCast]
  have hpf := Nat.two_pow_pos F.f
  unfold insExp
  rw [hv]
  unfold Fmt.decode
  have d1 : (2 ^ F.e - 1) * 2 ^ F.f / 2 ^ F.f % 2 ^ F.e = 2 ^ F.e - 1 := by
    rw [Nat.mul_div_cancel _ hpf, Nat.mod_eq_of_lt (by omega)]
  have d2 : (2 ^ F.e - 1) * 2 ^ F.f % 2 ^ F.f = 0 := Nat.mul_mod_left _ _
  have d3 : (2 ^ F.e - 1) * 2 ^ F.f / 2 ^ (F.e + F.f) = 0 := by
    apply Nat.div_eq_of_lt
    rw [pow_add]; exact Nat.mul_lt_mul_of_pos_right (by omega) hpf
  simp only [d1, d2, d3]
  simp

/-- the three kinds of results of the insertion -/
theorem insExp_datum {F : Fmt} (he : 2 ≤ F.e) (k : ℤ) : F.Datum (insExp F k) ∧ isNaN (insExp F k) = false := by
  have hb : (2 : ℤ) * 2 ^ (F.e - 1) = 2 ^ F.e := by rw [← pow_succ']; congr 1; omega
  have hemax : F.emax = 2 ^ (F.e - 1) - 1 := rfl
  have hp : (0 : ℤ) < 2 ^ F.e := by positivity
  have h1 := Int.emod_nonneg (k + F.emax) hp.ne'
  have h2 := Int.emod_lt_of_pos (k + F.emax) hp
  have h3 := Int.emod_add_mul_ediv (k + F.emax) (2 ^ F.e)
  set m := (k + F.emax) % 2 ^ F.e
  have hw : insExp F k = insExp F (m - F.emax) := insExp_wrap ⟨(k + F.emax) / 2 ^ F.e, by omega⟩
  rw [hw]
  rcases eq_or_lt_of_le h1 with h | h
  · rw [← h, zero_sub, insExp_zero he]; exact ⟨trivial, rfl⟩
  · rcases eq_or_lt_of_le (show m ≤ 2 ^ F.e - 1 by omega) with h' | h'
    · rw [show m - F.emax = F.emax + 1 by omega, insExp_inf he]; exact ⟨trivial, rfl⟩
    · have := insExp_fin (F := F) he (k := m - F.emax) (by unfold Fmt.emin; omega) (by omega)
      exact ⟨this.1.1, this.1.2.1⟩

/-- EVERY exponent: the power of `2` is the insertion of the nearest integer, modulo `2^e` -/
theorem pow_two {F : Fmt} (hF : Wide F) (L P : Val → Val) (cv : Val → ℤ) (nm : Val) (hL : IsReal F (L (.num 1)) 0)
    (hP : ∀ a, IsReal F a 0 → IsReal F (P a) 0) {w : ℚ} (hw : F.Datum (.num w)) (hb : |w| ≤ 2 * F.emax - 1) :
    powModel F L P cv nm (.num 2) (.num w) = some (insExp F (nearestZ (.num w))) := by
  have he := hF.e2
  have hm := hF.m
  have hem : F.emin = 1 - F.emax := rfl
  have h0 := hw.2
  have hfw : Fin' F (.num w) := ⟨hw, rfl, rfl⟩
  have hc2 : cEq (.num 2) Val.plusZero = false := by
    have a : cLe (.num 2) .plusZero = false := by show decide ((2 : ℚ) ≤ 0) = false; norm_num
    simp [cEq, a]
  have hab : ¬ (|(2 : ℚ)| < (2 : ℚ) ^ F.emin) := by
    rw [abs_of_pos (by norm_num), not_lt]
    have := Float.zle (show F.emin ≤ 0 by omega)
    rw [zpow_zero] at this; linarith
  have hlog : Int.log 2 |(2 : ℚ)| = 1 := by
    rw [abs_of_pos (by norm_num)]
    have := Int.log_zpow (R := ℚ) (b := 2) (by norm_num) 1
    simpa using this
  have e1 : expoOf F (.num 2) = 1 := by simp only [expoOf]; rw [if_neg hab, hlog]
  have e2 : mantOf F nm (.num 2) = .num 1 := by
    simp only [mantOf]; rw [if_neg hab, hlog]; norm_num
  have e3 : logApprox F L nm (.num 2) = L (.num 1) := by simp [logApprox, hc2, e2]
  have hone : F.Datum (.num 1) := by
    have := (insExp_fin (F := F) he (k := 0) (by omega) (by omega)).1.1
    rw [insExp_eq he (by omega) (by omega)] at this; simpa using this
  have e4 : cst F ((1 : ℤ) : ℝ) = .num 1 := by
    have := rnd_exact he false hone.1 hone.2
    simpa [cst] using this
  -- the nearest integer
  have hnb : |nearestZ (.num w)| ≤ 2 * F.emax - 1 := by
    obtain ⟨b1, b2⟩ := abs_le.1 hb
    rw [abs_le]; unfold nearestZ; simp only [numOf]
    constructor
    · apply le_toInt
      have : ((-(2 * F.emax - 1) : ℚ) : ℝ) ≤ ((w : ℚ) : ℝ) := by exact_mod_cast b1
      push_cast at this ⊢; exact this
    · apply toInt_le
      have : ((w : ℚ) : ℝ) ≤ ((2 * F.emax - 1 : ℚ) : ℝ) := by exact_mod_cast b2
      push_cast at this ⊢; exact this
  have a := hF.emax_le
  have d : (2 : ℤ) ^ (F.f - 1) * 4 = 2 ^ (F.f + 1) := by
    rw [show (4 : ℤ) = 2 ^ 2 by norm_num, ← pow_add]; congr 1; have := hF.f; omega
  obtain ⟨n1, n2⟩ := fnearest_fin he hfw (by omega) (by omega)
  have hbd : (2 : ℤ) ^ (F.f + 1) ≤ 2 ^ (F.e + F.f) := pow_le_pow_right₀ (by norm_num) (by omega)
  have hpp : (0 : ℤ) < 2 ^ (F.f - 1) := by positivity
  have n3 : convC F cv (fnearest (.num w)) = nearestZ (.num w) := convC_fin n1 n2 (by omega)
  have om0 : (0 : ℚ) ≤ Float.omega F := le_trans (Float.zp _).le (omega_ge he)
  -- the two null arguments of `exp2`
  have z1 : IsReal F (fmul F (L (.num 1)) (.num w)) 0 := by
    obtain ⟨l1, l2⟩ := isReal_rv.1 hL
    have l3 : numOf (L (.num 1)) = 0 := by unfold rv at l2; exact_mod_cast l2
    have hr : roundUnb F .RN ((numOf (L (.num 1)) * numOf (.num w) : ℚ) : ℝ) = 0 := by
      rw [l3, zero_mul]; exact_mod_cast ru_exact (F := F) (w := 0) (by have := unb_int (F := F) he (n := 0) (by simp); simpa using this)
    obtain ⟨m1, m2⟩ := fmul_fin he l1 hfw (by rw [hr, abs_zero]; exact om0)
    exact isReal_rv.2 ⟨m1, by unfold rv; rw [m2, hr]; simp⟩
  have z2 : IsReal F (fsub F (fnearest (.num w)) (fnearest (.num w))) 0 := by
    have hr : roundUnb F .RN ((numOf (fnearest (.num w)) - numOf (fnearest (.num w)) : ℚ) : ℝ) = 0 := by
      rw [sub_self]; exact_mod_cast ru_exact (F := F) (w := 0) (by have := unb_int (F := F) he (n := 0) (by simp); simpa using this)
    obtain ⟨m1, m2⟩ := fsub_fin he n1 n1 (by rw [hr, abs_zero]; exact om0)
    exact isReal_rv.2 ⟨m1, by unfold rv; rw [m2, hr]; simp⟩
  have x1 : ∀ a, IsReal F a 0 → exp2Model F P cv a = some (.num 1) := by
    intro a ha
    obtain ⟨b, hb1, hb2⟩ := C88_exp2_integer F hF.f hF.e hF.m P cv hP 0 (by have := hF.f; omega) (by omega) a (by simpa using ha)
    obtain ⟨q1, q2⟩ := isReal_rv.1 hb2
    have q3 : numOf b = 1 := by unfold rv at q2; rw [zpow_zero] at q2; exact_mod_cast q2
    rw [hb1, fin_num_ne q1 (by rw [q3]; norm_num), q3]
  obtain ⟨i1, i2⟩ := insExp_datum (F := F) he (nearestZ (.num w))
  unfold powModel
  rw [powCases_num F cv (by norm_num) h0]
  simp only [Option.orElse]
  simp only [powNum, e1, e3, e4, (fmul_one he hw rfl).1, show ¬ ((1 : ℤ) < 0) by norm_num, if_false, x1 _ z1, x1 _ z2, n3, Option.bind, Option.map,
    (fmul_one he hone rfl).1, (fmul_one he i1 i2).1, (fmul_one he i1 i2).2]

/-- C89, proved part for the powers of `2` (the full claim: the numerical error of every power).  EVERY integer exponent of a normal power: the result is exact, if the approximation
of the logarithm is null in `1` and that of `exp2` in `0`. -/
theorem C89_pow_two_integer_partial (F : Fmt) (h1 : 10 ≤ F.f) (h2 : F.e ≤ F.f) (h3 : (F.f : ℤ) + 1 ≤ F.emax) (L P : Val → Val) (cv : Val → ℤ) (nm : Val)
    (hL : IsReal F (L (.num 1)) 0) (hP : ∀ a, IsReal F a 0 → IsReal F (P a) 0) (n : ℤ) (n0 : n ≠ 0) (n1 : F.emin ≤ n) (n2 : n ≤ F.emax) :
    powModel F L P cv nm (.num 2) (.num n) = some (.num ((2 : ℚ) ^ n)) := by
  have hF : Wide F := ⟨h1, h2, h3⟩
  have he := hF.e2
  have a := hF.emax_le
  have hem : F.emin = 1 - F.emax := rfl
  have d : (2 : ℤ) ^ (F.f - 1) * 4 = 2 ^ (F.f + 1) := by
    rw [show (4 : ℤ) = 2 ^ 2 by norm_num, ← pow_add]; congr 1; omega
  have hb : |n| ≤ 2 * F.emax - 1 := by rw [abs_le]; constructor <;> omega
  have hd := (fin_int (F := F) he (n := n) (by omega) (by omega) n0).1
  rw [pow_two hF L P cv nm hL hP hd (by exact_mod_cast hb), nearestZ_int rfl, insExp_eq he n1 n2]

/-- C89, refuted for the exponents that are not integers: EVERY one at less than `1/2` of an integer `n` has the power `2^n` exactly.  The fraction of the product by the exponent
of the base is the difference of the product and itself. -/
theorem C89_pow_two_fraction_wrong (F : Fmt) (h1 : 10 ≤ F.f) (h2 : F.e ≤ F.f) (h3 : (F.f : ℤ) + 1 ≤ F.emax) (L P : Val → Val) (cv : Val → ℤ) (nm : Val)
    (hL : IsReal F (L (.num 1)) 0) (hP : ∀ a, IsReal F a 0 → IsReal F (P a) 0) (n : ℤ) (n1 : F.emin ≤ n) (n2 : n ≤ F.emax)
    (w : ℚ) (hw : F.Datum (.num w)) (hn : |w - n| < 1 / 2) :
    powModel F L P cv nm (.num 2) (.num w) = some (.num ((2 : ℚ) ^ n)) := by
  have hF : Wide F := ⟨h1, h2, h3⟩
  have he := hF.e2
  have hem : F.emin = 1 - F.emax := rfl
  have hnear : nearestZ (.num w) = n := by
    unfold nearestZ
    apply toInt_eqe
    left
    have : ((|w - n| : ℚ) : ℝ) < ((1 / 2 : ℚ) : ℝ) := by exact_mod_cast hn
    push_cast at this; exact this
  rw [pow_two hF L P cv nm hL hP hw, hnear, insExp_eq he n1 n2]
  obtain ⟨b1, b2⟩ := abs_lt.1 hn
  have c1 : (F.emin : ℚ) ≤ n := by exact_mod_cast n1
  have c2 : (n : ℚ) ≤ F.emax := by exact_mod_cast n2
  have c3 : (F.f : ℚ) + 1 ≤ F.emax := by exact_mod_cast h3
  have c4 : (10 : ℚ) ≤ F.f := by exact_mod_cast h1
  have c5 : (F.emin : ℚ) = 1 - F.emax := by rw [hem]; push_cast; ring
  rw [abs_le]; constructor <;> linarith

/-- C89, refuted for the powers of `2` that are too great or too small: the exponent wraps around.  `2^(emax+2)` is `+0`, `2^(emin-2)` is `+inf`; EVERY exponent `n` below
`2 emax` in absolute value whose residue modulo `2^e` is `j ≠ n`, a normal exponent, has the power `2^j`. -/
theorem C89_pow_two_wrap_wrong (F : Fmt) (h1 : 10 ≤ F.f) (h2 : F.e ≤ F.f) (h3 : (F.f : ℤ) + 1 ≤ F.emax) (L P : Val → Val) (cv : Val → ℤ) (nm : Val)
    (hL : IsReal F (L (.num 1)) 0) (hP : ∀ a, IsReal F a 0 → IsReal F (P a) 0) :
    powModel F L P cv nm (.num 2) (.num ((F.emax + 2 : ℤ) : ℚ)) = some .plusZero ∧
    powModel F L P cv nm (.num 2) (.num ((F.emin - 2 : ℤ) : ℚ)) = some .plusInf ∧
    ∀ n j : ℤ, n ≠ 0 → |n| < 2 * F.emax → (2 : ℤ) ^ F.e ∣ n - j → F.emin ≤ j → j ≤ F.emax →
      powModel F L P cv nm (.num 2) (.num n) = some (.num ((2 : ℚ) ^ j)) := by
  have hF : Wide F := ⟨h1, h2, h3⟩
  have he := hF.e2
  have a := hF.emax_le
  have hem : F.emin = 1 - F.emax := rfl
  have hb2 : (2 : ℤ) * 2 ^ (F.e - 1) = 2 ^ F.e := by rw [← pow_succ']; congr 1; omega
  have hemax : F.emax = 2 ^ (F.e - 1) - 1 := rfl
  have d : (2 : ℤ) ^ (F.f - 1) * 4 = 2 ^ (F.f + 1) := by
    rw [show (4 : ℤ) = 2 ^ 2 by norm_num, ← pow_add]; congr 1; omega
  have main : ∀ n : ℤ, n ≠ 0 → |n| < 2 * F.emax → powModel F L P cv nm (.num 2) (.num n) = some (insExp F n) := by
    intro n n0 hn
    have hd := (fin_int (F := F) he (n := n) (by omega) (by omega) n0).1
    rw [pow_two hF L P cv nm hL hP hd (by have : |n| ≤ 2 * F.emax - 1 := by omega
                                          exact_mod_cast this), nearestZ_int rfl]
  refine ⟨?_, ?_, ?_⟩
  · rw [main _ (by omega) (by rw [abs_lt]; constructor <;> omega), insExp_wrap (j := -F.emax) ⟨1, by omega⟩, insExp_zero he]
  · rw [main _ (by omega) (by rw [abs_lt]; constructor <;> omega), insExp_wrap (j := F.emax + 1) ⟨-1, by omega⟩, insExp_inf he]
  · intro n j n0 hn hd j1 j2
    rw [main n n0 hn, insExp_wrap hd, insExp_eq he j1 j2]

/-- in the single precision: `2^(1/4) = 1`, `2^130 = 2^(-126)`; the hypotheses are met by the null functions -/
example : |(1 / 4 : ℚ) - (0 : ℤ)| < 1 / 2 ∧ (2 : ℤ) ^ 8 ∣ 130 - (-126) ∧ Fmt.emin ⟨8, 23⟩ ≤ -126 ∧
    powModel ⟨8, 23⟩ (fun _ => .plusZero) (fun _ => .plusZero) (fun _ => 0) (.num 1) (.num 2) (.num ((130 : ℤ) : ℚ)) = some (.num ((2 : ℚ) ^ (-126 : ℤ))) := by
  have hz : IsReal ⟨8, 23⟩ .plusZero 0 := ⟨trivial, by simp [value]⟩
  refine ⟨by norm_num [abs_lt], by norm_num, by decide, ?_⟩
  exact (C89_pow_two_wrap_wrong ⟨8, 23⟩ (by decide) (by decide) (by decide) _ _ _ _ hz (fun _ _ => hz)).2.2 130 (-126) (by decide) (by decide) (by decide) (by decide) (by decide)

/-- C89, refuted for a quiet NaN base, whose exponent and mantissa are read as those of a number: EVERY non-null exponent below `2^(-e)` in absolute value gives a finite number (the
standard: a NaN), if the approximation of the logarithm of the mantissa of the NaN is between `-1` and `1` and the one of `exp2` has the precision of `C88_exp2_error_partial`. -/
theorem C89_pow_nan_base_wrong (F : Fmt) (h1 : 10 ≤ F.f) (h2 : F.e ≤ F.f) (h3 : (F.f : ℤ) + 1 ≤ F.emax) (L P : Val → Val) (cv : Val → ℤ) (nm : Val) (l : ℝ)
    (hL : IsReal F (L nm) l) (hl : |l| ≤ 1)
    (hP : ∀ a r, IsReal F a r → |r| ≤ 1 / 16 → ∃ q, IsReal F (P a) q ∧ |q - ((2 : ℝ) ^ r - 1)| ≤ (2 : ℝ) ^ (-(F.f : ℤ) - 3)) (hP0 : ∀ a, IsReal F a 0 → IsReal F (P a) 0)
    (w : ℚ) (hw : F.Datum (.num w)) (hb : |w| ≤ (2 : ℚ) ^ (-(F.e : ℤ))) :
    (∃ b x, powModel F L P cv nm .qNaN (.num w) = some b ∧ IsReal F b x) ∧ ¬ PowSpecial .qNaN (.num w) (powModel F L P cv nm .qNaN (.num w)) := by
  have hF : Wide F := ⟨h1, h2, h3⟩
  have he := hF.e2
  have h5 := hF.e5
  have hem : F.emin = 1 - F.emax := rfl
  have hemax : F.emax = 2 ^ (F.e - 1) - 1 := rfl
  have h0 := hw.2
  have hfw : Fin' F (.num w) := ⟨hw, rfl, rfl⟩
  have om0 : (0 : ℚ) ≤ Float.omega F := le_trans (Float.zp _).le (omega_ge he)
  have hone : F.Datum (.num 1) := by
    have := (insExp_fin (F := F) he (k := 0) (by omega) (by omega)).1.1
    rw [insExp_eq he (by omega) (by omega)] at this; simpa using this
  -- the product of the exponent is at most `1/2`
  obtain ⟨c1, c2⟩ := cst_int2 hF (n := F.emax + 1) (by omega) (by omega)
  have hee : ((F.emax + 1 : ℤ) : ℚ) = (2 : ℚ) ^ ((F.e : ℤ) - 1) := by
    rw [hemax, show (F.e : ℤ) - 1 = ((F.e - 1 : ℕ) : ℤ) by omega, zpow_natCast]; push_cast; ring
  have hpr : |numOf (cst F ((F.emax + 1 : ℤ) : ℝ)) * numOf (.num w)| ≤ (2 : ℚ) ^ (-1 : ℤ) := by
    rw [c2, hee, abs_mul, abs_of_pos (Float.zp _), show (-1 : ℤ) = ((F.e : ℤ) - 1) + (-(F.e : ℤ)) by ring, Float.zadd]
    exact mul_le_mul_of_nonneg_left hb (Float.zp _).le
  have hprR : |((numOf (cst F ((F.emax + 1 : ℤ) : ℝ)) * numOf (.num w) : ℚ) : ℝ)| ≤ (2 : ℝ) ^ (-1 : ℤ) := by rw [r2cast]; exact_mod_cast hpr
  have hru := ru_abs_le (F := F) (k := -1) (by omega) hprR
  obtain ⟨p1, p2⟩ := fmul_fin he c1 hfw (le_trans hru (le_trans (Float.zle (by omega)) (omega_ge he)))
  have hnz : nearestZ (fmul F (cst F ((F.emax + 1 : ℤ) : ℝ)) (.num w)) = 0 := by
    unfold nearestZ
    rw [p2]
    apply toInt_eqe
    have : |((roundUnb F .RN ((numOf (cst F ((F.emax + 1 : ℤ) : ℝ)) * numOf (.num w) : ℚ) : ℝ) : ℚ) : ℝ) - ((0 : ℤ) : ℝ)| ≤ 1 / 2 := by
      have : ((|roundUnb F .RN ((numOf (cst F ((F.emax + 1 : ℤ) : ℝ)) * numOf (.num w) : ℚ) : ℝ)| : ℚ) : ℝ) ≤ (((2 : ℚ) ^ (-1 : ℤ) : ℚ) : ℝ) := by exact_mod_cast hru
      push_cast at this ⊢
      norm_num at this ⊢
      exact this
    rcases lt_or_eq_of_le this with h | h
    · exact Or.inl h
    · exact Or.inr ⟨h, by simp⟩
  obtain ⟨n1, n2⟩ := fnearest_fin he p1 (by rw [hnz]; simp) (by rw [hnz]; simp; omega)
  rw [hnz] at n2
  have n3 : convC F cv (fnearest (fmul F (cst F ((F.emax + 1 : ℤ) : ℝ)) (.num w))) = 0 := convC_fin n1 n2 (by simp)
  set E := fnearest (fmul F (cst F ((F.emax + 1 : ℤ) : ℝ)) (.num w)) with hE
  have z2 : IsReal F (fsub F E E) 0 := by
    have hr : roundUnb F .RN ((numOf E - numOf E : ℚ) : ℝ) = 0 := by
      rw [sub_self]; exact_mod_cast ru_exact (F := F) (w := 0) (by have := unb_int (F := F) he (n := 0) (by simp); simpa using this)
    obtain ⟨m1, m2⟩ := fsub_fin he n1 n1 (by rw [hr, abs_zero]; exact om0)
    exact isReal_rv.2 ⟨m1, by unfold rv; rw [m2, hr]; simp⟩
  have x1 : exp2Model F P cv (fsub F E E) = some (.num 1) := by
    obtain ⟨b, hb1, hb2⟩ := C88_exp2_integer F hF.f hF.e hF.m P cv hP0 0 (by omega) (by omega) _ (by simpa using z2)
    obtain ⟨q1, q2⟩ := isReal_rv.1 hb2
    have q3 : numOf b = 1 := by unfold rv at q2; rw [zpow_zero] at q2; exact_mod_cast q2
    rw [hb1, fin_num_ne q1 (by rw [q3]; norm_num), q3]
  -- the product of the logarithm
  obtain ⟨l1, l2⟩ := isReal_rv.1 hL
  have l3 : |numOf (L nm) * numOf (.num w)| ≤ (2 : ℚ) ^ (-1 : ℤ) := by
    have a1 : |numOf (L nm)| ≤ 1 := by unfold rv at l2; rw [← l2] at hl; exact_mod_cast hl
    have a2 : |w| ≤ (2 : ℚ) ^ (-1 : ℤ) := le_trans hb (Float.zle (by omega))
    rw [abs_mul]
    calc |numOf (L nm)| * |w| ≤ 1 * (2 : ℚ) ^ (-1 : ℤ) := mul_le_mul a1 a2 (abs_nonneg _) (by norm_num)
      _ = _ := one_mul _
  have l4 := ru_abs_le (F := F) (k := -1) (x := ((numOf (L nm) * numOf (.num w) : ℚ) : ℝ)) (by omega) (by rw [r2cast]; exact_mod_cast l3)
  obtain ⟨r1, r2⟩ := fmul_fin he l1 hfw (le_trans l4 (le_trans (Float.zle (by omega)) (omega_ge he)))
  set R := fmul F (L nm) (.num w) with hR
  have r3 : |rv R| ≤ 1 / 2 := by
    unfold rv; rw [r2]
    have : ((|roundUnb F .RN ((numOf (L nm) * numOf (.num w) : ℚ) : ℝ)| : ℚ) : ℝ) ≤ (((2 : ℚ) ^ (-1 : ℤ) : ℚ) : ℝ) := by exact_mod_cast l4
    push_cast at this
    norm_num at this ⊢
    exact this
  obtain ⟨r4, r5⟩ := abs_le.1 r3
  have q1 : (F.f : ℝ) + 1 ≤ F.emax := by exact_mod_cast h3
  have q2 : (10 : ℝ) ≤ F.f := by exact_mod_cast h1
  have q3 : (F.emin : ℝ) = 1 - F.emax := by rw [hem]; push_cast; ring
  obtain ⟨b, x, b1, b2, _⟩ := C88_exp2_error_partial F h1 h2 h3 P cv hP R (rv R) (isReal_rv.2 ⟨r1, rfl⟩) (by linarith) (by linarith)
  have b3 := (isReal_rv.1 b2).1
  have hres : powModel F L P cv nm .qNaN (.num w) = some b := by
    have hc : powCases F cv .qNaN (.num w) = none := by
      simp [powCases, isZero, isInf, h0, cEq, cLe]
    have e1 : expoOf F .qNaN = F.emax + 1 := rfl
    have e3 : logApprox F L nm .qNaN = L nm := by simp [logApprox, cEq, cLe, mantOf]
    have e5 : insExp F 0 = .num 1 := by rw [insExp_eq he (by omega) (by omega)]; simp
    unfold powModel
    rw [hc]
    simp only [Option.orElse]
    simp only [powNum, e1, e3, show ¬ (F.emax + 1 < 0) by omega, if_false, ← hE, ← hR, x1, b1, n3, e5, Option.bind, Option.map, (fmul_one he b3.1 b3.2.1).1, (fmul_one he b3.1 b3.2.1).2]
  refine ⟨⟨b, x, hres, b2⟩, fun h => ?_⟩
  have := h.nanBase rfl (by simp) (by simpa [Special.IsZero, Special.finVal] using h0)
  rw [hres] at this
  have hq : b = .qNaN := by simpa using this
  rw [hq] at b3
  simp [isNaN, Fin'] at b3

example : |(1 / 1024 : ℚ)| ≤ (2 : ℚ) ^ (-((8 : ℕ) : ℤ)) := by norm_num [abs_le]

/-- C89, proved part for the bases of the first binade (the full claim: the error of every power).  EVERY base in `[1, 2)` and every exponent whose product with the approximation `l` of the
logarithm is in the range of the normal powers: the result is a finite number at less than `4` unit roundoffs of `2^z`, where `z` is the product `l w` rounded once. -/
theorem C89_pow_binade_partial (F : Fmt) (h1 : 10 ≤ F.f) (h2 : F.e ≤ F.f) (h3 : (F.f : ℤ) + 1 ≤ F.emax) (L P : Val → Val) (cv : Val → ℤ) (nm : Val)
    (hP : ∀ a r, IsReal F a r → |r| ≤ 1 / 16 → ∃ q, IsReal F (P a) q ∧ |q - ((2 : ℝ) ^ r - 1)| ≤ (2 : ℝ) ^ (-(F.f : ℤ) - 3)) (hP0 : ∀ a, IsReal F a 0 → IsReal F (P a) 0)
    (v w : ℚ) (v1 : 1 ≤ v) (v2 : v < 2) (hw : F.Datum (.num w)) (l : ℝ) (hL : IsReal F (L (.num v)) l) (hlo : (F.emin : ℝ) ≤ l * w) (hhi : l * w ≤ F.emax) :
    ∃ b y z, powModel F L P cv nm (.num v) (.num w) = some b ∧ IsReal F b y ∧
      |z - l * w| ≤ (2 : ℝ) ^ (-(F.f : ℤ) - 1) * |l * w| + (2 : ℝ) ^ (F.emin - F.f - 1) ∧
      |y - (2 : ℝ) ^ z| ≤ (2 : ℝ) ^ (1 - (F.f : ℤ)) * max ((2 : ℝ) ^ z) ((2 : ℝ) ^ F.emin) := by
  have hF : Wide F := ⟨h1, h2, h3⟩
  have he := hF.e2
  have hem : F.emin = 1 - F.emax := rfl
  have h0 := hw.2
  have hv0 : v ≠ 0 := by linarith
  have hfw : Fin' F (.num w) := ⟨hw, rfl, rfl⟩
  have om0 : (0 : ℚ) ≤ Float.omega F := le_trans (Float.zp _).le (omega_ge he)
  have hone : F.Datum (.num 1) := by
    have := (insExp_fin (F := F) he (k := 0) (by omega) (by omega)).1.1
    rw [insExp_eq he (by omega) (by omega)] at this; simpa using this
  have hab : ¬ (|v| < (2 : ℚ) ^ F.emin) := by
    rw [abs_of_pos (by linarith), not_lt]
    have := Float.zle (show F.emin ≤ 0 by omega)
    rw [zpow_zero] at this; linarith
  have hlog : Int.log 2 |v| = 0 := by
    rw [abs_of_pos (by linarith), Int.log_of_one_le_right 2 v1]
    have : ⌊v⌋₊ = 1 := by rw [Nat.floor_eq_iff (by linarith)]; constructor <;> norm_num <;> linarith
    rw [this]; simp
  have hvc : cEq (.num v) Val.plusZero = false := by
    have a : cLe (.num v) .plusZero = false := by show decide (v ≤ 0) = false; rw [decide_eq_false_iff_not]; linarith
    simp [cEq, a]
  have e1 : expoOf F (.num v) = 0 := by simp only [expoOf]; rw [if_neg hab, hlog]
  have e2 : mantOf F nm (.num v) = .num v := by simp only [mantOf]; rw [if_neg hab, hlog]; simp [abs_of_pos (show 0 < v by linarith)]
  have e3 : logApprox F L nm (.num v) = L (.num v) := by simp [logApprox, hvc, e2]
  have e4 : cst F ((0 : ℤ) : ℝ) = .plusZero := by simp [cst, rnd, zeroS]
  obtain ⟨s, e6⟩ : ∃ s, fnearest (fmul F .plusZero (.num w)) = zeroS s := by
    have : ∃ s, fmul F .plusZero (.num w) = zeroS s := by
      refine ⟨xor (sgn .plusZero) (sgn (.num w)), ?_⟩
      unfold fmul
      simp [isNaN, isInf, numOf, rnd]
    obtain ⟨s, hs⟩ := this
    refine ⟨s, ?_⟩
    rw [hs]
    have hn : nearestZ (zeroS s) = 0 := nearestZ_int (by rw [numOf_zeroS]; simp)
    unfold fnearest
    rw [hn]
    cases s <;> simp [zeroS, isNaN, isInf, sgn, Special.neg]
  set E := zeroS s with hE
  have n1 : Fin' F E := fin_zeroS F s
  have n2 : numOf E = 0 := numOf_zeroS s
  have n3 : convC F cv E = 0 := convC_fin n1 (by rw [n2]; simp) (by simp)
  have z2 : IsReal F (fsub F E E) 0 := by
    have hr : roundUnb F .RN ((numOf E - numOf E : ℚ) : ℝ) = 0 := by
      rw [sub_self]; exact_mod_cast ru_exact (F := F) (w := 0) (by have := unb_int (F := F) he (n := 0) (by simp); simpa using this)
    obtain ⟨m1, m2⟩ := fsub_fin he n1 n1 (by rw [hr, abs_zero]; exact om0)
    exact isReal_rv.2 ⟨m1, by unfold rv; rw [m2, hr]; simp⟩
  have x1 : exp2Model F P cv (fsub F E E) = some (.num 1) := by
    obtain ⟨b, hb1, hb2⟩ := C88_exp2_integer F hF.f hF.e hF.m P cv hP0 0 (by omega) (by omega) _ (by simpa using z2)
    obtain ⟨q1, q2⟩ := isReal_rv.1 hb2
    have q3 : numOf b = 1 := by unfold rv at q2; rw [zpow_zero] at q2; exact_mod_cast q2
    rw [hb1, fin_num_ne q1 (by rw [q3]; norm_num), q3]
  -- the product of the logarithm
  obtain ⟨l1, l2⟩ := isReal_rv.1 hL
  have hlw : rv (L (.num v)) * rv (.num w) = l * w := by rw [l2]; rfl
  have hee : (F.emax : ℝ) ≤ (2 : ℝ) ^ F.emax := by
    obtain ⟨k, hk⟩ := Int.eq_ofNat_of_zero_le (by omega : 0 ≤ F.emax)
    rw [hk, zpow_natCast]
    have : k < 2 ^ k := Nat.lt_two_pow_self
    have : (k : ℝ) < (2 : ℝ) ^ k := by exact_mod_cast this
    push_cast; linarith
  have q3 : (F.emin : ℝ) = 1 - F.emax := by rw [hem]; push_cast; ring
  obtain ⟨r1, r2⟩ := fmul_val he l1 hfw (by rw [hlw, abs_le]; constructor <;> linarith)
  rw [hlw] at r2
  set R := fmul F (L (.num v)) (.num w) with hR
  have q1 : (F.f : ℝ) + 1 ≤ F.emax := by exact_mod_cast h3
  have q2 : (10 : ℝ) ≤ F.f := by exact_mod_cast h1
  -- the rounding of the product stays in the range
  have umin : Unbounded F ((F.emin : ℤ) : ℚ) := by
    have := cst_int2 hF (n := F.emin) (by omega) (by omega)
    have a := (fin_unb he this.1).1
    rwa [this.2] at a
  have umax : Unbounded F ((F.emax : ℤ) : ℚ) := by
    have := cst_int2 hF (n := F.emax) (by omega) (by omega)
    have a := (fin_unb he this.1).1
    rwa [this.2] at a
  have r4 : (F.emin : ℝ) ≤ rv R := by rw [r2]; have := ru_between_ge (F := F) (x := l * w) umin (by push_cast; exact hlo); push_cast at this; exact this
  have r5 : rv R ≤ F.emax := by rw [r2]; have := ru_between_le (F := F) (x := l * w) umax (by push_cast; exact hhi); push_cast at this; exact this
  obtain ⟨b, x, b1, b2, b4⟩ := C88_exp2_error_partial F h1 h2 h3 P cv hP R (rv R) (isReal_rv.2 ⟨r1, rfl⟩) (by linarith) (by linarith)
  have b3 := (isReal_rv.1 b2).1
  refine ⟨b, x, rv R, ?_, b2, ?_, b4⟩
  · have e5 : insExp F 0 = .num 1 := by rw [insExp_eq he (by omega) (by omega)]; simp
    unfold powModel
    rw [powCases_num F cv hv0 h0]
    simp only [Option.orElse]
    simp only [powNum, e1, e3, e4, e6, lt_irrefl, if_false, ← hR, x1, b1, n3, e5, Option.bind, Option.map, (fmul_one he b3.1 b3.2.1).1, (fmul_one he b3.1 b3.2.1).2]
  · rw [r2]
    have hu := (uu_pos F).le
    have hp : 0 < ee F := zpow_pos (by norm_num) _
    rcases ru_rel F (l * w) with h | h
    · refine le_trans h ?_
      have : 0 < (2 : ℝ) ^ (F.emin - F.f - 1) := zpow_pos (by norm_num) _
      unfold uu; linarith
    · refine le_trans h ?_
      have : 0 ≤ (2 : ℝ) ^ (-(F.f : ℤ) - 1) * |l * w| := mul_nonneg (zpow_pos (by norm_num) _).le (abs_nonneg _)
      unfold ee; linarith

example : (1 : ℚ) ≤ 3 / 2 ∧ (3 / 2 : ℚ) < 2 ∧ ((Fmt.emin ⟨8, 23⟩ : ℤ) : ℝ) ≤ 1 / 2 * ((3 : ℚ) : ℝ) := by
  refine ⟨by norm_num, by norm_num, ?_⟩
  have : Fmt.emin ⟨8, 23⟩ = -126 := by decide
  rw [this]; norm_num

end Verif.Elem
