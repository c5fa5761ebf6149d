import Verif.Hyper.Spec
import Verif.Hyper.Model
import Verif.Elem.Exp2
import Verif.Elem.PowWrong

/-! # C111: the special values and the symmetries of `cosh`, `sinh`, `erf`, `expm1` and `log1p` -/

namespace Verif.Hyper

open Verif.Float (Fmt Val)
open Verif.Elem
open Verif.Check (numOf roundUnb cLe cEq lastPlace toInt toInt_near finite_iff unb_zero)
open Verif.Special (IsNaN IsZero IsInf)
open Verif.Rem (ftrunc truncQ)

theorem fneg_opp (a : Val) : fneg a = opp a := by cases a <;> rfl

theorem fabs_opp (x : Val) : fabs (opp x) = fabs x := by
  cases x <;> simp only [opp, fabs, sgn, Special.neg, fneg, Bool.false_eq_true, if_false, if_true, decide_eq_true_eq]
  rename_i v
  rcases lt_trichotomy v 0 with h | h | h
  · rw [if_neg (by linarith), if_pos h]
  · subst h; simp
  · rw [if_pos (by linarith), if_neg (by linarith), neg_neg]

theorem rnd_opp {F : Fmt} (s : Bool) (x : ℝ) : rnd F (!s) (-x) = opp (rnd F s x) := by
  have hz : ∀ b, zeroS (!b) = opp (zeroS b) := by decide
  have hi : ∀ b, infS (!b) = opp (infS b) := by decide
  unfold rnd
  by_cases hx : x = 0
  · simp [hx, hz]
  have hn : -x ≠ 0 := neg_ne_zero.2 hx
  have hd : decide (-x < 0) = !decide (x < 0) := by
    rcases lt_or_gt_of_ne hx with h | h
    · simp [h, h.le]
    · simp [h, h.le]
  rw [if_neg hx, if_neg hn, ru_neg, hd, abs_neg]
  simp only [neg_eq_zero]
  split_ifs
  · exact hz _
  · rfl
  · exact hi _

theorem fmul_mone (F : Fmt) (r : Val) : fmul F (.num (-1)) r = opp (fmul F (.num 1) r) := by
  have h1 : sgn (.num (-1)) = true := by simp [sgn, Special.neg]
  have h2 : sgn (.num 1) = false := by simp [sgn, Special.neg]
  have a1 : ∀ q, isNaN (.num q) = false := fun _ => rfl
  have a2 : ∀ q, isInf (.num q) = false := fun _ => rfl
  have z1 : isZero (.num (-1)) = false := by simp [isZero]
  have z2 : isZero (.num 1) = false := by simp [isZero]
  have n1 : ∀ q, Check.numOf (.num q) = q := fun _ => rfl
  unfold fmul
  rw [h1, h2, a1, a1, a2, a2, z1, z2, n1, n1]
  by_cases hn : isNaN r = true
  · rw [hn]; rfl
  rw [Bool.eq_false_iff.2 hn]
  by_cases hi : isInf r = true
  · have : isZero r = false := by cases r <;> first | rfl | exact absurd hi (by decide) | exact absurd hi (by simp [isInf])
    rw [hi, this]
    cases sgn r <;> rfl
  · rw [Bool.eq_false_iff.2 hi]
    simp only [Bool.or_self, Bool.false_eq_true, if_false]
    rw [show (((-1 : ℚ) * Check.numOf r : ℚ) : ℝ) = -((1 * Check.numOf r : ℚ) : ℝ) by push_cast; ring, ← rnd_opp]
    cases sgn r <;> rfl

/-- the sign of a number which is neither null nor a NaN -/
theorem flt_opp {x : Val} (h0 : ¬ IsZero x) (hn : ¬ IsNaN x) : flt (opp x) .plusZero = !flt x .plusZero := by
  cases x with
  | qNaN => exact absurd trivial hn
  | sNaN => exact absurd trivial hn
  | plusInf => rfl
  | minusInf => rfl
  | plusZero => exact absurd rfl h0
  | minusZero => exact absurd rfl h0
  | num v =>
    have hv : v ≠ 0 := fun h => h0 (by simp [IsZero, Special.finVal, h])
    rcases lt_or_gt_of_ne hv with h | h
    · simp [opp, flt, cLe, numOf, h, h.le, not_le.2 h]
    · simp [opp, flt, cLe, numOf, h, h.le, not_le.2 h]

theorem sign_opp (F : Fmt) {x : Val} (h0 : ¬ IsZero x) (hn : ¬ IsNaN x) (r : Val) :
    fmul F (if flt (opp x) .plusZero then .num (-1) else .num 1) r = opp (fmul F (if flt x .plusZero then .num (-1) else .num 1) r) := by
  rw [flt_opp h0 hn]
  have : ∀ a, opp (opp a) = a := by intro a; cases a <;> simp [opp]
  cases flt x .plusZero
  · simpa using fmul_mone F r
  · simp only [Bool.not_true, Bool.false_eq_true, if_false, if_true]
    rw [fmul_mone, this]

/-- **C111**: the generated hyperbolic cosine is even, bit for bit. -/
theorem C111_cosh_even (F : Fmt) (C : Consts) (P : Val → Val) (cv : Val → ℤ) (x : Val) : cosh F C P cv (opp x) = cosh F C P cv x := by
  unfold cosh
  rw [fabs_opp]

/-- **C111**: the generated hyperbolic sine is odd, bit for bit, but at zero. -/
theorem C111_sinh_odd (F : Fmt) (C : Consts) (P : Val → Val) (cv : Val → ℤ) {x : Val} (h0 : ¬ IsZero x) (hn : ¬ IsNaN x) :
    sinh F C P cv (opp x) = opp (sinh F C P cv x) := by
  unfold sinh
  rw [fabs_opp]
  dsimp only
  by_cases c : fgt (fabs x) C.ov = true
  · rw [if_pos c, if_pos c]; exact sign_opp F h0 hn _
  · rw [if_neg c, if_neg c]; exact sign_opp F h0 hn _

/-- **C111**: the generated error function is odd, bit for bit, but at zero. -/
theorem C111_erf_odd (F : Fmt) (eps b1 b2 : Val) (Q N M : Val → Val) {x : Val} (h0 : ¬ IsZero x) (hn : ¬ IsNaN x) :
    erf F eps b1 b2 Q N M (opp x) = opp (erf F eps b1 b2 Q N M x) := by
  unfold erf
  rw [fabs_opp]
  dsimp only
  by_cases c1 : flt (fabs x) eps = true
  · rw [if_pos c1, if_pos c1]; exact sign_opp F h0 hn _
  rw [if_neg c1, if_neg c1]
  by_cases c2 : flt (fabs x) b1 = true
  · rw [if_pos c2, if_pos c2]; exact sign_opp F h0 hn _
  rw [if_neg c2, if_neg c2]
  by_cases c3 : flt (fabs x) b2 = true
  · rw [if_pos c3, if_pos c3]; exact sign_opp F h0 hn _
  rw [if_neg c3, if_neg c3, flt_opp h0 hn]
  cases flt x .plusZero <;> simp [opp]

/-- what the generated constants are, as far as the special values are concerned: the bounds of overflow are positive numbers, the entries of the table for zero are those of `2^0`, the
constants of the reduction are numbers and the polynomial, which has no constant term, is null at zero and propagates the NaNs -/
structure Consts.Ok (F : Fmt) (C : Consts) (P : Val → Val) : Prop where
  ov : ∃ v, 0 < v ∧ C.ov = .num v
  inv : Fin' F C.invLog2
  hi : Fin' F C.hi
  lo : Fin' F C.lo
  posHi : C.posHi 0 = .num 1
  negHi : C.negHi 0 = .num 1
  posLo : C.posLo 0 = .plusZero
  negLo : C.negLo 0 = .plusZero
  zero : ∀ s, ∃ t, P (zeroS s) = zeroS t
  nan : ∀ a, isNaN a = true → isNaN (P a) = true

theorem fmul_nan_l {F : Fmt} {a : Val} (h : isNaN a = true) (b : Val) : fmul F a b = .qNaN := by simp [fmul, h]
theorem fmul_nan_r {F : Fmt} {b : Val} (h : isNaN b = true) (a : Val) : fmul F a b = .qNaN := by simp [fmul, h]
theorem fadd_nan_l {F : Fmt} {a : Val} (h : isNaN a = true) (b : Val) : fadd F a b = .qNaN := by simp [fadd, h]
theorem fadd_nan_r {F : Fmt} {b : Val} (h : isNaN b = true) (a : Val) : fadd F a b = .qNaN := by simp [fadd, h]

theorem terms_nan {F : Fmt} {C : Consts} {P : Val → Val} (h : C.Ok F P) (cv : Val → ℤ) {a : Val} (ha : isNaN a = true) : (terms F C P cv a).1 = .qNaN := by
  have h1 : redOf F C a = .qNaN := by
    unfold redOf fsub
    rw [fadd_nan_l ha]; exact fadd_nan_l rfl _
  unfold terms
  dsimp only
  rw [h1, fmul_nan_r (h.nan _ rfl), fadd_nan_l rfl, fmul_nan_l rfl]

theorem zero_fmul {F : Fmt} {a : Val} (ha : Fin' F a) (s : Bool) : ∃ t, fmul F (zeroS s) a = zeroS t := by
  refine ⟨xor (sgn (zeroS s)) (sgn a), ?_⟩
  unfold fmul
  have : isNaN (zeroS s) = false ∧ isInf (zeroS s) = false ∧ numOf (zeroS s) = 0 := by cases s <;> exact ⟨rfl, rfl, rfl⟩
  simp only [this.1, this.2.1, this.2.2, ha.2.1, ha.2.2, Bool.or_self, Bool.false_eq_true, if_false, zero_mul, Rat.cast_zero, rnd_zero]

theorem fmul_zero' {F : Fmt} {a : Val} (ha : Fin' F a) (s : Bool) : ∃ t, fmul F a (zeroS s) = zeroS t := by
  refine ⟨xor (sgn a) (sgn (zeroS s)), ?_⟩
  unfold fmul
  have : isNaN (zeroS s) = false ∧ isInf (zeroS s) = false ∧ numOf (zeroS s) = 0 := by cases s <;> exact ⟨rfl, rfl, rfl⟩
  simp only [this.1, this.2.1, this.2.2, ha.2.1, ha.2.2, Bool.or_self, Bool.false_eq_true, if_false, mul_zero, Rat.cast_zero, rnd_zero]

theorem zero_add_zero {F : Fmt} (s t : Bool) : fadd F (zeroS s) (zeroS t) = zeroS (s && t) := by
  unfold fadd
  cases s <;> cases t <;> simp [zeroS, isNaN, isInf, numOf, sgn, Special.neg, rnd_zero]

theorem zeroS_fneg (s : Bool) : fneg (zeroS s) = zeroS (!s) := by cases s <;> rfl

theorem kOf_zero {F : Fmt} {C : Consts} {P : Val → Val} (h : C.Ok F P) : ∃ t, kOf F C .plusZero = zeroS t := by
  obtain ⟨t, ht⟩ := fmul_zero' h.inv false
  refine ⟨t, ?_⟩
  unfold kOf
  rw [show Val.plusZero = zeroS false from rfl, ht]
  cases t <;> simp [ftrunc, zeroS, isNaN, isInf, numOf, truncQ, sgn, Special.neg]

/-- the reduced argument of zero -/
theorem red_zero {F : Fmt} {C : Consts} {P : Val → Val} (h : C.Ok F P) : ∃ t, redOf F C .plusZero = zeroS t := by
  obtain ⟨t, ht⟩ := kOf_zero h
  obtain ⟨a, ha⟩ := zero_fmul h.hi t
  obtain ⟨b, hb⟩ := zero_fmul h.lo (!t)
  refine ⟨(false && !a) && b, ?_⟩
  unfold redOf fsub
  rw [ht, ha, zeroS_fneg, zeroS_fneg, hb, show Val.plusZero = zeroS false from rfl, zero_add_zero, zero_add_zero]

theorem half {F : Fmt} (he : 3 ≤ F.e) : insExp F (max (0 - 1) F.emin) = .num (1 / 2) ∧ insExp F (max (-0 - 1) F.emin) = .num (1 / 2) := by
  have hem : F.emin = 1 - F.emax := rfl
  have hemax : F.emax = 2 ^ (F.e - 1) - 1 := rfl
  have : (2 : ℤ) ^ 2 ≤ 2 ^ (F.e - 1) := pow_le_pow_right₀ (by norm_num) (by omega)
  have h := insExp_eq (F := F) (by omega) (k := -1) (by omega) (by omega)
  rw [neg_zero, zero_sub, max_eq_left (by omega), h]
  norm_num

theorem finite_pow {F : Fmt} (he : 3 ≤ F.e) {k : ℤ} (h1 : -2 ≤ k) (h2 : k ≤ 2) : F.Finite ((2 : ℚ) ^ k) := by
  have hem : F.emin = 1 - F.emax := rfl
  have hemax : F.emax = 2 ^ (F.e - 1) - 1 := rfl
  have : (2 : ℤ) ^ 2 ≤ 2 ^ (F.e - 1) := pow_le_pow_right₀ (by norm_num) (by omega)
  have h := insExp_fin (F := F) (by omega) (k := k) (by omega) (by omega)
  have h3 := insExp_eq (F := F) (by omega) (k := k) (by omega) (by omega)
  rw [h3] at h
  exact h.1.1.1

/-- the terms for zero: two null corrections and two halves -/
theorem terms_zero {F : Fmt} (he : 3 ≤ F.e) {C : Consts} {P : Val → Val} (h : C.Ok F P) (cv : Val → ℤ) :
    terms F C P cv .plusZero = (.plusZero, .plusZero, .num (1 / 2), .num (1 / 2)) := by
  obtain ⟨t, ht⟩ := kOf_zero h
  obtain ⟨r, hr⟩ := red_zero h
  have f1 : F.Finite (1 : ℚ) := by simpa using finite_pow he (k := 0) (by norm_num) (by norm_num)
  have fh : F.Finite (1 / 2 : ℚ) := by
    have := finite_pow he (k := -1) (by norm_num) (by norm_num)
    norm_num at this ⊢; exact this
  have hk : convC F cv (zeroS t) = 0 := by
    have hp : (0 : ℤ) < 2 ^ (F.e + F.f) := by positivity
    cases t <;> simp [convC, zeroS, isInfOrNaN, isNaN, isInf, numOf, hp]
  have hi : entry C.s (Int.tmod 0 (2 ^ C.s) + 2 ^ C.s) = 0 := by simp [entry]
  obtain ⟨p, hp⟩ := h.zero r
  obtain ⟨q, hq⟩ := h.zero (!r)
  have F1 : Fin' F (.num 1) := ⟨⟨f1, one_ne_zero⟩, rfl, rfl⟩
  have Fh : Fin' F (.num (1 / 2)) := ⟨⟨fh, by norm_num⟩, rfl, rfl⟩
  have key : ∀ b, fmul F (fadd F (fmul F (.num 1) (zeroS b)) (fadd F .plusZero (fmul F .plusZero (zeroS b)))) (.num (1 / 2)) = .plusZero := by
    intro b
    have e1 : fmul F (.num 1) (zeroS b) = zeroS b := by
      unfold fmul
      cases b <;> simp [zeroS, isNaN, isInf, numOf, sgn, Special.neg, rnd_zero]
    have e2 : fmul F .plusZero (zeroS b) = zeroS b := by
      unfold fmul
      cases b <;> simp [zeroS, isNaN, isInf, numOf, sgn, Special.neg, rnd_zero]
    rw [e1, e2, show Val.plusZero = zeroS false from rfl, zero_add_zero, zero_add_zero, Bool.false_and, Bool.and_false]
    unfold fmul
    simp [zeroS, isNaN, isInf, numOf, sgn, Special.neg, rnd_zero]
  have hm : fmul F (.num 1) (.num (1 / 2)) = .num (1 / 2) := by
    unfold fmul
    simp only [isNaN, isInf, Bool.or_self, Bool.false_eq_true, if_false, numOf, one_mul]
    exact rnd_exact (by omega) _ fh (by norm_num)
  unfold terms
  dsimp only
  rw [ht, hr, hk, hi, zeroS_fneg, hp, hq, h.posHi, h.negHi, h.posLo, h.negLo, Int.zero_ediv, (half he).1, (half he).2, key, key, hm]

theorem ov_false {F : Fmt} {C : Consts} {P : Val → Val} (h : C.Ok F P) : fgt .plusZero C.ov = false ∧ fgt .plusInf C.ov = true ∧ ∀ a, isNaN a = true → fgt a C.ov = false := by
  obtain ⟨v, hv, e⟩ := h.ov
  rw [e]
  refine ⟨by simp [fgt, flt, cLe, numOf, hv.le, not_le.2 hv], rfl, fun a ha => by cases a <;> simp_all [isNaN, fgt, flt, cLe]⟩

/-- **C111**: the special values of the generated hyperbolic cosine, for every datum. -/
theorem C111_cosh_special {F : Fmt} (he : 3 ≤ F.e) {C : Consts} {P : Val → Val} (h : C.Ok F P) (cv : Val → ℤ) {x : Val} (hx : F.Datum x) :
    CoshSpecial x (cosh F C P cv x) := by
  obtain ⟨o1, o2, o3⟩ := ov_false h
  have hnan : ∀ a, isNaN a = true → cosh F C P cv a = .qNaN := by
    intro a ha
    have hf : fabs a = a := by cases a <;> simp_all [isNaN, fabs, sgn, Special.neg]
    unfold cosh
    dsimp only
    rw [hf, o3 a ha, terms_nan h cv ha, fadd_nan_l (a := .qNaN) rfl]; rfl
  have hz : cosh F C P cv .plusZero = .num 1 := by
    unfold cosh
    dsimp only
    rw [show fabs .plusZero = .plusZero from rfl, o1, terms_zero he h cv]
    have e1 : fadd F .plusZero .plusZero = .plusZero := by simpa [zeroS] using zero_add_zero (F := F) false false
    have f1 : F.Finite (1 : ℚ) := by simpa using finite_pow he (k := 0) (by norm_num) (by norm_num)
    have e2 : fadd F (.num (1 / 2)) (.num (1 / 2)) = .num 1 := by
      unfold fadd
      simp only [isNaN, isInf, Bool.or_self, Bool.false_eq_true, if_false, numOf]
      rw [show (1 / 2 + 1 / 2 : ℚ) = 1 by norm_num]
      exact rnd_exact (by omega) _ f1 (by norm_num)
    simp only [Bool.false_eq_true, if_false, e1, e2]
    unfold fadd
    simp only [isNaN, isInf, Bool.or_self, Bool.false_eq_true, if_false, numOf, zero_add]
    exact rnd_exact (by omega) _ f1 (by norm_num)
  have hi : cosh F C P cv .plusInf = .plusInf := by
    unfold cosh
    dsimp only
    rw [show fabs .plusInf = .plusInf from rfl, o2]; rfl
  constructor
  · intro hn
    exact hnan x (by cases x <;> simp_all [IsNaN, isNaN])
  · intro hn
    cases x <;> simp_all [IsInf]
    exact (C111_cosh_even F C P cv .plusInf).trans hi
  · intro hn
    cases x <;> simp_all [IsZero, Special.finVal, Fmt.Datum]
    exact (C111_cosh_even F C P cv .plusZero).trans hz

/-- **C111**: the special values of the generated hyperbolic sine, but that of `-0`. -/
theorem C111_sinh_special_partial {F : Fmt} (he : 3 ≤ F.e) {C : Consts} {P : Val → Val} (h : C.Ok F P) (cv : Val → ℤ) {x : Val} (hx : F.Datum x) (hz : x ≠ .minusZero) :
    SinhSpecial x (sinh F C P cv x) := by
  obtain ⟨o1, o2, o3⟩ := ov_false h
  have hnan : ∀ a, isNaN a = true → sinh F C P cv a = .qNaN := by
    intro a ha
    have hf : fabs a = a := by cases a <;> simp_all [isNaN, fabs, sgn, Special.neg]
    unfold sinh
    dsimp only
    rw [hf, o3 a ha, terms_nan h cv ha]
    unfold fsub
    rw [fadd_nan_l (a := .qNaN) rfl, fadd_nan_l (a := .qNaN) rfl, fmul_nan_r (b := .qNaN) rfl]; rfl
  have hzero : sinh F C P cv .plusZero = .plusZero := by
    unfold sinh
    dsimp only
    rw [show fabs .plusZero = .plusZero from rfl, o1, terms_zero he h cv]
    have e1 : fsub F .plusZero .plusZero = .plusZero := by simpa [zeroS, fsub, fneg] using zero_add_zero (F := F) false true
    have e2 : fsub F (.num (1 / 2)) (.num (1 / 2)) = .plusZero := by
      unfold fsub fadd fneg
      simp [isNaN, isInf, numOf, rnd_zero, sgn, Special.neg, zeroS]
    have e3 : flt .plusZero .plusZero = false := by simp [flt, cLe, numOf]
    have e4 : fadd F .plusZero .plusZero = .plusZero := by simpa [zeroS] using zero_add_zero (F := F) false false
    simp only [Bool.false_eq_true, if_false, e1, e2, e3, e4]
    unfold fmul
    simp [isNaN, isInf, numOf, rnd_zero, sgn, Special.neg, zeroS]
  have hi : sinh F C P cv .plusInf = .plusInf := by
    unfold sinh
    dsimp only
    rw [show fabs .plusInf = .plusInf from rfl, o2, show flt .plusInf .plusZero = false from rfl]
    simp [fmul, isNaN, isInf, isZero, sgn, Special.neg, infS]
  have hmi : sinh F C P cv .minusInf = .minusInf := by
    have := C111_sinh_odd F C P cv (x := .plusInf) (by simp [IsZero, Special.finVal]) (by simp [IsNaN])
    rw [hi] at this
    exact this
  constructor
  · intro hn
    exact hnan x (by cases x <;> simp_all [IsNaN, isNaN])
  · intro hn
    cases x <;> simp_all [IsInf]
  · intro hn
    cases x <;> simp_all [IsZero, Special.finVal, Fmt.Datum]

/-- **C111**, wrong: the hyperbolic sine of `-0` is `+0`. -/
theorem C111_sinh_zero_wrong {F : Fmt} (he : 3 ≤ F.e) {C : Consts} {P : Val → Val} (h : C.Ok F P) (cv : Val → ℤ) :
    sinh F C P cv .minusZero = .plusZero ∧ ¬ SinhSpecial .minusZero (sinh F C P cv .minusZero) := by
  have e : sinh F C P cv .minusZero = sinh F C P cv .plusZero := by
    have e3 : flt .plusZero .plusZero = false := by simp [flt, cLe, numOf]
    have e4 : flt .minusZero .plusZero = false := by simp [flt, cLe, numOf]
    unfold sinh
    rw [e3, e4]; rfl
  have e2 := (C111_sinh_special_partial he h cv (x := .plusZero) trivial (by simp)).zero rfl
  rw [e, e2]
  exact ⟨rfl, fun h => absurd (h.zero rfl) (by simp)⟩

/-- half of the least positive number is rounded to zero -/
theorem half_least (F : Fmt) :
    fmul F (.num ((2 : ℚ) ^ (F.emin - F.f))) (.num (1 / 2)) = .plusZero ∧ fmul F (.num (-(2 : ℚ) ^ (F.emin - F.f))) (.num (1 / 2)) = .minusZero := by
  have p0 := r2 (F.emin - F.f)
  have q0 := r2 (F.emin - F.f - 1)
  have e1 : (2 : ℝ) ^ (F.emin - F.f) * (1 / 2) = (2 : ℝ) ^ (F.emin - F.f - 1) := by rw [zpow_sub_one₀ (by norm_num)]; norm_num
  have hr : roundUnb F .RN ((2 : ℝ) ^ (F.emin - F.f - 1)) = 0 := by
    have hlog : Int.log 2 |(2 : ℝ) ^ (F.emin - F.f - 1)| = F.emin - F.f - 1 := by
      rw [abs_of_pos q0]; exact_mod_cast Int.log_zpow (R := ℝ) (b := 2) (by norm_num) (F.emin - F.f - 1)
    have hlp : lastPlace F ((2 : ℝ) ^ (F.emin - F.f - 1)) = F.emin - F.f := by unfold lastPlace; rw [hlog, max_eq_right (by omega)]
    unfold roundUnb
    rw [if_neg q0.ne', hlp, ← e1, mul_div_right_comm, div_self p0.ne', one_mul]
    have : toInt .RN ((1 : ℝ) / 2) = 0 := by
      have h1 : ⌊((1 : ℝ) / 2)⌋ = 0 := by rw [Int.floor_eq_iff]; norm_num
      have h2 : Int.fract ((1 : ℝ) / 2) = 1 / 2 := by unfold Int.fract; rw [h1]; norm_num
      simp [toInt, h1]
      try norm_num
    rw [this]; simp
  have hrn : roundUnb F .RN (-(2 : ℝ) ^ (F.emin - F.f - 1)) = 0 := by rw [ru_neg, hr, neg_zero]
  constructor
  · unfold fmul
    simp only [isNaN, isInf, Bool.or_self, Bool.false_eq_true, if_false, numOf]
    rw [Rat.cast_mul, ← r2cast, show (((1 / 2 : ℚ)) : ℝ) = 1 / 2 by norm_num, e1]
    unfold rnd
    rw [if_neg q0.ne', if_pos hr]
    simp [zeroS, q0.le]
  · unfold fmul
    simp only [isNaN, isInf, Bool.or_self, Bool.false_eq_true, if_false, numOf]
    rw [Rat.cast_mul, Rat.cast_neg, ← r2cast, show (((1 / 2 : ℚ)) : ℝ) = 1 / 2 by norm_num, neg_mul, e1]
    unfold rnd
    rw [if_neg (neg_ne_zero.2 q0.ne'), if_pos hrn]
    simp [zeroS, q0]

/-- **C111**, wrong: the hyperbolic sine of the least positive number, which is a number slightly greater, is computed as zero, as soon as the polynomial, whose linear coefficient is one,
is right there. -/
theorem C111_sinh_least_wrong {F : Fmt} (he : 3 ≤ F.e) {C : Consts} {P : Val → Val} (h : C.Ok F P) (cv : Val → ℤ)
    (hi : 0 ≤ numOf C.invLog2 ∧ numOf C.invLog2 * (2 : ℚ) ^ (F.emin - F.f) ≤ 1 / 2)
    (hP : P (.num ((2 : ℚ) ^ (F.emin - F.f))) = .num ((2 : ℚ) ^ (F.emin - F.f)) ∧ P (.num (-(2 : ℚ) ^ (F.emin - F.f))) = .num (-(2 : ℚ) ^ (F.emin - F.f)))
    (ho : ∀ v, C.ov = .num v → (2 : ℚ) ^ (F.emin - F.f) ≤ v) :
    F.Datum (.num ((2 : ℚ) ^ (F.emin - F.f))) ∧ sinh F C P cv (.num ((2 : ℚ) ^ (F.emin - F.f))) = .plusZero := by
  have hem : F.emin = 1 - F.emax := rfl
  have hemax : F.emax = 2 ^ (F.e - 1) - 1 := rfl
  have h4 : (2 : ℤ) ^ 2 ≤ 2 ^ (F.e - 1) := pow_le_pow_right₀ (by norm_num) (by omega)
  have he2 : 2 ≤ F.e := by omega
  obtain ⟨u, hu⟩ : ∃ u : ℚ, u = (2 : ℚ) ^ (F.emin - F.f) := ⟨_, rfl⟩
  have u0 : 0 < u := by rw [hu]; exact Float.zp _
  have uf : F.Finite u := by
    rw [hu]
    refine (finite_iff he2).2 ⟨unb_pow le_rfl, ?_⟩
    rw [abs_of_pos (Float.zp _)]
    exact le_trans (Float.zle (by omega)) (omega_ge he2)
  have nf : F.Finite (-u) := (fneg_fin (F := F) (a := .num u) ⟨⟨uf, u0.ne'⟩, rfl, rfl⟩).1.1.1
  have Fu : Fin' F (.num u) := ⟨⟨uf, u0.ne'⟩, rfl, rfl⟩
  have Fn : Fin' F (.num (-u)) := ⟨⟨nf, by linarith⟩, rfl, rfl⟩
  have fh : F.Finite (1 / 2 : ℚ) := by
    have := finite_pow he (k := -1) (by norm_num) (by norm_num)
    norm_num at this ⊢; exact this
  obtain ⟨l1, l2⟩ := half_least F
  rw [← hu] at hi hP ho l1 l2 ⊢
  refine ⟨⟨uf, u0.ne'⟩, ?_⟩
  have addz : ∀ v b, F.Finite v → v ≠ 0 → fadd F (.num v) (zeroS b) = .num v := by
    intro v b hv h0
    have n1 : isNaN (zeroS b) = false ∧ isInf (zeroS b) = false ∧ numOf (zeroS b) = 0 := by cases b <;> exact ⟨rfl, rfl, rfl⟩
    unfold fadd
    simp only [n1.1, n1.2.1, n1.2.2, show isNaN (.num v) = false from rfl, show isInf (.num v) = false from rfl, show numOf (.num v) = v from rfl, Bool.or_self, Bool.false_eq_true,
      if_false, add_zero]
    exact rnd_exact he2 _ hv h0
  have one : ∀ v, F.Finite v → v ≠ 0 → fmul F (.num 1) (.num v) = .num v := by
    intro v hv h0
    unfold fmul
    simp only [isNaN, isInf, Bool.or_self, Bool.false_eq_true, if_false, numOf, one_mul]
    exact rnd_exact he2 _ hv h0
  -- the quotient is null
  have hk : ∃ t, kOf F C (.num u) = zeroS t := by
    have b0 : ((0 : ℚ) : ℝ) ≤ ((numOf C.invLog2 * numOf (.num u) : ℚ) : ℝ) := by
      exact_mod_cast mul_nonneg hi.1 u0.le
    have b1 : ((numOf C.invLog2 * numOf (.num u) : ℚ) : ℝ) ≤ (((2 : ℚ) ^ (-1 : ℤ) : ℚ) : ℝ) := by
      have : numOf C.invLog2 * numOf (.num u) ≤ (2 : ℚ) ^ (-1 : ℤ) := by
        have := hi.2
        norm_num [numOf] at this ⊢; exact this
      exact_mod_cast this
    have c1 := ru_between_le (F := F) (unb_pow (by omega)) b1
    have c0 := ru_between_ge (F := F) (unb_zero F) b0
    have c1' : roundUnb F .RN ((numOf C.invLog2 * numOf (.num u) : ℚ) : ℝ) ≤ (2 : ℚ) ^ (-1 : ℤ) := by exact_mod_cast c1
    have c0' : 0 ≤ roundUnb F .RN ((numOf C.invLog2 * numOf (.num u) : ℚ) : ℝ) := by exact_mod_cast c0
    obtain ⟨m1, m2⟩ := fmul_fin he2 h.inv Fu (by
      rw [abs_of_nonneg c0']
      exact le_trans c1' (le_trans (Float.zle (by omega)) (omega_ge he2)))
    refine ⟨sgn (fmul F C.invLog2 (.num u)), ?_⟩
    unfold kOf ftrunc
    rw [m1.2.1, m1.2.2, m2]
    have tz : truncQ (roundUnb F .RN ((numOf C.invLog2 * numOf (.num u) : ℚ) : ℝ)) = 0 := by
      unfold truncQ
      rw [if_neg (not_lt.2 c0'), Int.floor_eq_iff]
      rw [show (2 : ℚ) ^ (-1 : ℤ) = 1 / 2 by norm_num] at c1'
      exact ⟨by rw [Int.cast_zero]; exact c0', by rw [Int.cast_zero]; linarith⟩
    rw [if_pos tz]; rfl
  obtain ⟨t, ht⟩ := hk
  obtain ⟨a, ha⟩ := zero_fmul h.hi t
  obtain ⟨b, hb⟩ := zero_fmul h.lo (!t)
  have hr : redOf F C (.num u) = .num u := by
    unfold redOf fsub
    rw [ht, ha, zeroS_fneg, zeroS_fneg, hb, addz u _ uf u0.ne', addz u _ uf u0.ne']
  have hkc : convC F cv (zeroS t) = 0 := by
    have hp : (0 : ℤ) < 2 ^ (F.e + F.f) := by positivity
    cases t <;> simp [convC, zeroS, isInfOrNaN, isNaN, isInf, numOf, hp]
  have hi' : entry C.s (Int.tmod 0 (2 ^ C.s) + 2 ^ C.s) = 0 := by simp [entry]
  have key : ∀ v, F.Finite v → v ≠ 0 → fadd F (fmul F (.num 1) (.num v)) (fadd F .plusZero (fmul F .plusZero (.num v))) = .num v := by
    intro v hv h0
    obtain ⟨z, hz⟩ := zero_fmul (F := F) (a := .num v) ⟨⟨hv, h0⟩, rfl, rfl⟩ false
    rw [show Val.plusZero = zeroS false from rfl, hz, zero_add_zero, one v hv h0, addz v _ hv h0]
  have hm := one (1 / 2) fh (by norm_num)
  have hterms : terms F C P cv (.num u) = (.plusZero, .minusZero, .num (1 / 2), .num (1 / 2)) := by
    unfold terms
    dsimp only
    rw [ht, hr, hkc, hi', show fneg (.num u) = .num (-u) from rfl, hP.1, hP.2, h.posHi, h.negHi, h.posLo, h.negLo, Int.zero_ediv, (half he).1, (half he).2, key u uf u0.ne',
      key (-u) nf (by linarith), hm, l1, l2]
  have hab : fabs (.num u) = .num u := by simp [fabs, sgn, Special.neg, not_lt.2 u0.le]
  have hgt : fgt (.num u) C.ov = false := by
    obtain ⟨v, v0, hv⟩ := h.ov
    have := ho v hv
    rw [hv]
    simp [fgt, flt, cLe, numOf, this]
  have e1 : fsub F .plusZero .minusZero = .plusZero := by simpa [zeroS, fsub, fneg] using zero_add_zero (F := F) false false
  have e2 : fsub F (.num (1 / 2)) (.num (1 / 2)) = .plusZero := by
    unfold fsub fadd fneg
    simp [isNaN, isInf, numOf, rnd_zero, sgn, Special.neg, zeroS]
  have e3 : flt (.num u) .plusZero = false := by simp [flt, cLe, numOf, not_le.2 u0]
  have e4 : fadd F .plusZero .plusZero = .plusZero := by simpa [zeroS] using zero_add_zero (F := F) false false
  unfold sinh
  dsimp only
  rw [hab, hterms, hgt, e3]
  simp only [Bool.false_eq_true, if_false, e1, e2, e4]
  unfold fmul
  simp [isNaN, isInf, numOf, rnd_zero, sgn, Special.neg, zeroS]

/-- **C111**: the special values of the generated error function, but those of the NaNs and of `-0`. -/
theorem C111_erf_special_partial (F : Fmt) {e b c : ℚ} (he : 0 < e) (Q N M : Val → Val) {x : Val} (hx : F.Datum x)
    (hQ : isNaN (Q .plusZero) = false ∧ isInf (Q .plusZero) = false ∧ sgn (Q .plusZero) = false) (hn : ¬ IsNaN x) (hz : x ≠ .minusZero) :
    ErfSpecial x (erf F (.num e) (.num b) (.num c) Q N M x) := by
  have hp : erf F (.num e) (.num b) (.num c) Q N M .plusInf = .num 1 := by
    simp [erf, fabs, sgn, Special.neg, flt, cLe]
  have hm : erf F (.num e) (.num b) (.num c) Q N M .minusInf = .num (-1) := by
    simp [erf, fabs, sgn, Special.neg, flt, cLe, fneg, numOf]
  have h0 : erf F (.num e) (.num b) (.num c) Q N M .plusZero = .plusZero := by
    have e3 : flt .plusZero .plusZero = false := by simp [flt, cLe, numOf]
    have e4 : flt .plusZero (.num e) = true := by simp [flt, cLe, numOf, he.le, not_le.2 he]
    have e5 : ffma F (Q .plusZero) .plusZero .plusZero = .plusZero := by
      unfold ffma
      simp only [hQ.1, hQ.2.1, hQ.2.2, show isNaN .plusZero = false from rfl, show isInf .plusZero = false from rfl, show sgn .plusZero = false from rfl,
        show numOf .plusZero = 0 from rfl, Bool.or_self, Bool.false_eq_true, if_false, mul_zero, add_zero, Rat.cast_zero, rnd_zero, Bool.and_false]
      rfl
    unfold erf
    dsimp only
    rw [show fabs .plusZero = .plusZero from rfl, e3, e4, e5]
    simp [fmul, isNaN, isInf, numOf, rnd_zero, sgn, Special.neg, zeroS]
  constructor
  · intro h; exact absurd h hn
  · rintro rfl; exact hp
  · rintro rfl; exact hm
  · intro h
    cases x <;> simp_all [IsZero, Special.finVal, Fmt.Datum]

/-- **C111**, wrong: the error function of a NaN is `1`. -/
theorem C111_erf_nan_wrong (F : Fmt) (eps b1 b2 : Val) (Q N M : Val → Val) {x : Val} (hx : IsNaN x) :
    erf F eps b1 b2 Q N M x = .num 1 ∧ ¬ ErfSpecial x (erf F eps b1 b2 Q N M x) := by
  have h : ∀ a b, IsNaN a → flt a b = false := by intro a b ha; cases a <;> simp_all [IsNaN, flt, cLe]
  have hf : fabs x = x := by cases x <;> simp_all [IsNaN, fabs, sgn, Special.neg]
  have e : erf F eps b1 b2 Q N M x = .num 1 := by
    unfold erf
    dsimp only
    rw [hf, h x _ hx, h x _ hx, h x _ hx, h x _ hx]; rfl
  exact ⟨e, fun k => absurd (e.symm.trans (k.nan hx)) (by simp)⟩

/-- **C111**, wrong: the error function of `-0` is that of `+0`; one of the two is wrong. -/
theorem C111_erf_zero_wrong (F : Fmt) (eps b1 b2 : Val) (Q N M : Val → Val) :
    erf F eps b1 b2 Q N M .minusZero = erf F eps b1 b2 Q N M .plusZero ∧
      ¬ (ErfSpecial .plusZero (erf F eps b1 b2 Q N M .plusZero) ∧ ErfSpecial .minusZero (erf F eps b1 b2 Q N M .minusZero)) := by
  have e : erf F eps b1 b2 Q N M .minusZero = erf F eps b1 b2 Q N M .plusZero := by
    have e3 : flt .plusZero .plusZero = false := by simp [flt, cLe, numOf]
    have e4 : flt .minusZero .plusZero = false := by simp [flt, cLe, numOf]
    unfold erf
    rw [e3, e4]; rfl
  refine ⟨e, fun h => ?_⟩
  have h1 := h.1.zero rfl
  have h2 := h.2.zero rfl
  rw [e, h1] at h2
  exact absurd h2 (by simp)

/-- the constants of `expm1`: the bounds enclose zero, the others are numbers -/
structure EConsts.Ok (F : Fmt) (C : EConsts) : Prop where
  over : ∃ v, 0 < v ∧ C.over = .num v
  under : ∃ v, v < 0 ∧ C.under = .num v
  inv : Fin' F C.invLog2
  hi : Fin' F C.hi
  lo : Fin' F C.lo

/-- `expm1` of either zero -/
theorem expm1_zero {F : Fmt} (he : 3 ≤ F.e) {C : EConsts} (h : C.Ok F) {Q : Val → Val} (hQ : ∀ s, ∃ t, Q (zeroS s) = zeroS t) (cv : Val → ℤ) (b : Bool) :
    expm1 F C Q cv (zeroS b) = .plusZero := by
  have hem : F.emin = 1 - F.emax := rfl
  have hemax : F.emax = 2 ^ (F.e - 1) - 1 := rfl
  have h4 : (2 : ℤ) ^ 2 ≤ 2 ^ (F.e - 1) := pow_le_pow_right₀ (by norm_num) (by omega)
  obtain ⟨o, o1, o2⟩ := h.over
  obtain ⟨u, u1, u2⟩ := h.under
  obtain ⟨t, ht⟩ := zero_fmul h.inv b
  have hk : convC F cv (fnearest (zeroS t)) = 0 := by
    have hp : (0 : ℤ) < 2 ^ (F.e + F.f) := by positivity
    have hn : fnearest (zeroS t) = zeroS t := by
      have : nearestZ (zeroS t) = 0 := by
        cases t <;> simp [nearestZ, zeroS, numOf, Check.toInt]
      cases t <;> simp [fnearest, this, isNaN, isInf, zeroS, sgn, Special.neg] <;> simp_all [zeroS]
    rw [hn]
    cases t <;> simp [convC, zeroS, isInfOrNaN, isNaN, isInf, numOf, hp]
  have hc : cst F (((0 : ℤ)) : ℝ) = zeroS false := by rw [Int.cast_zero]; exact rnd_zero F false
  obtain ⟨a1, ha1⟩ := zero_fmul h.hi false
  obtain ⟨a2, ha2⟩ := zero_fmul h.lo true
  have i0 : insExp F 0 = .num 1 := by
    rw [insExp_eq (by omega) (by omega) (by omega)]; norm_num
  have d0 : fsub F (.num 1) (.num 1) = zeroS false := by
    unfold fsub fadd fneg
    simp [isNaN, isInf, numOf, rnd_zero, sgn, Special.neg, zeroS]
  have g1 : fgt (zeroS b) (.num o) = false := by cases b <;> simp [fgt, flt, cLe, numOf, zeroS, o1.le, not_le.2 o1]
  have g2 : flt (zeroS b) (.num u) = false := by cases b <;> simp [flt, cLe, numOf, zeroS, not_le.2 u1]
  have g3 : isInfOrNaN (zeroS b) = false := by cases b <;> rfl
  have m1 : fmul F (.num 1) (zeroS false) = .plusZero := by
    unfold fmul
    simp [zeroS, isNaN, isInf, numOf, sgn, Special.neg, rnd_zero]
  unfold expm1
  rw [g3, o2, u2, g1, g2]
  simp only [Bool.false_eq_true, if_false]
  rw [ht, hk, hc, zeroS_fneg, ha1]
  simp only [Bool.not_false]
  rw [ha2]
  unfold fsub
  rw [if_neg (by omega), if_neg (by omega)]
  simp only [zeroS_fneg, zero_add_zero]
  obtain ⟨q, hq⟩ := hQ (((b && !a1) && a2) && (a2 && !(((b && !a1) && a2) && !(b && !a1))))
  rw [hq, neg_zero, i0, show fadd F (.num 1) (fneg (.num 1)) = zeroS false from d0]
  simp only [zero_add_zero, Bool.and_false]
  exact m1

/-- **C111**: the special values of the generated `expm1`, but that of `-0`. -/
theorem C111_expm1_special_partial {F : Fmt} (he : 3 ≤ F.e) {C : EConsts} (h : C.Ok F) {Q : Val → Val} (hQ : ∀ s, ∃ t, Q (zeroS s) = zeroS t) (cv : Val → ℤ)
    {x : Val} (hx : F.Datum x) (hz : x ≠ .minusZero) : Expm1Special x (expm1 F C Q cv x) := by
  constructor
  · intro hn
    cases x <;> simp_all [IsNaN, expm1, isInfOrNaN, isNaN, isInf]
  · rintro rfl
    simp [expm1, isInfOrNaN, isNaN, isInf, fgt, flt, cLe]
  · rintro rfl
    simp [expm1, isInfOrNaN, isNaN, isInf, fgt, flt, cLe]
  · intro hn
    have := expm1_zero he h hQ cv false
    cases x <;> simp_all [IsZero, Special.finVal, Fmt.Datum, zeroS]

/-- **C111**, wrong: `expm1(-0)` is `+0`. -/
theorem C111_expm1_zero_wrong {F : Fmt} (he : 3 ≤ F.e) {C : EConsts} (h : C.Ok F) {Q : Val → Val} (hQ : ∀ s, ∃ t, Q (zeroS s) = zeroS t) (cv : Val → ℤ) :
    expm1 F C Q cv .minusZero = .plusZero ∧ ¬ Expm1Special .minusZero (expm1 F C Q cv .minusZero) := by
  have e := expm1_zero he h hQ cv true
  rw [show zeroS true = .minusZero from rfl] at e
  exact ⟨e, fun k => absurd (e.symm.trans (k.zero rfl)) (by simp)⟩

/-- **C111**: the special values of the generated `log1p`, but the pole `-1`. -/
theorem C111_log1p_special_partial (F : Fmt) (nm : Val) (K : ℤ → Val → Val → Val → Val) {x : Val} (hp : x ≠ .num (-1)) : Log1pSpecial x (log1p F nm K x) := by
  constructor
  · intro hn
    cases x <;> simp_all [IsNaN, log1p, isInfOrNaN, isNaN, isInf, flt, cLe]
  · rintro rfl
    simp [log1p, isInfOrNaN, isNaN, isInf, flt, cLe]
  · rintro rfl
    simp [log1p, flt, cLe]
  · rintro v rfl hv
    simp [log1p, flt, cLe, numOf, hv.le, not_le.2 hv]
  · intro h; exact absurd h hp

/-- the greatest power of two absorbs a mantissa -/
theorem absorb {F : Fmt} (he2 : 2 ≤ F.e) (hf : (F.f : ℤ) + 3 ≤ F.emax) {w : ℚ} (w1 : 1 ≤ w) (w2 : w < 2) :
    fadd F (.num ((2 : ℚ) ^ F.emax)) (.num w) = .num ((2 : ℚ) ^ F.emax) := by
  have hem : F.emin = 1 - F.emax := rfl
  have w1R : (1 : ℝ) ≤ w := by exact_mod_cast w1
  have w2R : (w : ℝ) < 2 := by exact_mod_cast w2
  obtain ⟨x, hx⟩ : ∃ x : ℝ, x = (2 : ℝ) ^ F.emax + w := ⟨_, rfl⟩
  have p0 := r2 F.emax
  have p1 : (8 : ℝ) ≤ (2 : ℝ) ^ (F.emax - F.f) := by
    have : (2 : ℝ) ^ (3 : ℤ) ≤ (2 : ℝ) ^ (F.emax - F.f) := zpow_le_zpow_right₀ (by norm_num) (by omega)
    norm_num at this ⊢; linarith
  have p2 : (2 : ℝ) ^ (F.emax - F.f) ≤ (2 : ℝ) ^ F.emax := zpow_le_zpow_right₀ (by norm_num) (by omega)
  have xp : 0 < x := by rw [hx]; linarith
  have hlog : Int.log 2 |x| = F.emax := by
    rw [abs_of_pos xp]
    apply le_antisymm
    · apply Int.lt_add_one_iff.1
      apply (Int.lt_zpow_iff_log_lt (by norm_num) xp).1
      rw [Nat.cast_ofNat, zpow_add₀ (by norm_num), zpow_one, hx]; linarith
    · apply (Int.zpow_le_iff_le_log (by norm_num) xp).1
      rw [Nat.cast_ofNat, hx]; linarith
  have hlp : lastPlace F x = F.emax - F.f := by unfold lastPlace; rw [hlog, max_eq_left (by omega)]
  have hy : x / (2 : ℝ) ^ (F.emax - F.f) = ((2 ^ F.f : ℤ) : ℝ) + w / (2 : ℝ) ^ (F.emax - F.f) := by
    rw [hx, add_div]; congr 1
    rw [← zpow_sub₀ (by norm_num), sub_sub_cancel, zpow_natCast]; push_cast; rfl
  have q1 : 0 ≤ (w : ℝ) / (2 : ℝ) ^ (F.emax - F.f) := by apply div_nonneg <;> linarith
  have q2 : (w : ℝ) / (2 : ℝ) ^ (F.emax - F.f) < 1 / 4 := by rw [div_lt_iff₀ (by linarith)]; linarith
  have hn : toInt .RN (x / (2 : ℝ) ^ (F.emax - F.f)) = 2 ^ F.f := by
    have h := toInt_near (x / (2 : ℝ) ^ (F.emax - F.f))
    obtain ⟨n, hn⟩ : ∃ n : ℤ, n = toInt .RN (x / (2 : ℝ) ^ (F.emax - F.f)) := ⟨_, rfl⟩
    rw [← hn, hy, abs_le] at h
    rw [← hn]
    have a1 : n < 2 ^ F.f + 1 := by
      have : (n : ℝ) < ((2 ^ F.f : ℤ) : ℝ) + 1 := by linarith [h.1]
      exact_mod_cast this
    have a2 : 2 ^ F.f < n + 1 := by
      have : ((2 ^ F.f : ℤ) : ℝ) < (n : ℝ) + 1 := by linarith [h.2]
      exact_mod_cast this
    omega
  have hr : roundUnb F .RN x = (2 : ℚ) ^ F.emax := by
    unfold roundUnb
    rw [if_neg xp.ne', hlp, hn]
    push_cast
    rw [← zpow_natCast, ← Float.zadd]; congr 1; omega
  unfold fadd
  simp only [isNaN, isInf, Bool.or_self, Bool.false_eq_true, if_false, numOf]
  rw [show (((2 : ℚ) ^ F.emax + w : ℚ) : ℝ) = x by rw [Rat.cast_add, ← r2cast, hx]]
  unfold rnd
  rw [if_neg xp.ne', hr, if_neg (Float.zp _).ne', if_pos (by rw [abs_of_pos (Float.zp _)]; exact omega_ge he2)]

/-- **C111**, wrong: whatever the approximation, every positive subnormal number has the same `log1p` as `+0`, so that for two of them at most one is right. -/
theorem C111_log1p_subnormal_wrong {F : Fmt} (he : 3 ≤ F.e) (hf : (F.f : ℤ) + 3 ≤ F.emax) (nm : Val) (K : ℤ → Val → Val → Val → Val) {v : ℚ} (h0 : 0 < v) (hv : v < (2 : ℚ) ^ F.emin) :
    log1p F nm K (.num v) = log1p F nm K .plusZero := by
  have hem : F.emin = 1 - F.emax := rfl
  have he2 : 2 ≤ F.e := by omega
  have hm := emax_pos he2
  have p0 := Float.zp F.emin
  have hsub : |v| < (2 : ℚ) ^ F.emin := by rw [abs_of_pos h0]; exact hv
  have l1 : flt (.num v) (.num (-1)) = false := by
    have : ¬ v ≤ -1 := by linarith
    simp [flt, cLe, numOf, this]
  have l2 : flt .plusZero (.num (-1)) = false := by simp [flt, cLe, numOf]
  have i1 : insExp F F.emax = .num ((2 : ℚ) ^ F.emax) := insExp_eq he2 (by omega) le_rfl
  have ib : insExp F (-F.emax) = .plusZero := insExp_zero he2
  -- the sum absorbs the mantissa
  have absorb : ∀ w : ℚ, 1 ≤ w → w < 2 → fadd F (.num ((2 : ℚ) ^ F.emax)) (.num w) = .num ((2 : ℚ) ^ F.emax) := by
    intro w w1 w2
    exact absorb he2 hf w1 w2
  have hmant : 1 ≤ 1 + v * (2 : ℚ) ^ (-F.emin) ∧ 1 + v * (2 : ℚ) ^ (-F.emin) < 2 := by
    have q0 := Float.zp (-F.emin)
    have : v * (2 : ℚ) ^ (-F.emin) < (2 : ℚ) ^ F.emin * (2 : ℚ) ^ (-F.emin) := mul_lt_mul_of_pos_right hv q0
    rw [← Float.zadd, add_neg_cancel, zpow_zero] at this
    constructor
    · have := mul_pos h0 q0; linarith
    · linarith
  have m1 : signedMant F nm (.num v) = .num (1 + v * (2 : ℚ) ^ (-F.emin)) := by
    unfold signedMant
    rw [show sgn (.num v) = false by simp [sgn, Special.neg, h0.le]]
    simp only [mantOf, Bool.false_eq_true, if_false]
    rw [if_pos hsub, abs_of_pos h0]
  have m2 : signedMant F nm .plusZero = .num 1 := by simp [signedMant, sgn, Special.neg, mantOf]
  have e1 : expoOf F (.num v) = -F.emax := by simp only [expoOf, if_pos hsub]
  have e2 : expoOf F .plusZero = -F.emax := rfl
  have e3 : expoOf F (.num ((2 : ℚ) ^ F.emax)) = F.emax := by
    have : ¬ |(2 : ℚ) ^ F.emax| < (2 : ℚ) ^ F.emin := by
      rw [abs_of_pos (Float.zp _)]; exact not_lt.2 (Float.zle (by omega))
    simp only [expoOf]
    rw [if_neg this, abs_of_pos (Float.zp F.emax)]
    exact_mod_cast Int.log_zpow (R := ℚ) (b := 2) (by norm_num) F.emax
  have z : ∀ w : ℚ, 0 < w → fmul F (.num w) .plusZero = .plusZero := by
    intro w hw
    unfold fmul
    simp [isNaN, isInf, numOf, sgn, Special.neg, rnd_zero, zeroS, hw.le, hw]
  unfold log1p
  rw [l1, l2, m1, m2, e1, e2]
  simp only [show isInfOrNaN (.num v) = false from rfl, show isInfOrNaN .plusZero = false from rfl, Bool.false_eq_true, if_false, neg_neg]
  rw [i1, absorb _ hmant.1 hmant.2, absorb 1 le_rfl (by norm_num), e3, ib, z _ (by linarith [hmant.1]), z 1 one_pos]

/-- **C111**, wrong: `log1p(-1)` is not the negative infinity if the approximation of a finite reduced argument is finite. -/
theorem C111_log1p_pole_wrong {F : Fmt} (he : 3 ≤ F.e) (nm : Val) (K : ℤ → Val → Val → Val → Val)
    (hK : ∀ n a b c, Fin' F a → Fin' F b → Fin' F c → isInf (K n a b c) = false) :
    isInf (log1p F nm K (.num (-1))) = false ∧ ¬ Log1pSpecial (.num (-1)) (log1p F nm K (.num (-1))) := by
  have hem : F.emin = 1 - F.emax := rfl
  have he2 : 2 ≤ F.e := by omega
  have hemax : F.emax = 2 ^ (F.e - 1) - 1 := rfl
  have h4 : (2 : ℤ) ^ 2 ≤ 2 ^ (F.e - 1) := pow_le_pow_right₀ (by norm_num) (by omega)
  have f1 : F.Finite (1 : ℚ) := by simpa using finite_pow he (k := 0) (by norm_num) (by norm_num)
  have F1 : Fin' F (.num 1) := ⟨⟨f1, one_ne_zero⟩, rfl, rfl⟩
  have hlt : ¬ |(-1 : ℚ)| < (2 : ℚ) ^ F.emin := by
    rw [abs_neg, abs_one, not_lt]
    have := Float.zle (show F.emin ≤ 0 by omega)
    simpa using this
  have e1 : expoOf F (.num (-1)) = 0 := by
    simp only [expoOf, if_neg hlt]
    simp
  have m1 : signedMant F nm (.num (-1)) = .num (-1) := by
    simp only [signedMant, sgn, Special.neg, mantOf, if_neg hlt]
    simp [fneg]
  have i0 : insExp F 0 = .num 1 := by
    rw [insExp_eq (by omega) (by omega) (by omega)]; norm_num
  have t0 : fadd F (.num 1) (.num (-1)) = .plusZero := by
    unfold fadd
    simp [isNaN, isInf, numOf, rnd_zero, sgn, Special.neg, zeroS]
  have m2 : signedMant F nm .plusZero = .num 1 := by simp [signedMant, sgn, Special.neg, mantOf]
  obtain ⟨i1, i2⟩ := insExp_fin (F := F) he2 (k := F.emax) (by omega) le_rfl
  have i3 := insExp_eq (F := F) he2 (k := F.emax) (by omega) le_rfl
  have p : fmul F (.num (-1)) (insExp F F.emax) = .num (-(2 : ℚ) ^ F.emax) := by
    rw [i3] at i1 ⊢
    obtain ⟨n1, n2⟩ := fneg_fin i1
    unfold fmul
    simp only [isNaN, isInf, Bool.or_self, Bool.false_eq_true, if_false, numOf, neg_mul, one_mul]
    exact rnd_exact he2 _ n1.1.1 n1.1.2
  have P1 : Fin' F (.num (-(2 : ℚ) ^ F.emax)) := by rw [i3] at i1; exact (fneg_fin i1).1
  have key : isInf (log1p F nm K (.num (-1))) = false := by
    unfold log1p
    rw [show flt (.num (-1)) (.num (-1)) = false by simp [flt, cLe, numOf], show isInfOrNaN (.num (-1)) = false from rfl]
    simp only [Bool.false_eq_true, if_false]
    rw [m1, e1, neg_zero, i0, t0, m2, show expoOf F .plusZero = -F.emax from rfl, zero_sub, neg_neg, p]
    exact hK _ _ _ _ F1 i1 P1
  refine ⟨key, fun h => ?_⟩
  rw [h.pole rfl] at key
  exact absurd key (by simp [isInf])

/-! ## The hypotheses hold -/

/-- constants of the binary32 format: `inv_log2_value = 2^7 * 1.4427`, `log2_hi_value = 2^-7 * 0.693147`, with a table of `2^8` entries -/
def C32 : Consts where
  s := 7
  invLog2 := .num 184
  hi := .num (11356523 / 2 ^ 31)
  lo := .num (1 / 2 ^ 30)
  ov := .num 89
  negHi := fun _ => .num 1
  negLo := fun _ => .plusZero
  posHi := fun _ => .num 1
  posLo := fun _ => .plusZero

theorem fin_num' {v : ℚ} (m E : ℤ) (h0 : v ≠ 0) (h1 : |m| < 2 ^ 24) (h2 : -126 ≤ E) (h3 : E ≤ 127) (hv : v = m * (2 : ℚ) ^ (E - 23)) : Fin' ⟨8, 23⟩ (.num v) := by
  refine ⟨⟨⟨m, E, ?_, ?_, ?_, ?_⟩, h0⟩, rfl, rfl⟩
  all_goals first | assumption | skip

theorem C32_ok : C32.Ok ⟨8, 23⟩ id where
  ov := ⟨89, by norm_num, rfl⟩
  inv := fin_num' 184 23 (by norm_num) (by norm_num) (by norm_num) (by norm_num) (by norm_num)
  hi := fin_num' 11356523 (-8) (by norm_num) (by norm_num) (by norm_num) (by norm_num) (by norm_num)
  lo := fin_num' 1 (-7) (by norm_num) (by norm_num) (by norm_num) (by norm_num) (by norm_num)
  posHi := rfl
  negHi := rfl
  posLo := rfl
  negLo := rfl
  zero := fun s => ⟨s, rfl⟩
  nan := fun _ h => h

example (cv : Val → ℤ) : cosh ⟨8, 23⟩ C32 id cv .minusZero = .num 1 := (C111_cosh_special (F := ⟨8, 23⟩) (by norm_num) C32_ok cv (x := .minusZero) trivial).zero rfl

example (cv : Val → ℤ) : sinh ⟨8, 23⟩ C32 id cv .minusInf = .minusInf := (C111_sinh_special_partial (F := ⟨8, 23⟩) (by norm_num) C32_ok cv (x := .minusInf) trivial (by simp)).inf trivial

example (cv : Val → ℤ) : sinh ⟨8, 23⟩ C32 id cv (.num ((2 : ℚ) ^ (Fmt.emin ⟨8, 23⟩ - (23 : ℕ)))) = .plusZero :=
  (C111_sinh_least_wrong (F := ⟨8, 23⟩) (by norm_num) C32_ok cv ⟨by norm_num [C32, numOf], by norm_num [C32, numOf, Fmt.emin, Fmt.emax]⟩ ⟨rfl, rfl⟩
    (by intro v hv; simp only [C32, Val.num.injEq] at hv; subst hv; norm_num [Fmt.emin, Fmt.emax])).2

/-- constants of the binary32 `expm1` -/
def E32 : EConsts where
  over := .num 89
  under := .num (-18)
  invLog2 := .num (3 / 2)
  hi := .num (11356523 / 2 ^ 24)
  lo := .num (1 / 2 ^ 30)

theorem E32_ok : E32.Ok ⟨8, 23⟩ where
  over := ⟨89, by norm_num, rfl⟩
  under := ⟨-18, by norm_num, rfl⟩
  inv := fin_num' 3 22 (by norm_num) (by norm_num) (by norm_num) (by norm_num) (by norm_num)
  hi := fin_num' 11356523 (-1) (by norm_num) (by norm_num) (by norm_num) (by norm_num) (by norm_num)
  lo := fin_num' 1 (-7) (by norm_num) (by norm_num) (by norm_num) (by norm_num) (by norm_num)

example (cv : Val → ℤ) : expm1 ⟨8, 23⟩ E32 id cv .minusInf = .num (-1) :=
  (C111_expm1_special_partial (F := ⟨8, 23⟩) (by norm_num) E32_ok (Q := id) (fun s => ⟨s, rfl⟩) cv (x := .minusInf) trivial (by simp)).minf rfl

example (cv : Val → ℤ) : expm1 ⟨8, 23⟩ E32 id cv .minusZero = .plusZero :=
  (C111_expm1_zero_wrong (F := ⟨8, 23⟩) (by norm_num) E32_ok (Q := id) (fun s => ⟨s, rfl⟩) cv).1

example (N M : Val → Val) : erf ⟨8, 23⟩ (.num (1 / 4)) (.num 1) (.num 4) (fun _ => .num (1 / 8)) N M .minusInf = .num (-1) :=
  (C111_erf_special_partial ⟨8, 23⟩ (e := 1 / 4) (b := 1) (c := 4) (by norm_num) (fun _ => .num (1 / 8)) N M (x := .minusInf) trivial ⟨rfl, rfl, by norm_num [sgn, Special.neg]⟩ (by simp [IsNaN]) (by simp)).minf rfl

/-- an approximation that depends on the sum alone -/
example (nm : Val) : log1p ⟨8, 23⟩ nm (fun _ _ _ c => c) (.num (1 / 2 ^ 130)) = log1p ⟨8, 23⟩ nm (fun _ _ _ c => c) .plusZero :=
  C111_log1p_subnormal_wrong (F := ⟨8, 23⟩) (by norm_num) (by norm_num [Fmt.emax]) nm _ (by norm_num) (by norm_num [Fmt.emin, Fmt.emax])

example (nm : Val) : isInf (log1p ⟨8, 23⟩ nm (fun _ _ _ c => c) (.num (-1))) = false :=
  (C111_log1p_pole_wrong (F := ⟨8, 23⟩) (by norm_num) nm _ (fun _ _ _ _ _ _ h => h.2.2)).1

end Verif.Hyper
