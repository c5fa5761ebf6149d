import Verif.Elem.ExpModel
import Verif.Elem.Faith
import Mathlib.Analysis.Complex.ExponentialBounds

/-! # The argument reduction and the reconstruction of the exponential -/

namespace Verif.Elem

open Verif.Float (Fmt Val)
open Verif.Check

/-- finite operands -/
def Fin' (F : Fmt) (a : Val) : Prop := F.Datum a ∧ isNaN a = false ∧ isInf a = false

theorem rnd_fin {F : Fmt} (he : 2 ≤ F.e) (s : Bool) {x : ℝ} (h : |roundUnb F .RN x| ≤ Float.omega F) :
    Fin' F (rnd F s x) ∧ numOf (rnd F s x) = roundUnb F .RN x := by
  unfold rnd
  by_cases hx : x = 0
  · rw [if_pos hx, hx]; cases s <;> simp [zeroS, roundUnb, Fin', Fmt.Datum, isNaN, isInf, numOf]
  · rw [if_neg hx]
    by_cases h1 : roundUnb F .RN x = 0
    · rw [if_pos h1, h1]; by_cases h2 : x < 0 <;> simp [zeroS, h2, Fin', Fmt.Datum, isNaN, isInf, numOf]
    · rw [if_neg h1, if_pos h]
      exact ⟨⟨⟨(finite_iff he).2 ⟨roundUnb_unb F _ x, h⟩, h1⟩, rfl, rfl⟩, rfl⟩

theorem fmul_fin {F : Fmt} (he : 2 ≤ F.e) {a b : Val} (ha : Fin' F a) (hb : Fin' F b)
    (h : |roundUnb F .RN ((numOf a * numOf b : ℚ) : ℝ)| ≤ Float.omega F) :
    Fin' F (fmul F a b) ∧ numOf (fmul F a b) = roundUnb F .RN ((numOf a * numOf b : ℚ) : ℝ) := by
  unfold fmul
  simp only [ha.2.1, hb.2.1, ha.2.2, hb.2.2, Bool.or_self, Bool.false_eq_true, if_false]
  exact rnd_fin he _ h

theorem fadd_fin {F : Fmt} (he : 2 ≤ F.e) {a b : Val} (ha : Fin' F a) (hb : Fin' F b)
    (h : |roundUnb F .RN ((numOf a + numOf b : ℚ) : ℝ)| ≤ Float.omega F) :
    Fin' F (fadd F a b) ∧ numOf (fadd F a b) = roundUnb F .RN ((numOf a + numOf b : ℚ) : ℝ) := by
  unfold fadd
  simp only [ha.2.1, hb.2.1, ha.2.2, hb.2.2, Bool.or_self, Bool.false_eq_true, if_false]
  exact rnd_fin he _ h

theorem finite_neg {F : Fmt} {v : ℚ} (h : F.Finite v) : F.Finite (-v) := by
  obtain ⟨m, E, h1, h2, h3, rfl⟩ := h
  exact ⟨-m, E, by rwa [abs_neg], h2, h3, by push_cast; ring⟩

theorem fneg_fin {F : Fmt} {a : Val} (ha : Fin' F a) : Fin' F (fneg a) ∧ numOf (fneg a) = -numOf a := by
  obtain ⟨h1, h2, h3⟩ := ha
  cases a <;> simp_all [fneg, Fin', isNaN, isInf, numOf, Fmt.Datum]
  exact finite_neg h1.1

theorem fsub_fin {F : Fmt} (he : 2 ≤ F.e) {a b : Val} (ha : Fin' F a) (hb : Fin' F b)
    (h : |roundUnb F .RN ((numOf a - numOf b : ℚ) : ℝ)| ≤ Float.omega F) :
    Fin' F (fsub F a b) ∧ numOf (fsub F a b) = roundUnb F .RN ((numOf a - numOf b : ℚ) : ℝ) := by
  obtain ⟨h1, h2⟩ := fneg_fin hb
  have e : numOf a + numOf (fneg b) = numOf a - numOf b := by rw [h2]; ring
  have := fadd_fin he ha h1 (by rwa [e])
  rw [e] at this
  exact this

theorem cst_fin {F : Fmt} (he : 2 ≤ F.e) {x : ℝ} (h : |roundUnb F .RN x| ≤ Float.omega F) :
    Fin' F (cst F x) ∧ numOf (cst F x) = roundUnb F .RN x := rnd_fin he _ h

/-- the numbers of a finite operand -/
theorem fin_unb {F : Fmt} (he : 2 ≤ F.e) {a : Val} (ha : Fin' F a) : Unbounded F (numOf a) ∧ |numOf a| ≤ Float.omega F := by
  have h0 : (0 : ℚ) ≤ Float.omega F := le_trans (Float.zp _).le (omega_ge he)
  obtain ⟨h1, h2, h3⟩ := ha
  cases a <;> simp_all [isNaN, isInf, numOf, Fmt.Datum, unb_zero]
  exact (finite_iff he).1 h1.1

theorem fin_num_ne {F : Fmt} {a : Val} (ha : Fin' F a) (h : numOf a ≠ 0) : a = .num (numOf a) := by
  obtain ⟨h1, h2, h3⟩ := ha
  cases a <;> simp_all [isNaN, isInf, numOf]

theorem unb_int {F : Fmt} (he : 2 ≤ F.e) {n : ℤ} (h : |n| ≤ 2 ^ (F.f + 1)) : Unbounded F (n : ℚ) := by
  have := unb_of (F := F) (n := n) (q := 0) h (by have := emax_pos he; unfold Fmt.emin; omega)
  simpa using this

theorem abs_le_omega_of {F : Fmt} (he : 2 ≤ F.e) {v : ℚ} (h : |v| ≤ (2 : ℚ) ^ F.emax) : |v| ≤ Float.omega F := le_trans h (omega_ge he)

/-- rounding does not exceed a power of two that bounds the real -/
theorem ru_abs_le {F : Fmt} {x : ℝ} {k : ℤ} (hk : F.emin - F.f ≤ k) (h : |x| ≤ (2 : ℝ) ^ k) : |roundUnb F .RN x| ≤ (2 : ℚ) ^ k := by
  obtain ⟨h1, h2⟩ := abs_le.1 h
  have a := ru_between_le (F := F) (x := x) (unb_pow hk) (by rw [← r2cast]; exact h2)
  have b := ru_between_ge (F := F) (x := x) (unb_neg (unb_pow hk)) (by push_cast; exact h1)
  rw [abs_le]
  constructor
  · exact_mod_cast b
  · exact_mod_cast a

/-- the error of a rounding below a power of two -/
theorem ru_err_le {F : Fmt} {x : ℝ} {k : ℤ} (hk : F.emin ≤ k) (h : |x| ≤ (2 : ℝ) ^ (k + 1)) :
    |(roundUnb F .RN x : ℝ) - x| ≤ (2 : ℝ) ^ (k - F.f - 1) := by
  by_cases hx : x = 0
  · subst hx; simp [roundUnb]; exact (r2 _).le
  rcases lt_or_eq_of_le h with h | h
  · refine le_trans (ru_error F x) (r2le ?_)
    have := log_ltR (abs_pos.2 hx) h
    unfold lastPlace
    omega
  · have : roundUnb F .RN x = x := by
      rcases abs_eq (r2 _).le |>.1 h with e | e
      · rw [e, r2cast, ru_exact (unb_pow (by omega))]
      · rw [e, ru_neg, r2cast, ru_exact (unb_pow (by omega))]; push_cast; ring
    rw [this, sub_self, abs_zero]; exact (r2 _).le

/-- exponent insertion in the range of the normal numbers -/
theorem insExp_eq {F : Fmt} (he : 2 ≤ F.e) {k : ℤ} (h1 : F.emin ≤ k) (h2 : k ≤ F.emax) : insExp F k = .num ((2 : ℚ) ^ k) := by
  have hb : (2 : ℤ) * 2 ^ (F.e - 1) = 2 ^ F.e := by rw [← pow_succ']; congr 1; omega
  have hemax : F.emax = 2 ^ (F.e - 1) - 1 := rfl
  have h3 : 1 ≤ k + F.emax := by unfold Fmt.emin at h1; omega
  have h4 : k + F.emax + 2 ≤ 2 ^ F.e := by omega
  unfold insExp
  rw [Int.emod_eq_of_lt (by omega) (by omega)]
  obtain ⟨n, hn⟩ := Int.eq_ofNat_of_zero_le (show 0 ≤ k + F.emax by omega)
  rw [hn, Int.toNat_natCast]
  have hn1 : 1 ≤ n := by omega
  have hn2 : n + 2 ≤ 2 ^ F.e := by
    have : ((n + 2 : ℕ) : ℤ) ≤ ((2 ^ F.e : ℕ) : ℤ) := by push_cast; omega
    exact_mod_cast this
  have hpf := Nat.two_pow_pos F.f
  unfold Fmt.decode
  have d1 : n * 2 ^ F.f / 2 ^ F.f % 2 ^ F.e = n := by
    rw [Nat.mul_div_cancel _ hpf, Nat.mod_eq_of_lt (by omega)]
  have d2 : n * 2 ^ F.f % 2 ^ F.f = 0 := Nat.mul_mod_left _ _
  have d3 : n * 2 ^ F.f / 2 ^ (F.e + F.f) = 0 := by
    apply Nat.div_eq_of_lt
    rw [pow_add]; exact Nat.mul_lt_mul_of_pos_right (by omega) hpf
  simp only [d1, d2, d3]
  rw [if_neg (by omega), if_neg (by omega)]
  simp only [show ¬ (0 : ℕ) = 1 by omega, if_false, Nat.cast_zero, add_zero, one_mul]
  congr 1
  rw [← Float.znat, ← Float.zadd]
  congr 1
  have : ((n : ℕ) : ℤ) = k + F.emax := hn.symm
  rw [this]; ring

theorem insExp_fin {F : Fmt} (he : 2 ≤ F.e) {k : ℤ} (h1 : F.emin ≤ k) (h2 : k ≤ F.emax) :
    Fin' F (insExp F k) ∧ numOf (insExp F k) = (2 : ℚ) ^ k := by
  rw [insExp_eq he h1 h2]
  refine ⟨⟨⟨(finite_iff he).2 ⟨unb_pow (by omega), ?_⟩, (Float.zp k).ne'⟩, rfl, rfl⟩, rfl⟩
  rw [abs_of_pos (Float.zp k)]
  exact le_trans (Float.zle h2) (omega_ge he)

/-- scaling a number of the format by a power of two, in the range of the normal numbers -/
theorem unb_scale {F : Fmt} {p : ℚ} (hp : Unbounded F p) {a j : ℤ} (h0 : (2 : ℚ) ^ a ≤ |p|) (h1 : F.emin ≤ a + j) : Unbounded F (p * (2 : ℚ) ^ j) := by
  have hpos := lt_of_lt_of_le (Float.zp a) h0
  obtain ⟨n, hn⟩ := unb_grid hp (E := Int.log 2 |p|) (Float.pow_log_le hpos)
  have hl : a ≤ Int.log 2 |p| := Float.le_log hpos h0
  have hlt := Float.lt_pow_log (a := |p|)
  generalize Int.log 2 |p| = L at hn hl hlt
  subst hn
  rw [mul_assoc, ← Float.zadd]
  apply unb_of _ (by omega)
  rw [abs_mul, abs_of_pos (Float.zp _), show L + 1 = ((F.f + 1 : ℕ) : ℤ) + (L - F.f) by push_cast; ring, Float.zadd,
    mul_lt_mul_iff_of_pos_right (Float.zp _), Float.znat] at hlt
  have : |n| < 2 ^ (F.f + 1) := by exact_mod_cast hlt
  exact this.le

theorem cLe_fin {F : Fmt} {a b : Val} (ha : Fin' F a) (hb : Fin' F b) : cLe a b = decide (numOf a ≤ numOf b) := by
  obtain ⟨_, h2, h3⟩ := ha
  obtain ⟨_, h5, h6⟩ := hb
  cases a <;> cases b <;> simp_all [cLe, isNaN, isInf]

theorem flt_fin {F : Fmt} {a b : Val} (ha : Fin' F a) (hb : Fin' F b) : flt a b = decide (numOf a < numOf b) := by
  unfold flt
  rw [cLe_fin ha hb, cLe_fin hb ha]
  by_cases h : numOf a < numOf b
  · simp [h, h.le]
  · simp [h, not_lt.1 h]

theorem sgn_pow (k : ℤ) : sgn (.num ((2 : ℚ) ^ k)) = false := by
  simp only [sgn, Special.neg]
  exact decide_eq_false (not_lt.2 (Float.zp k).le)

theorem sgn_pos {v : ℚ} (h : 0 ≤ v) : sgn (.num v) = false := by
  simp only [sgn, Special.neg]
  exact decide_eq_false (not_lt.2 h)

/-- product of positive numbers -/
theorem fmul_pos_num (F : Fmt) {a b : ℚ} (ha : 0 ≤ a) (hb : 0 ≤ b) : fmul F (.num a) (.num b) = rnd F false ((a * b : ℚ) : ℝ) := by
  unfold fmul
  simp only [isNaN, isInf, Bool.or_self, Bool.false_eq_true, if_false, sgn_pos ha, sgn_pos hb, numOf]
  rfl

/-- ml_exp.py, reconstruction: a single rounding of `p * 2^ik` in the three branches -/
theorem expResult_eq {F : Fmt} (he : 2 ≤ F.e) (hf4 : 4 ≤ F.f) (hef : F.e ≤ F.f) (h2 : 2 * (F.f : ℤ) + 2 ≤ F.emax) {ik : ℤ} {k : Val} (hk : Fin' F k) (hkn : numOf k = ik)
    (hlo : F.emin - F.f - 3 ≤ ik) (hhi : ik ≤ F.emax + 4) {p : ℚ} (hp : F.Finite p) (hp1 : 1 / 2 ≤ p) (hp2 : p ≤ 2) :
    expResult F ik k (.num p) = rnd F false ((p * (2 : ℚ) ^ ik : ℚ) : ℝ) := by
  have hemin : F.emin = 1 - F.emax := rfl
  have hp0 : 0 ≤ p := by linarith
  have hpu := ((finite_iff he).1 hp).1
  have hpa : (2 : ℚ) ^ (-1 : ℤ) ≤ |p| := by rw [abs_of_nonneg hp0]; norm_num; linarith
  have hcst : Fin' F (cst F F.emin) ∧ numOf (cst F F.emin) = F.emin := by
    have hb : |F.emin| ≤ 2 ^ (F.f + 1) := by
      have h3 : F.emax = 2 ^ (F.e - 1) - 1 := rfl
      have h4 : (2 : ℤ) ^ (F.e - 1) ≤ 2 ^ (F.f + 1) := pow_le_pow_right₀ (by norm_num) (by omega)
      have : (0 : ℤ) < 2 ^ (F.e - 1) := by positivity
      rw [abs_le]; constructor <;> omega
    have hu := unb_int he hb
    have hr : roundUnb F .RN ((F.emin : ℤ) : ℝ) = F.emin := by
      have := ru_exact hu; push_cast at this; exact this
    have := cst_fin he (F := F) (x := ((F.emin : ℤ) : ℝ)) ?_
    · rwa [hr] at this
    · rw [hr]
      refine abs_le_omega_of he ?_
      have h5 : (|F.emin| : ℤ) ≤ 2 ^ F.emax.toNat := by
        have h6 : F.emax.toNat < 2 ^ F.emax.toNat := Nat.lt_two_pow_self
        have h7 : ((F.emax.toNat : ℕ) : ℤ) < ((2 ^ F.emax.toNat : ℕ) : ℤ) := by exact_mod_cast h6
        push_cast at h7
        rw [abs_le]; constructor <;> omega
      have h8 : ((|F.emin| : ℤ) : ℚ) ≤ ((2 ^ F.emax.toNat : ℤ) : ℚ) := by exact_mod_cast h5
      push_cast at h8
      rw [← Float.znat, Int.toNat_of_nonneg (by omega)] at h8
      exact h8
  have hcond : cLe k (cst F F.emin) = decide (ik ≤ F.emin) := by
    rw [cLe_fin hk hcst.1, hcst.2, hkn]; simp
  -- a first product without rounding
  have first : ∀ j : ℤ, F.emin + 1 ≤ j → j ≤ F.emax - 1 → fmul F (insExp F j) (.num p) = .num (p * (2 : ℚ) ^ j) := by
    intro j h3 h4
    rw [insExp_eq he (by omega) (by omega), fmul_pos_num F (Float.zp _).le hp0, mul_comm]
    apply rnd_exact he
    · refine (finite_iff he).2 ⟨unb_scale hpu hpa (by omega), ?_⟩
      refine abs_le_omega_of he ?_
      rw [abs_of_nonneg (mul_nonneg hp0 (Float.zp _).le)]
      calc p * (2 : ℚ) ^ j ≤ 2 * (2 : ℚ) ^ j := mul_le_mul_of_nonneg_right hp2 (Float.zp _).le
        _ = (2 : ℚ) ^ (j + 1) := (Float.zsucc j).symm
        _ ≤ (2 : ℚ) ^ F.emax := Float.zle (by omega)
    · have := Float.zp j; exact (mul_pos (by linarith) this).ne'
  unfold expResult
  rw [hcond]
  by_cases ho : F.emax < ik
  · have hoff1 : (overOffset F : ℚ) ≤ F.emax - F.f / 2 := Int.floor_le _
    have hoff2 : (F.emax : ℚ) - F.f / 2 < overOffset F + 1 := Int.lt_floor_add_one _
    have ho1 : 2 * overOffset F ≤ 2 * F.emax - F.f := by
      have : (2 * overOffset F : ℚ) ≤ 2 * F.emax - F.f := by linarith
      exact_mod_cast this
    have ho2 : 2 * F.emax - F.f < 2 * overOffset F + 2 := by
      have : (2 * F.emax - F.f : ℚ) < 2 * overOffset F + 2 := by linarith
      exact_mod_cast this
    have hr : fmul F (fmul F (insExp F (ik - overOffset F)) (.num p)) (insExp F (overOffset F)) = rnd F false ((p * (2 : ℚ) ^ ik : ℚ) : ℝ) := by
      rw [first _ (by omega) (by omega), insExp_eq he (by omega) (by omega),
        fmul_pos_num F (mul_nonneg hp0 (Float.zp _).le) (Float.zp _).le, mul_assoc, ← Float.zadd]
      congr 4; ring
    simp only [ho, decide_true, Bool.true_or, Bool.not_true, Bool.false_eq_true, if_false, if_true, hr]
    split_ifs with hi
    · -- an infinity is the positive one
      have hpp : ¬ ((p * (2 : ℚ) ^ ik : ℚ) : ℝ) < 0 := by
        have : (0 : ℚ) ≤ p * (2 : ℚ) ^ ik := mul_nonneg hp0 (Float.zp _).le
        have : (0 : ℝ) ≤ ((p * (2 : ℚ) ^ ik : ℚ) : ℝ) := by exact_mod_cast this
        exact not_lt.2 this
      unfold rnd at hi ⊢
      simp only [hpp, decide_false] at hi ⊢
      split_ifs at hi ⊢ <;> simp_all [zeroS, infS, isInf]
    · rfl
  · by_cases hu : ik ≤ F.emin
    · simp only [ho, hu, decide_true, decide_false, Bool.or_true, Bool.not_true, Bool.false_eq_true, if_false]
      rw [first _ (by omega) (by omega), insExp_eq he (by omega) (by omega),
        fmul_pos_num F (mul_nonneg hp0 (Float.zp _).le) (Float.zp _).le, mul_assoc, ← Float.zadd]
      congr 4; ring
    · simp only [ho, hu, decide_false, Bool.or_self, Bool.not_false, if_true]
      rw [insExp_eq he (by omega) (by omega), fmul_pos_num F (Float.zp _).le hp0, mul_comm]

end Verif.Elem
