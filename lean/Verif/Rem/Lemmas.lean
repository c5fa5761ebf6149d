import Verif.Rem.Model
import Verif.Elem.Rel

/-! # Exact operations on non-negative numbers -/

namespace Verif.Rem

open Verif.Float (Fmt Val)
open Verif.Elem
open Verif.Check

/-- the datum of a non-negative number -/
def nn (q : ℚ) : Val := if q = 0 then .plusZero else .num q

theorem nn_num {q : ℚ} (h : q ≠ 0) : nn q = .num q := if_neg h
theorem nn_zero : nn 0 = .plusZero := if_pos rfl
theorem numOf_nn (q : ℚ) : numOf (nn q) = q := by
  unfold nn; split_ifs with h
  · rw [h]; rfl
  · rfl
theorem isNaN_nn (q : ℚ) : isNaN (nn q) = false := by unfold nn; split_ifs <;> rfl
theorem isInf_nn (q : ℚ) : isInf (nn q) = false := by unfold nn; split_ifs <;> rfl
theorem sgn_nn {q : ℚ} (h : 0 ≤ q) : sgn (nn q) = false := by
  unfold nn; split_ifs
  · rfl
  · exact sgn_pos h
theorem fabs_nn {q : ℚ} (h : 0 ≤ q) : fabs (nn q) = nn q := by unfold fabs; rw [sgn_nn h]; rfl
theorem nn_fin {F : Fmt} {q : ℚ} (h : F.Finite q) : Fin' F (nn q) := by
  refine ⟨?_, isNaN_nn q, isInf_nn q⟩
  unfold nn; split_ifs with h0
  · trivial
  · exact ⟨h, h0⟩

theorem fabs_num {v : ℚ} (h : v ≠ 0) : fabs (.num v) = nn |v| := by
  unfold fabs
  rw [nn_num (abs_ne_zero.2 h)]
  by_cases hv : v < 0
  · have : sgn (.num v) = true := decide_eq_true hv
    rw [this, abs_of_neg hv]; rfl
  · rw [sgn_pos (not_lt.1 hv), abs_of_nonneg (not_lt.1 hv)]; rfl

theorem cLe_nn (a b : ℚ) : cLe (nn a) (nn b) = decide (a ≤ b) := by
  unfold nn; split_ifs with h1 h2 h2 <;> simp_all [cLe, numOf] <;> congr

theorem fge_nn (a b : ℚ) : fge (nn a) (nn b) = decide (b ≤ a) := cLe_nn b a

theorem flt_nn (a b : ℚ) : flt (nn a) (nn b) = decide (a < b) := by
  unfold flt
  rw [cLe_nn, cLe_nn]
  by_cases h : a < b
  · simp [h, h.le]
  · simp [h, not_lt.1 h]

theorem fgt_nn (a b : ℚ) : fgt (nn a) (nn b) = decide (b < a) := flt_nn b a

theorem cEq_nn (a b : ℚ) : cEq (nn a) (nn b) = decide (a = b) := by
  unfold cEq
  rw [cLe_nn, cLe_nn]
  by_cases h : a = b
  · simp [h]
  · rw [decide_eq_false h]
    rcases lt_or_gt_of_ne h with h1 | h1
    · simp [not_le.2 h1]
    · simp [not_le.2 h1]

theorem rnd_nn {F : Fmt} (he : 2 ≤ F.e) {q : ℚ} (h : F.Finite q) : rnd F false (q : ℝ) = nn q := by
  unfold nn; split_ifs with h0
  · rw [h0]; simp [rnd, zeroS]
  · exact rnd_exact he _ h h0

theorem fmul_nn {F : Fmt} (he : 2 ≤ F.e) {a b : ℚ} (ha : 0 ≤ a) (hb : 0 ≤ b) (h : F.Finite (a * b)) : fmul F (nn a) (nn b) = nn (a * b) := by
  unfold fmul
  simp only [isNaN_nn, isInf_nn, sgn_nn ha, sgn_nn hb, numOf_nn, Bool.or_self, Bool.false_eq_true, if_false, Bool.xor_self]
  exact rnd_nn he h

theorem fmul_num {F : Fmt} (he : 2 ≤ F.e) {a b : ℚ} (ha : a ≠ 0) (hb : b ≠ 0) (h : F.Finite (a * b)) : fmul F (.num a) (.num b) = .num (a * b) := by
  unfold fmul
  simp only [isNaN, isInf, numOf, Bool.or_self, Bool.false_eq_true, if_false]
  exact rnd_exact he _ h (mul_ne_zero ha hb)

theorem numOf_fneg (a : Val) : numOf (fneg a) = -numOf a := by cases a <;> simp [fneg, numOf]
theorem isNaN_fneg (a : Val) : isNaN (fneg a) = isNaN a := by cases a <;> rfl
theorem isInf_fneg (a : Val) : isInf (fneg a) = isInf a := by cases a <;> rfl

theorem fsub_nn {F : Fmt} (he : 2 ≤ F.e) {a b : ℚ} (ha : 0 ≤ a) (h : F.Finite (a - b)) : fsub F (nn a) (nn b) = if a = b then .plusZero else .num (a - b) := by
  unfold fsub fadd
  simp only [isNaN_nn, isInf_nn, isNaN_fneg, isInf_fneg, sgn_nn ha, numOf_nn, numOf_fneg, Bool.or_self, Bool.false_eq_true, if_false, Bool.false_and]
  rw [← sub_eq_add_neg]
  by_cases h0 : a = b
  · rw [if_pos h0, h0]; simp [rnd, zeroS]
  · rw [if_neg h0]
    exact rnd_exact he _ h (sub_ne_zero.2 h0)

theorem fsub_nn' {F : Fmt} (he : 2 ≤ F.e) {a b : ℚ} (ha : 0 ≤ a) (h : F.Finite (a - b)) : fsub F (nn a) (nn b) = nn (a - b) := by
  rw [fsub_nn he ha h]
  unfold nn
  by_cases h0 : a = b
  · rw [if_pos h0, if_pos (sub_eq_zero.2 h0)]
  · rw [if_neg h0, if_neg (sub_ne_zero.2 h0)]

/-- multiples of a power of two that fit the significand are numbers of the format -/
theorem fin_of {F : Fmt} (he : 2 ≤ F.e) {c : ℤ} {j : ℤ} (hc : |c| ≤ 2 ^ (F.f + 1)) (hj : F.emin - F.f ≤ j) {q : ℚ} (hq : q = c * (2 : ℚ) ^ j)
    (hb : |q| < (2 : ℚ) ^ (F.emax + 1)) : F.Finite q := by
  have hu : Unbounded F q := by rw [hq]; exact unb_of hc hj
  refine (finite_iff he).2 ⟨hu, ?_⟩
  rcases abs_choice q with h | h
  · rw [h] at hb ⊢; exact unb_le_omega he hu hb
  · rw [h] at hb ⊢; exact unb_le_omega he (unb_neg hu) hb

theorem wrap_eq {F : Fmt} {a b : ℤ} (h : a % 2 ^ intSize F = b % 2 ^ intSize F) : wrap F a = wrap F b := by
  unfold wrap Int.bmod
  have : ((2 ^ intSize F : ℕ) : ℤ) = 2 ^ intSize F := by push_cast; rfl
  simp only [this, h]

theorem wrap_mod (F : Fmt) (a : ℤ) : wrap F a % 2 ^ intSize F = a % 2 ^ intSize F := by
  unfold wrap
  have : ((2 ^ intSize F : ℕ) : ℤ) = 2 ^ intSize F := by push_cast; rfl
  rw [← this]
  exact Int.bmod_emod

theorem wrap_add (F : Fmt) (a b : ℤ) : wrap F (wrap F a + b) = wrap F (a + b) := by
  apply wrap_eq
  rw [Int.add_emod, wrap_mod, ← Int.add_emod]

theorem wrap_mul (F : Fmt) (a b : ℤ) : wrap F (wrap F a * b) = wrap F (a * b) := by
  apply wrap_eq
  rw [Int.mul_emod, wrap_mod, ← Int.mul_emod]

theorem wrap_small {F : Fmt} {a : ℤ} (h0 : 0 ≤ a) (h : a < 2 ^ F.f) : wrap F a = a := by
  unfold wrap
  have h1 : (2 : ℤ) ^ F.f * 2 ≤ 2 ^ intSize F := by
    rw [← pow_succ]; exact pow_le_pow_right₀ (by norm_num) (by unfold intSize; omega)
  apply Int.bmod_eq_of_le
  · push_cast
    have := Int.ediv_nonneg (show (0 : ℤ) ≤ 2 ^ intSize F by positivity) (show (0 : ℤ) ≤ 2 by norm_num)
    omega
  · push_cast
    omega

end Verif.Rem
