import Verif.Elem.ExpLemmas
import Verif.Elem.Spec

/-! # The standard model of floating-point arithmetic, from the rounding to nearest -/

namespace Verif.Elem

open Verif.Float (Fmt Val)
open Verif.Check

/-- the real of a finite datum -/
noncomputable def rv (a : Val) : ℝ := (numOf a : ℝ)

theorem isReal_rv {F : Fmt} {a : Val} {x : ℝ} : IsReal F a x ↔ Fin' F a ∧ rv a = x := by
  unfold IsReal Fin' rv
  cases a <;> simp [value, isNaN, isInf, numOf, Fmt.Datum, ← EReal.coe_zero, eq_comm]

/-- unit roundoff -/
noncomputable def uu (F : Fmt) : ℝ := (2 : ℝ) ^ (-(F.f : ℤ) - 1)

/-- half of the least subnormal number -/
noncomputable def ee (F : Fmt) : ℝ := (2 : ℝ) ^ (F.emin - F.f - 1)

theorem uu_pos (F : Fmt) : 0 < uu F := r2 _
theorem ee_pos (F : Fmt) : 0 < ee F := r2 _

/-- error of the rounding, relative and absolute -/
theorem ru_rel (F : Fmt) (z : ℝ) : |(roundUnb F .RN z : ℝ) - z| ≤ uu F * |z| ∨ |(roundUnb F .RN z : ℝ) - z| ≤ ee F := by
  by_cases hz : z = 0
  · subst hz; right; simp [roundUnb]; exact (ee_pos F).le
  have h := ru_error F z
  unfold lastPlace at h
  rcases le_total F.emin (Int.log 2 |z|) with h1 | h1
  · left
    rw [max_eq_left h1] at h
    refine le_trans h ?_
    have h3 := log_le hz
    rw [show Int.log 2 |z| - (F.f : ℤ) - 1 = (-(F.f : ℤ) - 1) + Int.log 2 |z| by ring, r2add]
    exact mul_le_mul_of_nonneg_left h3 (r2 _).le
  · right
    rw [max_eq_right h1] at h
    exact h

theorem ru_split (F : Fmt) (z : ℝ) : ∃ d n : ℝ, |d| ≤ uu F ∧ |n| ≤ ee F ∧ (roundUnb F .RN z : ℝ) = z * (1 + d) + n := by
  rcases ru_rel F z with h | h
  · by_cases hz : z = 0
    · subst hz; exact ⟨0, 0, by simp [(uu_pos F).le], by simp [(ee_pos F).le], by simp [roundUnb]⟩
    refine ⟨((roundUnb F .RN z : ℝ) - z) / z, 0, ?_, by simp [(ee_pos F).le], by field_simp; ring⟩
    rw [abs_div, div_le_iff₀ (abs_pos.2 hz)]; exact h
  · exact ⟨0, (roundUnb F .RN z : ℝ) - z, by simp [(uu_pos F).le], h, by ring⟩

theorem ru_no_over {F : Fmt} (he : 2 ≤ F.e) {z : ℝ} (h : |z| ≤ (2 : ℝ) ^ F.emax) : |roundUnb F .RN z| ≤ Float.omega F := by
  have hm := emax_pos he
  refine le_trans (ru_abs_le (k := F.emax) ?_ h) (omega_ge he)
  unfold Fmt.emin; omega

/-- C `fma` of finite data -/
theorem ffma_fin {F : Fmt} (he : 2 ≤ F.e) {a b c : Val} (ha : Fin' F a) (hb : Fin' F b) (hc : Fin' F c)
    (h : |rv a * rv b + rv c| ≤ (2 : ℝ) ^ F.emax) :
    Fin' F (ffma F a b c) ∧ rv (ffma F a b c) = roundUnb F .RN (rv a * rv b + rv c) := by
  have e : ((numOf a * numOf b + numOf c : ℚ) : ℝ) = rv a * rv b + rv c := by unfold rv; push_cast; rfl
  have h3 := ru_no_over he h
  unfold ffma
  simp only [ha.2.1, hb.2.1, hc.2.1, ha.2.2, hb.2.2, hc.2.2, Bool.or_self, Bool.false_eq_true, if_false]
  rw [e]
  obtain ⟨h4, h5⟩ := rnd_fin he (xor (sgn a) (sgn b) && sgn c) h3
  exact ⟨h4, by unfold rv at h5 ⊢; rw [h5]⟩

theorem fma_rel {F : Fmt} (he : 2 ≤ F.e) {a b c : Val} (ha : Fin' F a) (hb : Fin' F b) (hc : Fin' F c)
    (h : |rv a * rv b + rv c| ≤ (2 : ℝ) ^ F.emax) :
    Fin' F (ffma F a b c) ∧ ∃ d n : ℝ, |d| ≤ uu F ∧ |n| ≤ ee F ∧ rv (ffma F a b c) = (rv a * rv b + rv c) * (1 + d) + n := by
  obtain ⟨h1, h2⟩ := ffma_fin he ha hb hc h
  obtain ⟨d, n, h3, h4, h5⟩ := ru_split F (rv a * rv b + rv c)
  exact ⟨h1, d, n, h3, h4, by rw [h2, h5]⟩

theorem fmul_val {F : Fmt} (he : 2 ≤ F.e) {a b : Val} (ha : Fin' F a) (hb : Fin' F b) (h : |rv a * rv b| ≤ (2 : ℝ) ^ F.emax) :
    Fin' F (fmul F a b) ∧ rv (fmul F a b) = roundUnb F .RN (rv a * rv b) := by
  have e : ((numOf a * numOf b : ℚ) : ℝ) = rv a * rv b := by unfold rv; push_cast; rfl
  obtain ⟨h1, h2⟩ := fmul_fin he ha hb (by rw [e]; exact ru_no_over he h)
  rw [e] at h2
  exact ⟨h1, by unfold rv at h2 ⊢; rw [h2]⟩

theorem mul_rel {F : Fmt} (he : 2 ≤ F.e) {a b : Val} (ha : Fin' F a) (hb : Fin' F b) (h : |rv a * rv b| ≤ (2 : ℝ) ^ F.emax) :
    Fin' F (fmul F a b) ∧ ∃ d n : ℝ, |d| ≤ uu F ∧ |n| ≤ ee F ∧ rv (fmul F a b) = (rv a * rv b) * (1 + d) + n := by
  obtain ⟨h1, h2⟩ := fmul_val he ha hb h
  obtain ⟨d, n, h3, h4, h5⟩ := ru_split F (rv a * rv b)
  exact ⟨h1, d, n, h3, h4, by rw [h2, h5]⟩

theorem rv_neg {F : Fmt} {a : Val} (ha : Fin' F a) : Fin' F (fneg a) ∧ rv (fneg a) = -rv a := by
  obtain ⟨h1, h2⟩ := fneg_fin ha
  exact ⟨h1, by unfold rv; rw [h2]; push_cast; rfl⟩

/-- a real between two consecutive powers of two rounds to the given integer multiple of the last place -/
theorem ru_eq {F : Fmt} {z : ℝ} {E n : ℤ} (hE : F.emin ≤ E) (h1 : (2 : ℝ) ^ E ≤ |z|) (h2 : |z| < (2 : ℝ) ^ (E + 1))
    (h : |z - n * (2 : ℝ) ^ (E - F.f)| < (2 : ℝ) ^ (E - F.f - 1)) : roundUnb F .RN z = n * (2 : ℚ) ^ (E - F.f) := by
  have hz : z ≠ 0 := by
    intro h0; rw [h0, abs_zero] at h1; exact absurd h1 (not_le.2 (r2 _))
  have hlog : Int.log 2 |z| = E := log_eqR h1 h2
  have hlp : lastPlace F z = E - F.f := by unfold lastPlace; rw [hlog, max_eq_left hE]
  unfold roundUnb
  rw [if_neg hz, hlp]
  congr 2
  have hp := r2 (E - F.f)
  have h4 := toInt_near (z / (2 : ℝ) ^ (E - F.f))
  set t := toInt .RN (z / (2 : ℝ) ^ (E - F.f)) with ht
  have h5 : |z / (2 : ℝ) ^ (E - F.f) - n| < 1 / 2 := by
    have e : z / (2 : ℝ) ^ (E - F.f) - n = (z - n * (2 : ℝ) ^ (E - F.f)) / (2 : ℝ) ^ (E - F.f) := by field_simp
    rw [e, abs_div, abs_of_pos hp, div_lt_iff₀ hp]
    refine lt_of_lt_of_eq h ?_
    rw [show E - (F.f : ℤ) = 1 + (E - F.f - 1) by ring, r2add, zpow_one, show (1 : ℤ) + (E - F.f - 1) - 1 = E - F.f - 1 by ring]; ring
  have h6 : |(t : ℝ) - n| < 1 := by
    obtain ⟨a1, a2⟩ := abs_le.1 h4
    obtain ⟨b1, b2⟩ := abs_lt.1 h5
    rw [abs_lt]; constructor <;> linarith
  have h7 : |t - n| < 1 := by exact_mod_cast h6
  rw [abs_lt] at h7
  have : t = n := by omega
  exact_mod_cast this

end Verif.Elem
