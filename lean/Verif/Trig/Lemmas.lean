import Verif.Trig.Model
import Verif.Trig.Spec
import Verif.Rem.Fmod
import Verif.Check.Theorems

/-! # Operations of the reduction, on finite operands -/

namespace Verif.Trig

open Verif.Float (Fmt Val)
open Verif.Check
open Verif.Elem
open Verif.Rem (truncQ rr rr_le rr_ge rr_unb rr_exact up up_grid up_lt up_ge unb_below)

theorem he2 : 2 ≤ b64.e := by decide
theorem f_eq : b64.f = 52 := rfl
theorem emax_eq : b64.emax = 1023 := by decide
theorem emin_eq : b64.emin = -1022 := by decide
theorem omega_big : (2 : ℚ) ^ (1023 : ℤ) ≤ Float.omega b64 := by
  have := omega_ge he2; rwa [emax_eq] at this

/-- a multiple of a power of two with 53 bits -/
theorem unb {m q : ℤ} (hm : |m| ≤ 2 ^ 53) (hq : -1074 ≤ q) : Unbounded b64 (m * (2 : ℚ) ^ q) :=
  unb_of (F := b64) hm (by rw [emin_eq, f_eq]; omega)

theorem cst_exact {v : ℚ} (hu : Unbounded b64 v) (ho : |v| ≤ Float.omega b64) : Fin' b64 (cst b64 (v : ℝ)) ∧ numOf (cst b64 (v : ℝ)) = v := by
  have h : roundUnb b64 .RN (v : ℝ) = v := ru_exact hu
  have := rnd_fin he2 false (x := (v : ℝ)) (by rw [h]; exact ho)
  rw [h] at this
  exact this

theorem mul_exact {a b : Val} {v : ℚ} (ha : Fin' b64 a) (hb : Fin' b64 b) (hv : numOf a * numOf b = v) (hu : Unbounded b64 v) (ho : |v| ≤ Float.omega b64) :
    Fin' b64 (fmul b64 a b) ∧ numOf (fmul b64 a b) = v := by
  have h : roundUnb b64 .RN (v : ℝ) = v := ru_exact hu
  have := fmul_fin he2 ha hb (by rw [hv, h]; exact ho)
  rw [hv, h] at this
  exact this

theorem sub_exact {a b : Val} {v : ℚ} (ha : Fin' b64 a) (hb : Fin' b64 b) (hv : numOf a - numOf b = v) (hu : Unbounded b64 v) (ho : |v| ≤ Float.omega b64) :
    Fin' b64 (fsub b64 a b) ∧ numOf (fsub b64 a b) = v := by
  have h : roundUnb b64 .RN (v : ℝ) = v := ru_exact hu
  have := fsub_fin he2 ha hb (by rw [hv, h]; exact ho)
  rw [hv, h] at this
  exact this

/-- a sum of magnitude at most `w`, itself at most `2^j` -/
theorem add_err {a b : Val} {w : ℚ} {j : ℤ} (ha : Fin' b64 a) (hb : Fin' b64 b) (hw : Unbounded b64 w) (h : |numOf a + numOf b| ≤ w) (hj : w ≤ (2 : ℚ) ^ j)
    (h0 : -1000 ≤ j) (h1 : j ≤ 1023) :
    Fin' b64 (fadd b64 a b) ∧ |numOf (fadd b64 a b)| ≤ w ∧ |numOf (fadd b64 a b) - (numOf a + numOf b)| ≤ (2 : ℚ) ^ (j - 54) := by
  set z := numOf a + numOf b with hz
  have hb1 : |rr b64 z| ≤ w := by
    have hn : Unbounded b64 (-w) := by
      obtain ⟨m, E, h1, h2, rfl⟩ := hw
      exact ⟨-m, E, by rwa [abs_neg], h2, by push_cast; ring⟩
    exact abs_le.2 ⟨rr_ge hn (abs_le.1 h).1, rr_le hw (abs_le.1 h).2⟩
  have ho : |roundUnb b64 .RN (z : ℝ)| ≤ Float.omega b64 :=
    le_trans hb1 (le_trans hj (le_trans (Float.zle h1) omega_big))
  obtain ⟨e1, e2⟩ := fadd_fin he2 ha hb ho
  rw [← hz] at e2
  refine ⟨e1, by rw [e2]; exact hb1, ?_⟩
  rw [e2]
  by_cases hz0 : z = 0
  · rw [hz0]; simp [roundUnb]; exact (Float.zp _).le
  rcases eq_or_lt_of_le (le_trans h hj) with heq | hlt
  · have hu : Unbounded b64 z := by
      have hp : Unbounded b64 ((2 : ℚ) ^ j) := unb_pow (by rw [emin_eq, f_eq]; omega)
      rcases abs_choice z with hc | hc
      · rw [← hc, heq]; exact hp
      · obtain ⟨m, E, h1, h2, h3⟩ := hp
        refine ⟨-m, E, by rwa [abs_neg], h2, ?_⟩
        rw [← neg_neg z, ← hc, heq, h3]; push_cast; ring
    rw [ru_exact hu]; simp; exact (Float.zp _).le
  · have herr := ru_error b64 (z : ℝ)
    have hl : Int.log 2 |(z : ℝ)| < j := log_ltR (abs_pos.2 (by exact_mod_cast hz0)) (by rw [r2cast, ← Rat.cast_abs]; exact_mod_cast hlt)
    have h2 : lastPlace b64 (z : ℝ) - 1 ≤ j - 54 := by
      unfold lastPlace; rw [emin_eq, f_eq]; push_cast; omega
    have h3 := le_trans herr (r2le h2)
    rw [r2cast] at h3
    exact_mod_cast h3

theorem near_le (q : ℚ) : |q - (toInt .RN (q : ℝ) : ℚ)| ≤ 1 / 2 := by
  have := toInt_near (q : ℝ)
  have e : |((q - (toInt .RN (q : ℝ) : ℚ) : ℚ) : ℝ)| ≤ ((1 / 2 : ℚ) : ℝ) := by push_cast; exact this
  rw [← Rat.cast_abs] at e
  exact_mod_cast e

theorem near_min (q : ℚ) : |q - (toInt .RN (q : ℝ) : ℚ)| ≤ |q| := by
  have := toInt_min (q : ℝ) 0
  have e : |((q - (toInt .RN (q : ℝ) : ℚ) : ℚ) : ℝ)| ≤ |(q : ℝ)| := by push_cast; simpa using this
  rw [← Rat.cast_abs, ← Rat.cast_abs] at e
  exact_mod_cast e

/-- the nearest integer to a number of the format, and what is left, are numbers of the format -/
theorem near_unb {v : ℚ} (hv : Unbounded b64 v) : Unbounded b64 ((toInt .RN (v : ℝ) : ℤ) : ℚ) ∧ Unbounded b64 (v - (toInt .RN (v : ℝ) : ℤ)) := by
  by_cases h0 : v = 0
  · subst h0
    have : toInt .RN ((0 : ℚ) : ℝ) = 0 := toInt_eq (by simp)
    rw [this]; simp; exact unb_zero _
  obtain ⟨a, ha⟩ := up_grid hv h0
  have hlt := up_lt (F := b64) (Y := v)
  have h1 := near_le v
  have h2 := near_min v
  set n := toInt .RN (v : ℝ) with hn
  rcases le_total 0 (up b64 v) with hu | hu
  · obtain ⟨b, hb⟩ := grid_coarse a hu
    rw [← ha, zpow_zero, mul_one] at hb
    have : n = b := by
      rw [hn]; apply toInt_eq; rw [hb]; simp
    rw [this, hb]
    refine ⟨hb ▸ hv, by simp; exact unb_zero _⟩
  · obtain ⟨b, hb⟩ := grid_coarse n hu
    rw [zpow_zero, mul_one] at hb
    refine ⟨?_, unb_below (n := a - b) (by push_cast; linear_combination ha - hb) h2⟩
    by_cases hu' : up b64 v = 0
    · have hvi : v = ((a : ℤ) : ℚ) := by rw [ha, hu']; simp
      have : n = a := by rw [hn]; apply toInt_eq; rw [hvi]; simp
      rw [this, ← hvi]; exact hv
    have h3 : (2 : ℚ) ^ (up b64 v) ≤ (2 : ℚ) ^ (-1 : ℤ) := Float.zle (by omega)
    have h4 : |(n : ℚ)| < 2 ^ 52 + 1 := by
      have h5 : |(n : ℚ)| ≤ |v| + 1 / 2 := by
        have := abs_sub_abs_le_abs_sub (n : ℚ) v
        rw [abs_sub_comm] at this; linarith
      rw [f_eq] at hlt
      norm_num at hlt h3 ⊢
      linarith
    have h5 : |n| < 2 ^ 52 + 1 := by exact_mod_cast h4
    have := unb (m := n) (q := 0) (by norm_num at h5 ⊢; omega) (by norm_num)
    simpa using this

theorem fin_unb {a : Val} (ha : Fin' b64 a) : Unbounded b64 (numOf a) ∧ |numOf a| ≤ Float.omega b64 := by
  obtain ⟨h1, h2, h3⟩ := ha
  have hz : Unbounded b64 0 ∧ |(0 : ℚ)| ≤ Float.omega b64 := ⟨unb_zero _, by rw [abs_zero]; exact le_trans (Float.zp _).le omega_big⟩
  cases a <;> simp [isNaN, isInf] at h2 h3 <;> simp only [numOf]
  · exact hz
  · exact hz
  · exact (finite_iff he2).1 h1.1

/-- splitting a number into its nearest integer and what is left -/
theorem near_split {a : Val} (ha : Fin' b64 a) (hb : |numOf a| ≤ 2 ^ 62) :
    ∃ n : ℤ, nearInt a = some n ∧ |numOf a - n| ≤ 1 / 2 ∧ Fin' b64 (fsub b64 a (ofInt n)) ∧ numOf (fsub b64 a (ofInt n)) = numOf a - n := by
  obtain ⟨hu, ho⟩ := fin_unb ha
  refine ⟨nearestZ a, ?_, near_le _, ?_⟩
  · have h1 := near_le (numOf a)
    have h3 : |(nearestZ a : ℚ)| ≤ 2 ^ 62 + 1 / 2 := by
      have := abs_sub_abs_le_abs_sub (nearestZ a : ℚ) (numOf a)
      rw [abs_sub_comm] at this
      unfold nearestZ at this ⊢; linarith
    have h4 : |nearestZ a| < 2 ^ 62 + 1 := by
      have : |(nearestZ a : ℚ)| < 2 ^ 62 + 1 := by linarith
      exact_mod_cast this
    rw [abs_lt] at h4
    unfold nearInt isInfOrNaN int64
    rw [ha.2.1, ha.2.2]
    simp only [Bool.or_self, Bool.false_eq_true, if_false]
    rw [if_pos ⟨by norm_num at h4 ⊢; omega, by norm_num at h4 ⊢; omega⟩]
  · obtain ⟨u1, u2⟩ := near_unb hu
    have hn := near_le (numOf a)
    have ho1 : |(nearestZ a : ℚ)| ≤ Float.omega b64 := by
      have h3 : |(nearestZ a : ℚ)| ≤ 2 ^ 62 + 1 / 2 := by
        have := abs_sub_abs_le_abs_sub (nearestZ a : ℚ) (numOf a)
        rw [abs_sub_comm] at this
        unfold nearestZ at this ⊢; linarith
      refine le_trans h3 (le_trans ?_ omega_big)
      have : (2 : ℚ) ^ (63 : ℤ) ≤ (2 : ℚ) ^ (1023 : ℤ) := Float.zle (by norm_num)
      refine le_trans ?_ this
      norm_num
    obtain ⟨f1, f2⟩ := cst_exact (v := (nearestZ a : ℚ)) u1 ho1
    exact sub_exact ha f1 (by unfold ofInt; unfold cst at f2; rw [f2]) u2 (le_trans (near_min _) ho)

theorem int64_some {n : ℤ} (h : |n| < 2 ^ 63) : int64 n = some n := by
  rw [abs_lt] at h
  unfold int64
  rw [if_pos ⟨by omega, h.2⟩]

end Verif.Trig
