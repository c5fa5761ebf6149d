import Mathlib.Analysis.SpecialFunctions.Trigonometric.ArctanDeriv
import Mathlib.Analysis.Calculus.MeanValue
import Verif.Elem.Rel
import Verif.Elem.Exp2Red
import Verif.Atan.Spec
import Verif.Atan.Model

/-! # The combination of the parts of the arc tangent -/

namespace Verif.Atan

open Verif.Float (Fmt Val)
open Verif.Elem Verif.Check
open Real (arctan pi)

theorem arctan_lip (a b : ℝ) : |arctan a - arctan b| ≤ |a - b| := by
  have := Convex.norm_image_sub_le_of_norm_deriv_le (f := arctan) (s := Set.univ) (C := 1) (x := b) (y := a)
    (fun x _ => Real.differentiableAt_arctan x) (fun x _ => by
      rw [Real.deriv_arctan, Real.norm_eq_abs, abs_of_pos (by positivity), div_le_one (by positivity)]
      nlinarith [sq_nonneg x]) convex_univ trivial trivial
  simpa using this

theorem fadd_val {F : Fmt} (he : 2 ≤ F.e) {a b : Val} (ha : Fin' F a) (hb : Fin' F b) (h : |rv a + rv b| ≤ (2 : ℝ) ^ F.emax) :
    Fin' F (fadd F a b) ∧ rv (fadd F a b) = roundUnb F .RN (rv a + rv b) := by
  have e : ((numOf a + numOf b : ℚ) : ℝ) = rv a + rv b := by unfold rv; push_cast; rfl
  obtain ⟨h1, h2⟩ := fadd_fin he ha hb (by rw [e]; exact ru_no_over he h)
  rw [e] at h2
  exact ⟨h1, by unfold rv at h2 ⊢; rw [h2]⟩

theorem fdiv_val {F : Fmt} (he : 2 ≤ F.e) {a b : Val} (ha : Fin' F a) (hb : Fin' F b) (h0 : rv b ≠ 0) (h : |rv a / rv b| ≤ (2 : ℝ) ^ F.emax) :
    Fin' F (fdiv F a b) ∧ rv (fdiv F a b) = roundUnb F .RN (rv a / rv b) := by
  have e : ((numOf a / numOf b : ℚ) : ℝ) = rv a / rv b := by unfold rv; push_cast; rfl
  have hz : isZero b = false := by
    have : numOf b ≠ 0 := by unfold rv at h0; exact_mod_cast h0
    cases b <;> simp_all [numOf, isZero]
  unfold fdiv
  simp only [ha.2.1, hb.2.1, ha.2.2, hb.2.2, hz, Bool.or_self, Bool.false_eq_true, if_false]
  rw [e]
  obtain ⟨h4, h5⟩ := rnd_fin he (xor (sgn a) (sgn b)) (ru_no_over he h)
  exact ⟨h4, by unfold rv at h5 ⊢; rw [h5]⟩

theorem ru_rv {F : Fmt} (he : 2 ≤ F.e) {a : Val} (ha : Fin' F a) : (roundUnb F .RN (rv a) : ℝ) = rv a := by
  unfold rv; rw [ru_exact (fin_unb he ha).1]

theorem ru_rvn {F : Fmt} (he : 2 ≤ F.e) {a : Val} (ha : Fin' F a) : (roundUnb F .RN (-rv a) : ℝ) = -rv a := by
  rw [ru_neg]; push_cast; rw [ru_rv he ha]

theorem rv_le {F : Fmt} {a : Val} (he : 2 ≤ F.e) (ha : Fin' F a) : |rv a| ≤ (Float.omega F : ℝ) := by
  unfold rv; exact_mod_cast (fin_unb he ha).2

theorem four_le {F : Fmt} (hF : Wide F) : (4 : ℝ) ≤ (2 : ℝ) ^ F.emax := by
  have := hF.m; have := hF.f
  calc (4 : ℝ) = (2 : ℝ) ^ (2 : ℤ) := by norm_num
    _ ≤ _ := r2le (by omega)

theorem unbOne {F : Fmt} (hF : Wide F) : F.Finite 1 := by
  rw [finite_iff hF.e2]
  refine ⟨by simpa using unb_int (F := F) hF.e2 (n := 1) (by simp; exact one_le_pow₀ (by norm_num)), ?_⟩
  refine abs_le_omega_of hF.e2 ?_
  rw [abs_one]
  calc (1 : ℚ) = (2 : ℚ) ^ (0 : ℤ) := by norm_num
    _ ≤ _ := zpow_le_zpow_right₀ (by norm_num) (by have := hF.m; omega)

theorem one_fin {F : Fmt} (hF : Wide F) : Fin' F (.num 1) := ⟨⟨unbOne hF, by norm_num⟩, rfl, rfl⟩

theorem pm_fin {F : Fmt} (hF : Wide F) (c : Bool) : Fin' F (pm c) ∧ rv (pm c) = if c then -1 else 1 := by
  cases c
  · exact ⟨one_fin hF, by simp [pm, rv, numOf]⟩
  · exact ⟨(fneg_fin (one_fin hF)).1, by simp [pm, rv, numOf]⟩

/-- multiplication by a sign is exact -/
theorem pm_mul {F : Fmt} (hF : Wide F) (c : Bool) {a : Val} (ha : Fin' F a) :
    Fin' F (fmul F (pm c) a) ∧ rv (fmul F (pm c) a) = (if c then -1 else 1) * rv a := by
  obtain ⟨h1, h2⟩ := pm_fin hF c
  have he := hF.e2
  have e : (((numOf (pm c) * numOf a : ℚ)) : ℝ) = (if c then -1 else 1) * rv a := by
    push_cast; rw [← h2]; rfl
  have er : roundUnb F .RN ((numOf (pm c) * numOf a : ℚ) : ℝ) = numOf (pm c) * numOf a := by
    refine ru_exact ?_
    cases c
    · simpa [pm, numOf] using (fin_unb he ha).1
    · simpa [pm, numOf] using unb_neg (fin_unb he ha).1
  have eo : |roundUnb F .RN ((numOf (pm c) * numOf a : ℚ) : ℝ)| ≤ Float.omega F := by
    rw [er, abs_mul]
    have := (fin_unb he ha).2
    cases c <;> simpa [pm, numOf] using this
  obtain ⟨h4, h5⟩ := fmul_fin he h1 ha eo
  refine ⟨h4, ?_⟩
  rw [← e, rv, h5, er]

theorem zero_fin (F : Fmt) (s : Bool) : Fin' F (zeroS s) ∧ rv (zeroS s) = 0 := by
  cases s <;> simp [zeroS, Fin', Fmt.Datum, isNaN, isInf, rv, numOf]

theorem zero_add' {F : Fmt} (hF : Wide F) {a b : Val} (ha : Fin' F a) (hz : rv a = 0) (hb : Fin' F b) :
    Fin' F (fadd F a b) ∧ rv (fadd F a b) = rv b := by
  have he := hF.e2
  have hz' : numOf a = 0 := by unfold rv at hz; exact_mod_cast hz
  have er : roundUnb F .RN ((numOf a + numOf b : ℚ) : ℝ) = numOf b := by
    rw [hz', zero_add]; exact ru_exact (fin_unb he hb).1
  obtain ⟨h1, h2⟩ := fadd_fin he ha hb (by rw [er]; exact (fin_unb he hb).2)
  exact ⟨h1, by rw [rv, h2, er]; rfl⟩

theorem add_zero' {F : Fmt} (hF : Wide F) {a b : Val} (ha : Fin' F a) (hb : Fin' F b) (hz : rv b = 0) :
    Fin' F (fadd F a b) ∧ rv (fadd F a b) = rv a := by
  have he := hF.e2
  have hz' : numOf b = 0 := by unfold rv at hz; exact_mod_cast hz
  have er : roundUnb F .RN ((numOf a + numOf b : ℚ) : ℝ) = numOf a := by
    rw [hz', add_zero]; exact ru_exact (fin_unb he ha).1
  obtain ⟨h1, h2⟩ := fadd_fin he ha hb (by rw [er]; exact (fin_unb he ha).2)
  exact ⟨h1, by rw [rv, h2, er]; rfl⟩

theorem uu_le {F : Fmt} (hF : Wide F) : uu F ≤ 1 / 2048 := by
  have := hF.f
  unfold uu
  calc (2 : ℝ) ^ (-(F.f : ℤ) - 1) ≤ (2 : ℝ) ^ (-11 : ℤ) := r2le (by omega)
    _ = 1 / 2048 := by norm_num

theorem emin_le {F : Fmt} (hF : Wide F) : F.emin ≤ -10 := by
  have := hF.m; have := hF.f; unfold Fmt.emin; omega

/-- rounding below 2 -/
theorem ru_two {F : Fmt} (hF : Wide F) {z : ℝ} (h : |z| ≤ 2) : |(roundUnb F .RN z : ℝ) - z| ≤ uu F := by
  have := ru_err_le (F := F) (x := z) (k := 0) (by have := emin_le hF; omega) (by norm_num; exact h)
  simpa [uu] using this

/-- rounding below 4 -/
theorem ru_four {F : Fmt} (hF : Wide F) {z : ℝ} (h : |z| ≤ 4) : |(roundUnb F .RN z : ℝ) - z| ≤ 2 * uu F := by
  have := ru_err_le (F := F) (x := z) (k := 1) (by have := emin_le hF; omega) (by norm_num; exact h)
  refine le_trans this (le_of_eq ?_)
  unfold uu
  rw [show (1 : ℤ) - F.f - 1 = 1 + (-(F.f : ℤ) - 1) by ring, r2add]; norm_num

theorem pi_bd : 3.14 < pi ∧ pi < 3.15 := ⟨Real.pi_gt_d2, Real.pi_lt_d2⟩

theorem cst_val {F : Fmt} (hF : Wide F) {x : ℝ} (h : |x| ≤ 4) : Fin' F (cst F x) ∧ rv (cst F x) = roundUnb F .RN x := by
  obtain ⟨h1, h2⟩ := cst_fin hF.e2 (ru_no_over hF.e2 (le_trans h (four_le hF)))
  exact ⟨h1, by rw [rv, h2]⟩

theorem cst_half_pi {F : Fmt} (hF : Wide F) : Fin' F (cst F (pi / 2)) ∧ |rv (cst F (pi / 2)) - pi / 2| ≤ uu F := by
  obtain ⟨a, b⟩ := pi_bd
  obtain ⟨h1, h2⟩ := cst_val hF (x := pi / 2) (by rw [abs_of_pos] <;> linarith)
  exact ⟨h1, by rw [h2]; exact ru_two hF (by rw [abs_of_pos] <;> linarith)⟩

/-- sign of a selection -/
def sg (c : Bool) : ℝ := if c then -1 else 1

theorem sg_abs (c : Bool) : |sg c| = 1 := by cases c <;> simp [sg]

/-- the angle that the reduced argument `t` stands for -/
noncomputable def part (bound : Bool) (t : ℝ) : ℝ := if bound then pi / 2 - arctan t else arctan t

/-- the combination of the constant and of the approximation -/
theorem combine_near {F : Fmt} (hF : Wide F) {ε : ℝ} (he0 : 0 ≤ ε) (hε : ε ≤ 1 / 8) {P : Val → Val} (hP : Approx F ε P) (c bound : Bool) {red : Val}
    {t : ℝ} (h1 : Fin' F red) (h2 : 0 ≤ rv red) (h3 : rv red ≤ 1) (h4 : |rv red - t| ≤ uu F) :
    Fin' F (combine F P (xor c bound) c bound red) ∧ |rv (combine F P (xor c bound) c bound red) - sg c * part bound t| ≤ ε + 3 * uu F ∧
      (bound = false → rv red = t → |rv (combine F P (xor c bound) c bound red) - sg c * part bound t| ≤ ε) := by
  obtain ⟨z, hz1, hz2⟩ := hP red (rv red) (isReal_rv.2 ⟨h1, rfl⟩) h2 h3
  obtain ⟨p1, p2⟩ := isReal_rv.1 hz1
  have hu := uu_pos F
  have hul := uu_le hF
  have hl : |arctan (rv red) - arctan t| ≤ uu F := le_trans (arctan_lip _ _) h4
  have hz3 : |z - arctan t| ≤ ε + uu F := by
    rw [show z - arctan t = (z - arctan (rv red)) + (arctan (rv red) - arctan t) by ring]
    exact le_trans (abs_add_le _ _) (add_le_add hz2 hl)
  obtain ⟨q1, q2⟩ := pm_mul hF (xor c bound) p1
  unfold combine
  cases bound
  · obtain ⟨w1, w2⟩ := pm_mul hF c (zero_fin F false).1
    have w3 : rv (fmul F (pm c) .plusZero) = 0 := by
      rw [show Val.plusZero = zeroS false from rfl, w2, (zero_fin F false).2, mul_zero]
    obtain ⟨r1, r2'⟩ := zero_add' hF w1 w3 q1
    simp only [Bool.false_eq_true, if_false]
    refine ⟨r1, ?_, fun _ ht => ?_⟩
    · rw [show Val.plusZero = zeroS false from rfl, r2', q2, p2]
      have : (if (xor c false) = true then (-1 : ℝ) else 1) * z - sg c * part false t = sg c * (z - arctan t) := by
        cases c <;> simp [sg, part] <;> ring
      rw [this, abs_mul, sg_abs, one_mul]
      linarith
    · rw [show Val.plusZero = zeroS false from rfl, r2', q2, p2]
      have : (if (xor c false) = true then (-1 : ℝ) else 1) * z - sg c * part false t = sg c * (z - arctan t) := by
        cases c <;> simp [sg, part] <;> ring
      rw [this, abs_mul, sg_abs, one_mul, ← ht]
      exact hz2
  · simp only [if_true]
    obtain ⟨k1, k2⟩ := cst_half_pi hF
    obtain ⟨w1, w2⟩ := pm_mul hF c k1
    have hb0 : 0 ≤ arctan (rv red) := by rw [← Real.arctan_zero]; exact Real.arctan_mono h2
    have hb1 : arctan (rv red) ≤ pi / 4 := by rw [← Real.arctan_one]; exact Real.arctan_mono h3
    obtain ⟨pa, pb⟩ := pi_bd
    obtain ⟨z1, z2⟩ := abs_le.1 hz2
    obtain ⟨k3, k4⟩ := abs_le.1 k2
    have hs : rv (fmul F (pm c) (cst F (pi / 2))) + rv (fmul F (pm (xor c true)) (P red)) = sg c * (rv (cst F (pi / 2)) - z) := by
      rw [w2, q2, p2]; cases c <;> simp [sg] <;> ring
    have hle : |sg c * (rv (cst F (pi / 2)) - z)| ≤ 2 := by
      rw [abs_mul, sg_abs, one_mul, abs_le]; constructor <;> linarith
    obtain ⟨r1, r2'⟩ := fadd_val hF.e2 w1 q1 (by rw [hs]; have := four_le hF; linarith)
    refine ⟨r1, ?_, fun h => by simp at h⟩
    rw [r2', hs]
    have e1 := ru_two hF hle
    have e2 : |sg c * (rv (cst F (pi / 2)) - z) - sg c * part true t| ≤ ε + 2 * uu F := by
      rw [← mul_sub, abs_mul, sg_abs, one_mul]
      simp only [part, if_true]
      rw [show rv (cst F (pi / 2)) - z - (pi / 2 - arctan t) = (rv (cst F (pi / 2)) - pi / 2) - (z - arctan t) by ring]
      refine le_trans (abs_sub _ _) ?_
      linarith
    calc _ = |((roundUnb F .RN (sg c * (rv (cst F (pi / 2)) - z)) : ℝ) - sg c * (rv (cst F (pi / 2)) - z))
          + (sg c * (rv (cst F (pi / 2)) - z) - sg c * part true t)| := by congr 1; ring
      _ ≤ _ := le_trans (abs_add_le _ _) (by linarith)

theorem arctan_part {a b : ℝ} (ha : 0 ≤ a) (hb : 0 < b) : arctan (a / b) = part (decide (b < a)) (if b < a then b / a else a / b) := by
  unfold part
  by_cases h : b < a
  · simp only [h, decide_true, if_true]
    rw [← inv_div, Real.arctan_inv_of_pos (div_pos hb (lt_trans hb h))]
  · simp [h]

theorem part_range {bound : Bool} {t : ℝ} (h0 : 0 ≤ t) : 0 ≤ part bound t ∧ part bound t ≤ pi / 2 := by
  have h1 : 0 ≤ arctan t := by rw [← Real.arctan_zero]; exact Real.arctan_mono h0
  have h2 := Real.arctan_lt_pi_div_two t
  unfold part
  split_ifs <;> constructor <;> linarith

/-- the quotient of two data, at most 1 -/
theorem quot {F : Fmt} (hF : Wide F) {a b : Val} (ha : Fin' F a) (hb : Fin' F b) (h0 : 0 ≤ rv a) (h1 : 0 < rv b) (h2 : rv a ≤ rv b) :
    Fin' F (fdiv F a b) ∧ 0 ≤ rv (fdiv F a b) ∧ rv (fdiv F a b) ≤ 1 ∧ |rv (fdiv F a b) - rv a / rv b| ≤ uu F := by
  have q0 : 0 ≤ rv a / rv b := div_nonneg h0 h1.le
  have q1 : rv a / rv b ≤ 1 := (div_le_one h1).2 h2
  have q2 : |rv a / rv b| ≤ 1 := by rw [abs_of_nonneg q0]; exact q1
  obtain ⟨r1, r2'⟩ := fdiv_val hF.e2 ha hb h1.ne' (by have := four_le hF; linarith)
  refine ⟨r1, ?_, ?_, ?_⟩
  · rw [r2']
    have := ru_between_ge (F := F) (x := rv a / rv b) (w := 0) (unb_zero F) (by simpa using q0)
    exact_mod_cast this
  · rw [r2']
    have := ru_abs_le (F := F) (x := rv a / rv b) (k := 0) (by have := emin_le hF; omega) (by simpa using q2)
    have h := (abs_le.1 this).2
    norm_num at h
    exact_mod_cast h
  · rw [r2']; exact ru_two hF (by linarith)

end Verif.Atan
