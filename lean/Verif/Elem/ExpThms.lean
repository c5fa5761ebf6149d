import Verif.Elem.ExpPoly

/-! # Theorems on the generated exponential (property C77) -/

namespace Verif.Elem

open Verif.Float (Fmt Val)
open Verif.Check

/-- C77.  With the reconstruction of the generated code, all operations rounded: if the polynomial part returns a datum at less than `2^-(f+5)`
from `exp(x) - 1 - x` on the reduced interval, then the generated exponential is faithful for EVERY finite input. -/
theorem C77_exp_poly_faithful (F : Fmt) (h1 : 2 * F.e + 7 ≤ F.f) (h2 : 2 * (F.f : ℤ) + 2 ≤ F.emax) (P : Val → Val)
    (hP : ∀ a x, IsReal F a x → |x| ≤ 9 / 25 → ∃ q, IsReal F (P a) q ∧ |q - (Real.exp x - 1 - x)| ≤ (2 : ℝ) ^ (-(F.f : ℤ) - 5)) :
    ∀ a x, IsReal F a x → Faithful F (Real.exp x) (expModel F (expPoly F P) a) := by
  refine C77_exp_faithful F h1 h2 _ ?_
  intro a b x y hx hy hs hb
  obtain ⟨ha, rfl⟩ := isReal_iff.1 hx
  obtain ⟨hb', rfl⟩ := isReal_iff.1 hy
  exact recon h1 h2 P hP ha hb' hs hb

/-- the correctly rounded evaluation of the polynomial part -/
noncomputable def bestP (F : Fmt) (a : Val) : Val := cst F (Real.exp (numOf a) - 1 - numOf a)

theorem bestP_ok {F : Fmt} (h1 : 2 * F.e + 7 ≤ F.f) (h2 : 2 * (F.f : ℤ) + 2 ≤ F.emax) :
    ∀ a x, IsReal F a x → |x| ≤ 9 / 25 → ∃ q, IsReal F (bestP F a) q ∧ |q - (Real.exp x - 1 - x)| ≤ (2 : ℝ) ^ (-(F.f : ℤ) - 5) := by
  intro a x hx h
  obtain ⟨ha, rfl⟩ := isReal_iff.1 hx
  have he7 := fmt_big (F := F) (by omega) h2
  have he : 2 ≤ F.e := by omega
  have hemin : F.emin = 1 - F.emax := rfl
  obtain ⟨b1, b2⟩ := rem_bounds (r := numOf a) (by norm_num; exact h)
  norm_num at b2
  have hb : |Real.exp (numOf a) - 1 - numOf a| ≤ (2 : ℝ) ^ ((-4 : ℤ) + 1) := by
    rw [abs_of_nonneg b1]; norm_num; linarith
  have h3 := ru_abs_le (F := F) (by omega) hb
  obtain ⟨c1, c2⟩ := cst_fin he (le_trans h3 (le_trans (Float.zle (by omega)) (omega_ge he)))
  refine ⟨_, isReal_iff.2 ⟨c1, rfl⟩, ?_⟩
  have := ru_err_le (F := F) (by omega) hb
  show |(numOf (cst F _) : ℝ) - _| ≤ _
  rw [c2, show -(F.f : ℤ) - 5 = -4 - F.f - 1 by ring]
  exact this

/-- A correctly rounded polynomial part meets the hypotheses in binary32 and binary64. -/
example : ∀ a x, IsReal ⟨8, 23⟩ a x → Faithful ⟨8, 23⟩ (Real.exp x) (expModel ⟨8, 23⟩ (expPoly ⟨8, 23⟩ (bestP ⟨8, 23⟩)) a) :=
  C77_exp_poly_faithful ⟨8, 23⟩ (by norm_num) (by norm_num [Fmt.emax]) _ (bestP_ok (by norm_num) (by norm_num [Fmt.emax]))

example : ∀ a x, IsReal ⟨11, 52⟩ a x → Faithful ⟨11, 52⟩ (Real.exp x) (expModel ⟨11, 52⟩ (expPoly ⟨11, 52⟩ (bestP ⟨11, 52⟩)) a) :=
  C77_exp_poly_faithful ⟨11, 52⟩ (by norm_num) (by norm_num [Fmt.emax]) _ (bestP_ok (by norm_num) (by norm_num [Fmt.emax]))

theorem faithful_exact {F : Fmt} {w : Val} {x : ℝ} {r : Val} (hw : IsReal F w x) (h : Faithful F x r) : value r = some (x : EReal) := by
  obtain ⟨p, hp, h | h⟩ := h
  · rw [hp, le_antisymm h.1 (h.2 w x hw.1 hw.2 le_rfl)]
  · rw [hp, le_antisymm (h.2 w x hw.1 hw.2 le_rfl) h.1]

theorem isReal_one {F : Fmt} (he : 2 ≤ F.e) : IsReal F (.num 1) 1 := by
  have := emax_pos he
  refine isReal_iff.2 ⟨⟨⟨(finite_iff he).2 ⟨by simpa using unb_pow (F := F) (k := 0) (by unfold Fmt.emin; omega), ?_⟩, one_ne_zero⟩, rfl, rfl⟩, by simp [numOf]⟩
  refine abs_le_omega_of he ?_
  rw [abs_one]; exact one_le_zpow₀ (by norm_num) (by omega)

/-- C77.  The special inputs: a NaN gives a quiet NaN, `+inf` gives `+inf`, `-inf` gives `+0` for every polynomial, and both zeros give exactly
`1` when the polynomial is as accurate as above. -/
theorem C77_exp_special (F : Fmt) :
    (∀ E, expModel F E .qNaN = .qNaN ∧ expModel F E .sNaN = .qNaN ∧ expModel F E .plusInf = .plusInf ∧ expModel F E .minusInf = .plusZero) ∧
    (2 * F.e + 7 ≤ F.f → 2 * (F.f : ℤ) + 2 ≤ F.emax → ∀ P : Val → Val,
      (∀ a x, IsReal F a x → |x| ≤ 9 / 25 → ∃ q, IsReal F (P a) q ∧ |q - (Real.exp x - 1 - x)| ≤ (2 : ℝ) ^ (-(F.f : ℤ) - 5)) →
      ∀ a, IsReal F a 0 → expModel F (expPoly F P) a = .num 1) := by
  refine ⟨fun E => ⟨rfl, rfl, rfl, rfl⟩, fun h1 h2 P hP a ha => ?_⟩
  have he7 := fmt_big (F := F) (by omega) h2
  have h := C77_exp_poly_faithful F h1 h2 P hP a 0 ha
  rw [Real.exp_zero] at h
  have h3 := faithful_exact (isReal_one (by omega)) h
  generalize expModel F (expPoly F P) a = r at h3
  cases r <;> simp only [value, Option.some.injEq, reduceCtorEq] at h3
  · exact absurd h3.symm (EReal.coe_ne_top _)
  · exact absurd h3.symm (EReal.coe_ne_bot _)
  · norm_num at h3
  · norm_num at h3
  · have : ((_ : ℚ) : ℝ) = 1 := EReal.coe_injective h3
    congr 1
    exact_mod_cast this

/-- Both zeros are data with value `0`. -/
example : IsReal ⟨8, 23⟩ .plusZero 0 ∧ IsReal ⟨8, 23⟩ .minusZero 0 := by simp [IsReal, Fmt.Datum, value]

/-- C77, wrong.  A function requested with correct rounding (an accuracy `ML_Exponential` accepts) is not correctly rounded whatever the polynomial:
in binary64 the generated function returns `+0` for `x = -745.0625`, whose exponential is above half of the least subnormal number. -/
theorem C77_exp_underflow_wrong (E : Val → Val → Val) :
    IsReal ⟨11, 52⟩ (.num (-745 - 1 / 16)) (-745 - 1 / 16) ∧
    ¬ RoundsTo ⟨11, 52⟩ (Real.exp (-745 - 1 / 16)) (expModel ⟨11, 52⟩ E (.num (-745 - 1 / 16))) := by
  have hfin : Fmt.Finite ⟨11, 52⟩ (-745 - 1 / 16) := ⟨-11921 * 2 ^ 39, 9, by norm_num, by norm_num [Fmt.emin, Fmt.emax], by norm_num [Fmt.emax], by norm_num⟩
  have hfx : Fin' ⟨11, 52⟩ (.num (-745 - 1 / 16)) := ⟨⟨hfin, by norm_num⟩, rfl, rfl⟩
  obtain ⟨l1, l3⟩ := l2
  have hund : expUnder ⟨11, 52⟩ = -745 := by
    unfold expUnder
    rw [log_pow2, Int.floor_eq_iff]
    norm_num [Fmt.emin, Fmt.emax] at l1 l3 ⊢
    constructor <;> linarith
  have hov : expOver ⟨11, 52⟩ = 710 := by
    unfold expOver
    rw [Real.log_mul (by norm_num) (r2 _).ne', log_pow2, Int.ceil_eq_iff]
    norm_num [Fmt.emax] at l1 l3 ⊢
    constructor <;> linarith
  have he : 2 ≤ Fmt.e ⟨11, 52⟩ := by norm_num
  have co := cst_int (F := ⟨11, 52⟩) he (n := 710) (by norm_num) (by norm_num) (by norm_num [Fmt.emax])
  have cu := cst_int (F := ⟨11, 52⟩) he (n := -745) (by norm_num) (by norm_num) (by norm_num [Fmt.emax])
  have hval : expModel ⟨11, 52⟩ E (.num (-745 - 1 / 16)) = .plusZero := by
    unfold expModel
    rw [hund, hov]
    have n1 : isInfOrNaN (.num (-745 - 1 / 16)) = false := rfl
    have n2 : fgt (.num (-745 - 1 / 16)) (cst ⟨11, 52⟩ ((710 : ℤ) : ℝ)) = false := by
      unfold fgt; rw [flt_fin co.1 hfx, co.2]; norm_num [numOf]
    have n3 : flt (.num (-745 - 1 / 16)) (cst ⟨11, 52⟩ ((-745 : ℤ) : ℝ)) = true := by
      rw [flt_fin hfx cu.1, cu.2]; norm_num [numOf]
    rw [n1, n2, n3]; simp
  refine ⟨isReal_iff.2 ⟨hfx, by norm_num [numOf]⟩, ?_⟩
  rw [hval]
  rintro ⟨v, ⟨hv1, hv2, hv3⟩, h | h | h⟩
  · exact absurd h.2.2 (by simp)
  · obtain ⟨rfl, -⟩ := h
    have := hv2 ((2 : ℚ) ^ (-1074 : ℤ)) (unb_pow (by norm_num [Fmt.emin, Fmt.emax]))
    have hgt : (2 : ℝ) ^ (-1075 : ℤ) < Real.exp (-745 - 1 / 16) := by
      rw [← exp_mul_log2, Real.exp_lt_exp]
      norm_num at l1 l3 ⊢; linarith
    have hlt : Real.exp (-745 - 1 / 16) < (2 : ℝ) ^ (-1074 : ℤ) := by
      rw [← exp_mul_log2, Real.exp_lt_exp]
      norm_num at l1 l3 ⊢; linarith
    have hdbl : (2 : ℝ) ^ (-1074 : ℤ) = 2 * (2 : ℝ) ^ (-1075 : ℤ) := by
      rw [show (-1074 : ℤ) = 1 + -1075 by norm_num, r2add, zpow_one]
    rw [← r2cast, Rat.cast_zero, sub_zero, abs_of_pos (Real.exp_pos _), abs_of_nonpos (by linarith)] at this
    linarith
  · exact absurd h.2 (by rw [if_neg (not_lt.2 (Real.exp_pos _).le)]; simp)

/-- C77, wrong.  The criterion of the generator for a faithful function (a relative error of the polynomial below `local_ulp = 2^-f`) does not make the
function faithful: there are evaluations of the polynomial which meet it and for which `exp(0)` is not `1`. -/
theorem C77_exp_goal_wrong (F : Fmt) (h1 : 2 * F.e + 7 ≤ F.f) (h2 : 2 * (F.f : ℤ) + 2 ≤ F.emax) :
    ∃ E : Val → Val → Val,
      (∀ a b x y, IsReal F a x → IsReal F b y → |x + y| ≤ Real.log 2 / 2 + (2 : ℝ) ^ ((F.e : ℤ) - F.f) →
        ∃ p : ℚ, F.Finite p ∧ E a b = .num p ∧ |(p : ℝ) - Real.exp (x + y)| < (2 : ℝ) ^ (-(F.f : ℤ)) * Real.exp (x + y)) ∧
      ¬ Faithful F 1 (expModel F E .plusZero) := by
  have he7 := fmt_big (F := F) (by omega) h2
  have he : 2 ≤ F.e := by omega
  have hemin : F.emin = 1 - F.emax := rfl
  have hsm : (2 : ℝ) ^ ((F.e : ℤ) - F.f) ≤ 1 / 1000 := by
    have : (2 : ℝ) ^ ((F.e : ℤ) - F.f) ≤ (2 : ℝ) ^ (-10 : ℤ) := r2le (by omega)
    norm_num at this; linarith
  obtain ⟨l1, l3⟩ := l2
  set ρ := (2 : ℝ) ^ (-(F.f : ℤ)) with hρ
  have hρ0 : 0 < ρ := r2 _
  have hρs : ρ ≤ 1 / 1000 := by
    have : ρ ≤ (2 : ℝ) ^ (-10 : ℤ) := r2le (by omega)
    norm_num at this; linarith
  have hδ : (2 : ℝ) ^ (2 * ((F.e : ℤ) - F.f)) ≤ ρ / 128 := by
    have a1 : (2 : ℝ) ^ (2 * ((F.e : ℤ) - F.f)) ≤ (2 : ℝ) ^ (-(F.f : ℤ) + -7) := r2le (by omega)
    rw [r2add, ← hρ] at a1
    norm_num at a1; linarith
  have hρ1 : (2 : ℝ) ^ (-(F.f : ℤ) - 1) = ρ / 2 := by
    rw [show -(F.f : ℤ) - 1 = -(F.f : ℤ) + -1 by ring, r2add, ← hρ, show (2 : ℝ) ^ (-1 : ℤ) = 1 / 2 by norm_num]; ring
  -- the number below one
  set m : ℚ := 1 - (2 : ℚ) ^ (-(F.f : ℤ) - 1) with hm
  have hmR : (m : ℝ) = 1 - ρ / 2 := by rw [hm, ← hρ1]; push_cast; rfl
  have hmU : Unbounded F m := by
    have := unb_of (F := F) (n := 2 ^ (F.f + 1) - 1) (q := -(F.f : ℤ) - 1) (by rw [abs_le]; constructor <;> [(have : (1:ℤ) ≤ 2 ^ (F.f + 1) := one_le_pow₀ (by norm_num)); skip] <;> omega) (by omega)
    convert this using 1
    push_cast
    rw [hm, sub_mul, one_mul, ← Float.znat, ← Float.zadd]
    push_cast; norm_num
  have small : ∀ {q : ℚ}, |(q : ℝ)| ≤ 2 → |q| ≤ Float.omega F := by
    intro q hq
    refine abs_le_omega_of he (le_trans (b := 2) (by exact_mod_cast hq) ?_)
    have : (2 : ℚ) ^ (1 : ℤ) ≤ (2 : ℚ) ^ F.emax := Float.zle (by omega)
    simpa using this
  have hmF : F.Finite m := (finite_iff he).2 ⟨hmU, small (by rw [hmR, abs_le]; constructor <;> linarith)⟩
  refine ⟨fun a b => if |(numOf a : ℝ) + numOf b| ≤ (2 : ℝ) ^ (2 * ((F.e : ℤ) - F.f)) then .num m else .num (roundUnb F .RN (Real.exp (numOf a + numOf b))), ?_, ?_⟩
  · intro a b x y hx hy hs
    obtain ⟨ha, rfl⟩ := isReal_iff.1 hx
    obtain ⟨hb, rfl⟩ := isReal_iff.1 hy
    have hs36 : |(numOf a : ℝ) + numOf b| ≤ 0.36 := by norm_num; linarith
    obtain ⟨b1, b2⟩ := exp_bounds_small hs36
    norm_num at b1 b2
    by_cases hc : |(numOf a : ℝ) + numOf b| ≤ (2 : ℝ) ^ (2 * ((F.e : ℤ) - F.f))
    · refine ⟨m, hmF, by simp only [if_pos hc], ?_⟩
      have hc' : |(0 : ℝ) - (numOf a + numOf b)| ≤ ρ / 128 := by rw [zero_sub, abs_neg]; linarith
      have := exp_close hc' (by linarith)
      rw [Real.exp_zero] at this
      norm_num at this
      obtain ⟨c1, c2⟩ := abs_le.1 this
      rw [hmR, abs_lt]; constructor <;> nlinarith
    · have herr := ru_err_le (F := F) (x := Real.exp (numOf a + numOf b)) (k := 0) (by omega) (by norm_num; linarith)
      rw [show (0 : ℤ) - F.f - 1 = -(F.f : ℤ) - 1 by ring, hρ1] at herr
      obtain ⟨c1, c2⟩ := abs_le.1 herr
      refine ⟨_, (finite_iff he).2 ⟨roundUnb_unb F _ _, small (by rw [abs_le]; constructor <;> linarith)⟩, by simp only [if_neg hc], ?_⟩
      refine lt_of_le_of_lt herr ?_
      nlinarith
  · have h0 : Fin' F .plusZero := ⟨trivial, rfl, rfl⟩
    have ov : (0 : ℚ) ≤ expOver F := by
      have := (over_bounds (F := F)).1
      have h3 : (0 : ℝ) ≤ expOver F := by
        refine le_trans (mul_nonneg ?_ (by linarith)) this
        have : (0 : ℤ) ≤ F.emax + 1 := by omega
        exact_mod_cast this
      exact_mod_cast h3
    have un : (expUnder F : ℚ) ≤ 0 := by
      have := (under_bounds (F := F)).1
      have h3 : (expUnder F : ℝ) ≤ 0 := by
        refine le_trans this (mul_nonpos_of_nonpos_of_nonneg ?_ (by linarith))
        have : F.emin - (F.f : ℤ) ≤ 0 := by omega
        exact_mod_cast this
      exact_mod_cast h3
    obtain ⟨k, hi, lo, fhi, flo, d1, d2, d3, d4, hres⟩ := exp_std (F := F) (by omega) h2
      (fun a b => if |(numOf a : ℝ) + numOf b| ≤ (2 : ℝ) ^ (2 * ((F.e : ℤ) - F.f)) then .num m else .num (roundUnb F .RN (Real.exp (numOf a + numOf b))))
      h0 un ov
    have hk : k = 0 := by
      simp only [numOf, Rat.cast_zero, zero_sub, abs_neg, abs_mul] at d2
      rw [abs_of_pos (by linarith : 0 < Real.log 2)] at d2
      have h3 : |(k : ℝ)| < 1 := by
        have hL : 0 < Real.log 2 := by linarith
        have : |(k : ℝ)| * Real.log 2 < 1 * Real.log 2 := by nlinarith
        exact lt_of_mul_lt_mul_right this hL.le
      have : |k| < 1 := by exact_mod_cast h3
      rw [abs_lt] at this; omega
    subst hk
    have hc : |(numOf hi : ℝ) + numOf lo| ≤ (2 : ℝ) ^ (2 * ((F.e : ℤ) - F.f)) := by
      simpa [numOf] using d1
    have hm1 : 1 / 2 ≤ m := by
      have : ((1 / 2 : ℚ) : ℝ) ≤ m := by rw [hmR]; push_cast; linarith
      exact Rat.cast_le.1 this
    have hm2 : m < 1 := by
      have : (m : ℝ) < 1 := by rw [hmR]; linarith
      exact_mod_cast this
    have hr := hres m hmF hm1 (by linarith) (by simp only [if_pos hc])
    rw [zpow_zero, mul_one, rnd_exact he false hmF (by linarith : m ≠ 0)] at hr
    rw [hr]
    intro hf
    have := faithful_exact (isReal_one he) hf
    simp only [value, Option.some.injEq] at this
    have h4 : (m : ℝ) = 1 := by exact_mod_cast this
    linarith

end Verif.Elem
