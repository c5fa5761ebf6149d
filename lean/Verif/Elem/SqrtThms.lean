import Verif.Elem.Sqrt
import Verif.Elem.SqrtFaith
import Verif.Elem.DivThms

/-! # The generated square root and reciprocal square root (property C79) -/

namespace Verif.Elem

open Verif.Float (Fmt Val)
open Verif.Check
open Verif.Special (IsNaN IsInf IsZero finVal neg)

section
variable {F : Fmt}

theorem zero_fin (F : Fmt) : Fin' F .plusZero := ⟨trivial, rfl, rfl⟩

theorem pos_num {a : Val} (h : 0 < rv a) : 0 < numOf a := by unfold rv at h; exact_mod_cast h

/-- the branch of a positive number -/
theorem sqrt_std {a : Val} (ha : Fin' F a) (h0 : 0 < rv a) (seed : Val → Val) (n : ℕ) : sqrtModel F seed n a = sqrtStd F seed n a := by
  have hn := pos_num h0
  have h1 := (fin_not_special ha h0.ne').1
  have h2 : flt a .plusZero = false := by rw [flt_fin ha (zero_fin F)]; exact decide_eq_false (not_lt.2 hn.le)
  have h3 : cEq a .plusZero = false := by
    unfold cEq; rw [cLe_fin ha (zero_fin F), decide_eq_false (not_le.2 (show numOf .plusZero < numOf a from hn)), Bool.false_and]
  unfold sqrtModel
  simp [h1, h2, h3]

theorem rsqrt_std {a : Val} (ha : Fin' F a) (h0 : 0 < rv a) (seed : Val → Val) (n : ℕ) :
    rsqrtModel F seed n a = rsqrtIter F (fmul F (.num (1 / 2)) a) n (seed a) := by
  have hn := pos_num h0
  have h1 := (fin_not_special ha h0.ne').1
  have h3 : cLe a .plusZero = false := by rw [cLe_fin ha (zero_fin F)]; exact decide_eq_false (not_le.2 hn)
  unfold rsqrtModel
  simp [h1, h3]

theorem two_u (F : Fmt) : (2 : ℝ) ^ (-(F.f : ℤ)) = 2 * uu F := by
  unfold uu; rw [show -(F.f : ℤ) = 1 + (-(F.f : ℤ) - 1) by ring, r2add, zpow_one]; ring_nf

/-- the reciprocal of the root before the correction -/
theorem iter_close (B : Big F) {seed : Val → Val} {n : ℕ} {t : ℝ} (ht : t ≤ 1 / 64) (hn : (1.52 * t) ^ 2 ^ n ≤ (2 : ℝ) ^ (-(F.f : ℤ))) {a : Val} (ha : Fin' F a)
    (hlo : (2 : ℝ) ^ (F.emin + 1) ≤ rv a) {r : ℝ} (hr : IsReal F (seed a) r) (hr1 : |r * √(rv a) - 1| ≤ t) :
    Fin' F (rsqrtIter F (fmul F (.num (1 / 2)) a) n (seed a)) ∧ |rv (rsqrtIter F (fmul F (.num (1 / 2)) a) n (seed a)) * √(rv a) - 1| ≤ 6 * uu F ∧
      Fin' F (fmul F (.num (1 / 2)) a) ∧ rv (fmul F (.num (1 / 2)) a) = rv a / 2 := by
  have hx0 : 0 < rv a := lt_of_lt_of_le (r2 _) hlo
  obtain ⟨h1, h2⟩ := half_mul B ha (by rw [abs_of_pos hx0]; exact hlo)
  obtain ⟨hr2, rfl⟩ := isReal_rv.1 hr
  have hu0 := uu_pos F
  obtain ⟨g1, g2⟩ := rsqrt_iter B (Real.sqrt_pos.2 hx0) (Real.sq_sqrt hx0.le) ha hlo h1 h2 n hr2 (le_trans (abs_nonneg _) hr1) ht (by linarith)
  refine ⟨g1, le_trans g2 ?_, h1, h2⟩
  rw [two_u] at hn
  norm_num at hn ⊢; linarith

/-- C79.  The square root of every number of the format which is not too close to the subnormal numbers is the correctly rounded one, whatever the
seed of the reciprocal square root, provided its relative error `t` is small enough for the number `n` of Newton-Raphson iterations. -/
theorem C79_sqrt_correctly_rounded_partial (hf : 20 ≤ F.f) (hm : 2 * (F.f : ℤ) + 4 ≤ F.emax) {seed : Val → Val} {n : ℕ} {t : ℝ} (ht : t ≤ 1 / 64)
    (hseed : ∀ a y, IsReal F a y → (2 : ℝ) ^ (F.emin + F.f + 4) ≤ y → ∃ r, IsReal F (seed a) r ∧ |r * √y - 1| ≤ t)
    (hn : (1.52 * t) ^ 2 ^ n ≤ (2 : ℝ) ^ (-(F.f : ℤ))) {a : Val} {x : ℝ} (hx : IsReal F a x) (hlo : (2 : ℝ) ^ (F.emin + F.f + 4) ≤ x) :
    RoundsTo F (√x) (sqrtModel F seed n a) := by
  have B : Big F := ⟨by omega, by omega⟩
  have he := B.he2
  obtain ⟨r, hr, hr1⟩ := hseed a x hx hlo
  obtain ⟨ha, rfl⟩ := isReal_rv.1 hx
  have hx0 : 0 < rv a := lt_of_lt_of_le (r2 _) hlo
  have hs0 := Real.sqrt_pos.2 hx0
  obtain ⟨g1, g2, g3, g4⟩ := iter_close B ht hn ha (le_trans (r2le (by omega)) hlo) hr hr1
  obtain ⟨e, X, c⟩ := ctx_of hf hm ha hlo hs0 (Real.sq_sqrt hx0.le)
  obtain ⟨k1, k2⟩ := correct_val c g1 g2 g3 g4
  rw [sqrt_std ha hx0]
  unfold sqrtStd
  dsimp only
  set R := sqrtCorrect F a (fmul F (.num (1 / 2)) a) (rsqrtIter F (fmul F (.num (1 / 2)) a) n (seed a)) with hR
  have hv : numOf R = roundUnb F .RN (√(rv a)) := by unfold rv at k2 ⊢; exact_mod_cast k2
  have h0 : numOf R ≠ 0 := by
    intro h
    have : (0 : ℝ) < rv R := by
      rw [k2]
      have := ru_between_ge (F := F) (x := √(rv a)) (unb_pow (k := e) (by have := c.emin_le; omega)) (by rw [← r2cast]; exact c.e1)
      rw [← r2cast] at this
      exact lt_of_lt_of_le (r2 _) this
    exact (pos_num this).ne' h
  have hRn := fin_num_ne k1 h0
  have hfin : F.Finite (numOf R) := by
    have := k1.1; rw [hRn] at this; exact this.1
  refine ⟨numOf R, ?_, Or.inl ⟨hfin, h0, hRn⟩⟩
  rw [hv]; exact rn_nearest (by omega) _

/-- C79.  Down to four times the least normal number the square root is faithful. -/
theorem C79_sqrt_faithful_partial (hf : 10 ≤ F.f) (hm : (F.f : ℤ) + 2 ≤ F.emax) {seed : Val → Val} {n : ℕ} {t : ℝ} (ht : t ≤ 1 / 64)
    (hseed : ∀ a y, IsReal F a y → (2 : ℝ) ^ (F.emin + 2) ≤ y → ∃ r, IsReal F (seed a) r ∧ |r * √y - 1| ≤ t)
    (hn : (1.52 * t) ^ 2 ^ n ≤ (2 : ℝ) ^ (-(F.f : ℤ))) {a : Val} {x : ℝ} (hx : IsReal F a x) (hlo : (2 : ℝ) ^ (F.emin + 2) ≤ x) :
    Faithful F (√x) (sqrtModel F seed n a) := by
  have B : Big F := ⟨hf, hm⟩
  have he := B.he2
  obtain ⟨r, hr, hr1⟩ := hseed a x hx hlo
  obtain ⟨ha, rfl⟩ := isReal_rv.1 hx
  have hx0 : 0 < rv a := lt_of_lt_of_le (r2 _) hlo
  have hs0 := Real.sqrt_pos.2 hx0
  obtain ⟨g1, g2, g3, g4⟩ := iter_close B ht hn ha (le_trans (r2le (by omega)) hlo) hr hr1
  have c : Low F a (√(rv a)) := ⟨B, ha, hs0, Real.sq_sqrt hx0.le, hlo⟩
  obtain ⟨k1, z, k2, k3⟩ := correct_near c g1 g2 g3 g4
  rw [sqrt_std ha hx0]
  refine near_faithful he hs0.ne' k3 ?_
  have := (isReal_rv (F := F) (a := sqrtStd F seed n a) (x := _)).2 ⟨k1, rfl⟩
  rw [← k2]; exact this.2

/-- C79.  The relative error of the reciprocal square root, twice the least normal number and above. -/
theorem C79_rsqrt_error_partial (hf : 10 ≤ F.f) (hm : (F.f : ℤ) + 2 ≤ F.emax) {seed : Val → Val} {n : ℕ} {t : ℝ} (ht : t ≤ 1 / 64)
    {a : Val} {x r : ℝ} (hx : IsReal F a x) (hlo : (2 : ℝ) ^ (F.emin + 1) ≤ x) (hr : IsReal F (seed a) r) (hr1 : |r * √x - 1| ≤ t) :
    ∃ y, IsReal F (rsqrtModel F seed n a) y ∧ |y * √x - 1| ≤ (1.52 * t) ^ 2 ^ n + 3.7 * (2 : ℝ) ^ (-(F.f : ℤ) - 1) := by
  have B : Big F := ⟨hf, hm⟩
  obtain ⟨ha, rfl⟩ := isReal_rv.1 hx
  have hx0 : 0 < rv a := lt_of_lt_of_le (r2 _) hlo
  obtain ⟨h1, h2⟩ := half_mul B ha (by rw [abs_of_pos hx0]; exact hlo)
  obtain ⟨hr2, rfl⟩ := isReal_rv.1 hr
  have hu0 := uu_pos F
  obtain ⟨g1, g2⟩ := rsqrt_iter B (Real.sqrt_pos.2 hx0) (Real.sq_sqrt hx0.le) ha hlo h1 h2 n hr2 (le_trans (abs_nonneg _) hr1) ht (by linarith)
  rw [rsqrt_std ha hx0]
  exact ⟨_, isReal_rv.2 ⟨g1, rfl⟩, g2⟩

/-- a seed as good as the format allows -/
noncomputable def bestRsqrt (F : Fmt) (a : Val) : Val := cst F (1 / √((numOf a : ℚ) : ℝ))

theorem bestRsqrt_ok (B : Big F) : ∀ a y, IsReal F a y → (2 : ℝ) ^ (F.emin + 2) ≤ y → ∃ r, IsReal F (bestRsqrt F a) r ∧ |r * √y - 1| ≤ uu F := by
  intro a y hy h1
  have he := B.he2
  have hu := B.u_small
  have hu0 := uu_pos F
  obtain ⟨ha, rfl⟩ := isReal_rv.1 hy
  have hx0 : 0 < rv a := lt_of_lt_of_le (r2 _) h1
  have hs0 := Real.sqrt_pos.2 hx0
  have c : Low F a (√(rv a)) := ⟨B, ha, hs0, Real.sq_sqrt hx0.le, h1⟩
  have hs1 := c.s_lo
  have hs2 := c.s_hi
  have hpos : 0 < 1 / √(rv a) := by positivity
  have hE : (2 : ℝ) ^ (F.emin + 3) * (2 : ℝ) ^ (F.emax - 4) = 1 := by
    rw [← r2add, show F.emin + 3 + (F.emax - 4) = 0 by unfold Fmt.emin; ring, zpow_zero]
  have hb1 : (2 : ℝ) ^ F.emin ≤ 1 / √(rv a) := by
    rw [le_div_iff₀ hs0]
    have h3 : (2 : ℝ) ^ F.emin ≤ (2 : ℝ) ^ (F.emin + 3) := r2le (by omega)
    calc (2 : ℝ) ^ F.emin * √(rv a) ≤ (2 : ℝ) ^ (F.emin + 3) * (2 : ℝ) ^ (F.emax - 4) := mul_le_mul h3 hs2 hs0.le (r2 _).le
      _ = 1 := hE
  have hb2 : 1 / √(rv a) ≤ (2 : ℝ) ^ F.emax := by
    rw [div_le_iff₀ hs0]
    have : (2 : ℝ) ^ F.emax * (2 : ℝ) ^ (F.emin + 2) ≤ (2 : ℝ) ^ F.emax * √(rv a) := mul_le_mul_of_nonneg_left hs1 (r2 _).le
    refine le_trans ?_ this
    rw [← r2add, show F.emax + (F.emin + 2) = 3 by unfold Fmt.emin; ring]; norm_num
  obtain ⟨c1, c2⟩ := cst_fin (F := F) he (x := 1 / √(rv a)) (ru_no_over he (by rw [abs_of_pos hpos]; exact hb2))
  obtain ⟨d, hd, e⟩ := ru_norm (F := F) (z := 1 / √(rv a)) (by rw [abs_of_pos hpos]; exact hb1)
  refine ⟨_, isReal_rv.2 ⟨c1, rfl⟩, ?_⟩
  have e2 : rv (cst F (1 / √(rv a))) = 1 / √(rv a) * (1 + d) := by unfold rv at c2 ⊢; rw [c2]; exact e
  show |rv (cst F (1 / √(rv a))) * √(rv a) - 1| ≤ _
  rw [e2, show 1 / √(rv a) * (1 + d) * √(rv a) - 1 = d by field_simp; ring]
  exact hd

end

/-- The hypotheses are met in binary32 with the default number of iterations and in binary64, for a seed of accuracy `2^-8`. -/
example : ∀ a x, IsReal ⟨8, 23⟩ a x → (2 : ℝ) ^ (-99 : ℤ) ≤ x → RoundsTo ⟨8, 23⟩ (√x) (sqrtModel ⟨8, 23⟩ (bestRsqrt ⟨8, 23⟩) 3 a) := by
  intro a x hx h
  have B : Big ⟨8, 23⟩ := ⟨by norm_num, by norm_num [Fmt.emax]⟩
  refine C79_sqrt_correctly_rounded_partial (by norm_num) (by norm_num [Fmt.emax]) (t := 1 / 256) (by norm_num) (fun a y hy h1 => ?_) (by norm_num) hx
    (by norm_num [Fmt.emin, Fmt.emax] at h ⊢; exact h)
  obtain ⟨r, hr1, hr2⟩ := bestRsqrt_ok B a y hy (le_trans (r2le (by omega)) h1)
  exact ⟨r, hr1, le_trans hr2 (by have := B.u_small; linarith)⟩

example : ∀ a x, IsReal ⟨11, 52⟩ a x → (2 : ℝ) ^ (-966 : ℤ) ≤ x → RoundsTo ⟨11, 52⟩ (√x) (sqrtModel ⟨11, 52⟩ (bestRsqrt ⟨11, 52⟩) 3 a) := by
  intro a x hx h
  have B : Big ⟨11, 52⟩ := ⟨by norm_num, by norm_num [Fmt.emax]⟩
  refine C79_sqrt_correctly_rounded_partial (by norm_num) (by norm_num [Fmt.emax]) (t := 1 / 256) (by norm_num) (fun a y hy h1 => ?_) (by norm_num) hx
    (by norm_num [Fmt.emin, Fmt.emax] at h ⊢; exact h)
  obtain ⟨r, hr1, hr2⟩ := bestRsqrt_ok B a y hy (le_trans (r2le (by omega)) h1)
  exact ⟨r, hr1, le_trans hr2 (by have := B.u_small; linarith)⟩

example : ∀ a x, IsReal ⟨5, 10⟩ a x → (2 : ℝ) ^ (-12 : ℤ) ≤ x → Faithful ⟨5, 10⟩ (√x) (sqrtModel ⟨5, 10⟩ (bestRsqrt ⟨5, 10⟩) 3 a) := by
  intro a x hx h
  have B : Big ⟨5, 10⟩ := ⟨by norm_num, by norm_num [Fmt.emax]⟩
  refine C79_sqrt_faithful_partial (by norm_num) (by norm_num [Fmt.emax]) (t := 1 / 256) (by norm_num) (fun a y hy h1 => ?_) (by norm_num) hx
    (by norm_num [Fmt.emin, Fmt.emax] at h ⊢; exact h)
  obtain ⟨r, hr1, hr2⟩ := bestRsqrt_ok B a y hy h1
  exact ⟨r, hr1, le_trans hr2 (by have := B.u_small; linarith)⟩

/-- C79.  The special operands of the square root, `-0` excepted. -/
theorem C79_sqrt_special_partial (F : Fmt) (seed : Val → Val) (n : ℕ) (a : Val) (ha : F.Datum a) (h : a ≠ .minusZero) : SqrtSpecial a (sqrtModel F seed n a) := by
  constructor
  · intro h1
    cases a <;> simp_all [IsNaN, sqrtModel, isInfOrNaN, isNaN, isInf]
  · intro h1 h2
    cases a <;> simp_all [neg, IsZero, finVal, sqrtModel, isInfOrNaN, isNaN, isInf, flt, cLe, numOf]
    rename_i v
    have h3 : ¬ 0 ≤ v := not_le.2 h1
    have h4 : v ≤ 0 := h1.le
    simp [h3, h4, cEq, cLe, numOf]
  · rintro rfl; simp [sqrtModel, isInfOrNaN, isNaN, isInf, flt, cLe]
  · rintro rfl; simp [sqrtModel, isInfOrNaN, isNaN, isInf, flt, cEq, cLe, numOf]
  · intro h1; exact absurd h1 h

/-- C79, wrong.  `sqrt(-0)` is `+0` for every format, seed and number of iterations: the branch that returns `-0` is never reached. -/
theorem C79_sqrt_minus_zero_wrong (F : Fmt) (seed : Val → Val) (n : ℕ) :
    sqrtModel F seed n .minusZero = .plusZero ∧ ¬ SqrtSpecial .minusZero (sqrtModel F seed n .minusZero) := by
  have : sqrtModel F seed n .minusZero = .plusZero := by simp [sqrtModel, isInfOrNaN, isNaN, isInf, flt, cEq, cLe, numOf]
  refine ⟨this, fun h => ?_⟩
  have := h.minusZero rfl
  simp_all

/-- C79.  The special operands of the reciprocal square root, `-0` excepted. -/
theorem C79_rsqrt_special_partial (F : Fmt) (seed : Val → Val) (n : ℕ) (a : Val) (ha : F.Datum a) (h : a ≠ .minusZero) : RsqrtSpecial a (rsqrtModel F seed n a) := by
  constructor
  · intro h1
    cases a <;> simp_all [IsNaN, rsqrtModel, isInfOrNaN, isNaN, isInf]
  · intro h1 h2
    cases a <;> simp_all [neg, IsZero, finVal, rsqrtModel, isInfOrNaN, isNaN, isInf, flt, cLe, numOf]
    rename_i v
    have h3 : ¬ 0 ≤ v := not_le.2 h1
    have h4 : v ≤ 0 := h1.le
    simp [h3, h4]
  · rintro rfl; simp [rsqrtModel, isInfOrNaN, isNaN, isInf, flt, cLe]
  · rintro rfl; simp [rsqrtModel, isInfOrNaN, isNaN, isInf, flt, cEq, cLe, numOf]
  · intro h1; exact absurd h1 h

example (seed : Val → Val) (n : ℕ) : sqrtModel ⟨8, 23⟩ seed n (.num (-1)) = .qNaN ∧ rsqrtModel ⟨8, 23⟩ seed n .plusZero = .plusInf :=
  ⟨(C79_sqrt_special_partial ⟨8, 23⟩ seed n (.num (-1))
    ⟨⟨-2 ^ 23, 0, by norm_num, by norm_num [Fmt.emin, Fmt.emax], by norm_num [Fmt.emax], by norm_num⟩, by norm_num⟩ (by simp)).invalid (by norm_num [neg]) (by simp [IsZero, finVal]),
   (C79_rsqrt_special_partial ⟨8, 23⟩ seed n .plusZero trivial (by simp)).plusZero rfl⟩

/-- C79, wrong.  The reciprocal square root of `-0` is `+inf`. -/
theorem C79_rsqrt_minus_zero_wrong (F : Fmt) (seed : Val → Val) (n : ℕ) :
    rsqrtModel F seed n .minusZero = .plusInf ∧ ¬ RsqrtSpecial .minusZero (rsqrtModel F seed n .minusZero) := by
  have : rsqrtModel F seed n .minusZero = .plusInf := by simp [rsqrtModel, isInfOrNaN, isNaN, isInf, flt, cEq, cLe, numOf]
  refine ⟨this, fun h => ?_⟩
  have := h.minusZero rfl
  simp_all

/-! ## Wrong results -/

theorem nr_nan (F : Fmt) (h : Val) : nrSqrt F h .qNaN = .qNaN := by simp [nrSqrt, ffma, isNaN]

theorem iter_nan (F : Fmt) (h : Val) (n : ℕ) : rsqrtIter F h n .qNaN = .qNaN := by
  induction n with
  | zero => rfl
  | succ n ih => rw [rsqrtIter, nr_nan, ih]

theorem correct_nan (F : Fmt) (x h : Val) : sqrtCorrect F x h .qNaN = .qNaN := by
  have h1 : fmul F x .qNaN = .qNaN := by simp [fmul, isNaN]
  simp [sqrtCorrect, h1, fmsn, ffma, isNaN, fneg]

/-- the iteration on a number whose reciprocal overflows -/
theorem nr_over {F : Fmt} {h a : Val} (hh : h = .plusZero ∨ ∃ v, 0 < v ∧ h = .num v) {v : ℚ} (hv : 0 < v) (ha : a = .num v) (ho : fmul F a a = .plusInf) :
    nrSqrt F h a = .qNaN ∨ (nrSqrt F h a = .minusInf ∧ ∃ v, 0 < v ∧ h = .num v) := by
  unfold nrSqrt fmsn
  simp only [ho]
  rcases hh with rfl | ⟨w, hw, rfl⟩
  · left; simp [ffma, fneg, isNaN, isInf, isZero]
  · right
    refine ⟨?_, w, hw, rfl⟩
    subst ha
    have h1 : ¬ w < 0 := by linarith
    have h2 : ¬ v < 0 := by linarith
    have h3 : w ≠ 0 := hw.ne'
    have h4 : v ≠ 0 := hv.ne'
    simp [ffma, fneg, isNaN, isInf, isZero, infS, sgn, neg, hw, h1, h2, h3, h4]

theorem nr_minf {F : Fmt} {v : ℚ} (hv : 0 < v) : nrSqrt F (.num v) .minusInf = .qNaN := by
  have h3 : v ≠ 0 := hv.ne'
  simp [nrSqrt, fmul, fmsn, ffma, fneg, isNaN, isInf, isZero, infS, sgn, neg, hv, h3]

theorem correct_minf {F : Fmt} {w : ℚ} (hw : 0 < w) (h : Val) : sqrtCorrect F (.num w) h .minusInf = .qNaN := by
  have h1 : ¬ w < 0 := by linarith
  have h3 : w ≠ 0 := hw.ne'
  have e1 : fmul F (.num w) .minusInf = .minusInf := by simp [fmul, isNaN, isInf, isZero, infS, sgn, neg, h1, h3]
  have e2 : fmul F (.num (1 / 2)) .minusInf = .minusInf := by norm_num [fmul, isNaN, isInf, isZero, infS, sgn, neg]
  have e3 : fmsn F .minusInf .minusInf (.num w) = .minusInf := by simp [fmsn, ffma, fneg, isNaN, isInf, isZero, infS, sgn, neg]
  have e4 : ffma F .minusInf .minusInf .minusInf = .qNaN := by simp [ffma, isNaN, isInf, isZero, sgn, neg]
  have e5 : ∀ b c, ffma F .qNaN b c = .qNaN := by intro b c; simp [ffma, isNaN]
  have e6 : ∀ b c, fmsn F .qNaN b c = .qNaN := by intro b c; simp [fmsn, ffma, fneg, isNaN]
  unfold sqrtCorrect
  simp only [e1, e2, e3, e4, e5, e6]

/-- the first iteration on a small number -/
theorem nr_small {F : Fmt} (he : 2 ≤ F.e) {seed : Val → Val} {a : Val} {x r : ℝ} (hx : IsReal F a x) (h0 : 0 < x) (hhi : x ≤ (2 : ℝ) ^ (F.emin - 3))
    (hr : IsReal F (seed a) r) (hr1 : |r * √x - 1| ≤ 1 / 64) :
    (∃ v, 0 < v ∧ a = .num v) ∧ (nrSqrt F (fmul F (.num (1 / 2)) a) (seed a) = .qNaN ∨
      (nrSqrt F (fmul F (.num (1 / 2)) a) (seed a) = .minusInf ∧ ∃ v, 0 < v ∧ fmul F (.num (1 / 2)) a = .num v)) := by
  obtain ⟨ha, rfl⟩ := isReal_rv.1 hx
  obtain ⟨hr2, rfl⟩ := isReal_rv.1 hr
  have hs0 := Real.sqrt_pos.2 h0
  have hsq := Real.sq_sqrt h0.le
  have hn := pos_num h0
  have hae := fin_num_ne ha hn.ne'
  obtain ⟨a1, a2⟩ := abs_le.1 hr1
  have hr0 : 0 < rv (seed a) := by
    have : 0 < rv (seed a) * √(rv a) := by linarith
    exact pos_of_mul_pos_left this hs0.le
  have hrn := pos_num hr0
  have hre := fin_num_ne hr2 hrn.ne'
  have hsquare : (2 : ℝ) ^ (F.emax + 1) ≤ rv (seed a) * rv (seed a) := by
    have e1 : (63 / 64) ^ 2 ≤ (rv (seed a) * √(rv a)) ^ 2 := by
      have : (63 : ℝ) / 64 ≤ rv (seed a) * √(rv a) := by linarith
      nlinarith
    rw [mul_pow, hsq] at e1
    have e2 : rv (seed a) ^ 2 * rv a ≤ rv (seed a) ^ 2 * (2 : ℝ) ^ (F.emin - 3) := mul_le_mul_of_nonneg_left hhi (by positivity)
    have e3 : (2 : ℝ) ^ (F.emax + 1) * (2 : ℝ) ^ (F.emin - 3) = 1 / 2 := by
      rw [← r2add, show F.emax + 1 + (F.emin - 3) = -1 by unfold Fmt.emin; ring]; norm_num
    have hp := r2 (F.emin - 3)
    refine le_of_mul_le_mul_right (a := (2 : ℝ) ^ (F.emin - 3)) ?_ hp
    rw [e3]; rw [sq] at e1 e2; norm_num at e1; linarith
  have ho : fmul F (seed a) (seed a) = .plusInf := by
    unfold fmul
    simp only [hr2.2.1, hr2.2.2, Bool.or_self, Bool.false_eq_true, if_false]
    apply rnd_overflow he
    have : ((numOf (seed a) * numOf (seed a) : ℚ) : ℝ) = rv (seed a) * rv (seed a) := by unfold rv; push_cast; rfl
    rw [this]; exact hsquare
  have hh : fmul F (.num (1 / 2)) a = .plusZero ∨ ∃ v, 0 < v ∧ fmul F (.num (1 / 2)) a = .num v := by
    have hhi' := hhi
    unfold rv at hhi'
    rw [hae]
    generalize numOf a = q at hn hhi' ⊢
    unfold fmul
    simp only [isNaN, isInf, Bool.or_self, Bool.false_eq_true, if_false]
    change rnd F _ ((1 / 2 * q : ℚ) : ℝ) = _ ∨ ∃ v, 0 < v ∧ rnd F _ ((1 / 2 * q : ℚ) : ℝ) = _
    have hz : (0 : ℝ) < ((1 / 2 * q : ℚ) : ℝ) := by exact_mod_cast (by positivity : (0 : ℚ) < 1 / 2 * q)
    have hge : (0 : ℚ) ≤ roundUnb F .RN ((1 / 2 * q : ℚ) : ℝ) := by exact_mod_cast ru_pos_sign (F := F) hz
    unfold rnd
    rw [if_neg hz.ne']
    split_ifs with h1 h2
    · left; simp [zeroS, hn.le]
    · right; exact ⟨_, lt_of_le_of_ne hge (Ne.symm h1), rfl⟩
    · exfalso
      apply h2
      refine abs_le_omega_of he ?_
      refine ru_abs_le (k := F.emax) (by have := emax_pos he; unfold Fmt.emin; omega) ?_
      rw [abs_of_pos hz]
      have h5 : ((1 / 2 * q : ℚ) : ℝ) ≤ q := by
        push_cast
        have : (0 : ℝ) < (q : ℝ) := by exact_mod_cast hn
        linarith
      exact le_trans h5 (le_trans hhi' (r2le (by have := emax_pos he; unfold Fmt.emin; omega)))
  exact ⟨⟨_, hn, hae⟩, nr_over hh hrn hre ho⟩

/-- C79, wrong.  The square root of a small subnormal number is a NaN, whatever the accuracy of the seed and the number of iterations (at least one). -/
theorem C79_sqrt_subnormal_wrong {F : Fmt} (he : 2 ≤ F.e) {seed : Val → Val} (n : ℕ) {a : Val} {x r : ℝ} (hx : IsReal F a x) (h0 : 0 < x)
    (hhi : x ≤ (2 : ℝ) ^ (F.emin - 3)) (hr : IsReal F (seed a) r) (hr1 : |r * √x - 1| ≤ 1 / 64) :
    sqrtModel F seed (n + 1) a = .qNaN ∧ ¬ Faithful F (√x) (sqrtModel F seed (n + 1) a) := by
  have hm : sqrtModel F seed (n + 1) a = .qNaN := by
    obtain ⟨⟨w, hw, rfl⟩, hc⟩ := nr_small he hx h0 hhi hr hr1
    obtain ⟨ha, rfl⟩ := isReal_rv.1 hx
    rw [sqrt_std ha h0]
    unfold sqrtStd
    dsimp only
    rw [rsqrtIter]
    rcases hc with h1 | ⟨h1, v, hv, h2⟩
    · rw [h1, iter_nan, correct_nan]
    · rw [h1, h2]
      cases n with
      | zero => exact correct_minf hw _
      | succ n => rw [rsqrtIter, nr_minf hv, iter_nan, correct_nan]
  refine ⟨hm, ?_⟩
  rw [hm]
  rintro ⟨p, hp, _⟩
  simp [value] at hp

/-- C79, wrong.  So is its reciprocal square root with two iterations or more; with one it is `-inf` or a NaN. -/
theorem C79_rsqrt_subnormal_wrong {F : Fmt} (he : 2 ≤ F.e) {seed : Val → Val} (n : ℕ) {a : Val} {x r : ℝ} (hx : IsReal F a x) (h0 : 0 < x)
    (hhi : x ≤ (2 : ℝ) ^ (F.emin - 3)) (hr : IsReal F (seed a) r) (hr1 : |r * √x - 1| ≤ 1 / 64) :
    rsqrtModel F seed (n + 2) a = .qNaN ∧ (rsqrtModel F seed 1 a = .qNaN ∨ rsqrtModel F seed 1 a = .minusInf) := by
  obtain ⟨⟨w, hw, rfl⟩, hc⟩ := nr_small he hx h0 hhi hr hr1
  obtain ⟨ha, rfl⟩ := isReal_rv.1 hx
  rw [rsqrt_std ha h0, rsqrt_std ha h0, rsqrtIter, rsqrtIter, rsqrtIter]
  rcases hc with h1 | ⟨h1, v, hv, h2⟩
  · rw [h1, nr_nan, iter_nan]; exact ⟨rfl, Or.inl rfl⟩
  · rw [h1, h2, nr_minf hv, iter_nan]; exact ⟨rfl, Or.inr rfl⟩

/-- The least positive number of binary32 and a seed as close as the format allows. -/
example : ∃ a x, IsReal ⟨8, 23⟩ a x ∧ 0 < x ∧ x ≤ (2 : ℝ) ^ (Fmt.emin ⟨8, 23⟩ - 3) ∧
    ∃ r, IsReal ⟨8, 23⟩ (.num (5931642 * 2 ^ 52)) r ∧ |r * √x - 1| ≤ 1 / 64 := by
  have emx : Fmt.emax ⟨8, 23⟩ = 127 := by norm_num [Fmt.emax]
  have emn : Fmt.emin ⟨8, 23⟩ = -126 := by norm_num [Fmt.emin, Fmt.emax]
  refine ⟨.num (1 / 2 ^ 149), 1 / 2 ^ 149, ⟨⟨⟨1, -126, by norm_num, by rw [emn], by rw [emx]; norm_num, by norm_num⟩, by norm_num⟩, by simp [value]⟩,
    by norm_num, by rw [emn]; norm_num, 5931642 * 2 ^ 52, ⟨⟨⟨5931642, 75, by norm_num, by rw [emn]; norm_num, by rw [emx]; norm_num, by norm_num⟩, by norm_num⟩, by simp [value]⟩, ?_⟩
  have h1 : (45 / 2 ^ 80 : ℝ) ≤ √(1 / 2 ^ 149) := Real.le_sqrt_of_sq_le (by norm_num)
  have h2 : √(1 / 2 ^ 149) ≤ (91 / 2 ^ 81 : ℝ) := by rw [Real.sqrt_le_left (by norm_num)]; norm_num
  rw [abs_le]; norm_num at h1 h2 ⊢; constructor <;> linarith

end Verif.Elem
