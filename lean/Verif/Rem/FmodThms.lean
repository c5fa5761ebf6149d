import Verif.Rem.Fmod

/-! # C81: `fmod` -/

namespace Verif.Rem

open Verif.Float (Fmt Val)
open Verif.Elem
open Verif.Check

/-- C81: for finite operands of the same sign whose product is not below the normal range and whose quotient is not above the greatest number, the loop
ends and the result is exactly that of C.  Missing: the operands of opposite signs (`C81_fmod_sign_wrong`), a product below the normal range
(`C81_fmod_underflow_wrong`), a quotient that overflows (`C81_fmod_overflow_wrong`). -/
theorem C81_fmod_exact_partial {F : Fmt} (he : 3 ≤ F.e) {x y m : Val} {X Y M : ℝ} (hx : IsReal F x X) (hy : IsReal F y Y)
    (hxy : (2 : ℝ) ^ F.emin ≤ X * Y) (hm : IsReal F m M) (hov : X / Y ≤ M) :
    ∃ (r : Val) (R : ℝ) (n : ℤ), (∀ r', FmodReturns F x y r' ↔ r' = r) ∧ IsReal F r R ∧ IsFmod X Y R n := by
  have he2 : 2 ≤ F.e := by omega
  obtain ⟨hx1, rfl⟩ := isReal_iff.1 hx
  obtain ⟨hy1, rfl⟩ := isReal_iff.1 hy
  obtain ⟨hm1, rfl⟩ := isReal_iff.1 hm
  obtain ⟨uy, oy⟩ := fin_unb he2 hy1
  have hxy' : (2 : ℚ) ^ F.emin ≤ numOf x * numOf y := by rw [r2cast] at hxy; exact_mod_cast hxy
  have hov' : numOf x / numOf y ≤ numOf m := by exact_mod_cast hov
  have hpos : 0 < numOf x * numOf y := lt_of_lt_of_le (Float.zp _) hxy'
  have hy0 : numOf y ≠ 0 := by intro h; rw [h, mul_zero] at hpos; exact lt_irrefl _ hpos
  have hx0 : numOf x ≠ 0 := by intro h; rw [h, zero_mul] at hpos; exact lt_irrefl _ hpos
  have hq : 0 < numOf x / numOf y := by
    have := div_pos hpos (mul_self_pos.2 hy0)
    rwa [mul_div_mul_right _ _ hy0] at this
  obtain ⟨k, r, g1, g2, g3, ⟨n, g4⟩, g5⟩ := fmod_spec he hx1 hy1 hy0 (by
    rw [abs_of_pos hq]; exact le_trans hov' (le_trans (le_abs_self _) (fin_unb he2 hm1).2))
  have hya := abs_pos.2 hy0
  by_cases hneg : numOf r * numOf x < 0
  · have hg : ∃ k : ℤ, numOf r = k * (2 : ℚ) ^ up F (numOf y) := by
      rcases g5 with g | g
      · rw [g] at hneg; exact absurd hneg (not_lt.2 (mul_self_nonneg _))
      · exact g
    obtain ⟨c, hc⟩ := hg
    have hr0 : numOf r ≠ 0 := by intro h; rw [h, zero_mul] at hneg; exact lt_irrefl _ hneg
    have hc1 : (1 : ℚ) ≤ |(c : ℚ)| := by
      have : c ≠ 0 := by intro h; rw [hc, h] at hr0; simp at hr0
      rw [← Int.cast_abs]; exact_mod_cast Int.one_le_abs this
    have hp := Float.zp (up F (numOf y))
    have hrge : (2 : ℚ) ^ up F (numOf y) ≤ |numOf r| := by
      rw [hc, abs_mul, abs_of_pos hp]; nlinarith
    have hbig : (2 : ℚ) ^ (F.emin - F.f - 1) < |numOf r| * |numOf x| := by
      have h1 := up_lt (F := F) (Y := numOf y)
      have h2 : (2 : ℚ) ^ (F.emin - F.f - 1) * (2 : ℚ) ^ (F.f + 1) = (2 : ℚ) ^ F.emin := by
        rw [← zpow_natCast, ← Float.zadd]; congr 1; push_cast; ring
      have hP : (0 : ℚ) < (2 : ℚ) ^ (F.f + 1) := by positivity
      have hxa := abs_pos.2 hx0
      have h3 : (2 : ℚ) ^ F.emin ≤ |numOf x| * |numOf y| := by rw [← abs_mul]; exact le_trans hxy' (le_abs_self _)
      have h4 : |numOf x| * |numOf y| < |numOf x| * ((2 : ℚ) ^ (F.f + 1) * |numOf r|) := by
        apply mul_lt_mul_of_pos_left _ hxa
        exact lt_of_lt_of_le h1 (mul_le_mul_of_nonneg_left hrge hP.le)
      have h5 : (2 : ℚ) ^ (F.emin - F.f - 1) * (2 : ℚ) ^ (F.f + 1) < |numOf r| * |numOf x| * (2 : ℚ) ^ (F.f + 1) := by rw [h2]; linarith
      exact lt_of_mul_lt_mul_right h5 hP.le
    have ht : flt (fmul F r x) .plusZero = true := by
      rw [sign_test g2 hx1]
      apply decide_eq_true
      apply rr_not_tiny
      rw [← abs_mul, abs_of_neg hneg] at hbig; linarith
    rw [ht, if_pos rfl] at g1
    -- the sum
    have hsum : |numOf r + numOf y| ≤ |numOf y| ∧ 0 ≤ (numOf r + numOf y) * numOf x ∧ |numOf r + numOf y| < |numOf y| := by
      have hry := abs_lt.1 g3
      rcases lt_or_gt_of_ne hx0 with h | h
      · have h1 : numOf y < 0 := by by_contra hc'; nlinarith [not_lt.1 hc']
        have h2 : 0 < numOf r := by by_contra hc'; nlinarith [not_lt.1 hc']
        rw [abs_of_neg h1] at hry ⊢
        rw [abs_of_neg (by linarith)]
        refine ⟨by linarith, ?_, by linarith⟩
        exact mul_nonneg_of_nonpos_of_nonpos (by linarith) h.le
      · have h1 : 0 < numOf y := by by_contra hc'; nlinarith [not_lt.1 hc']
        have h2 : numOf r < 0 := by by_contra hc'; nlinarith [not_lt.1 hc']
        rw [abs_of_pos h1] at hry ⊢
        rw [abs_of_pos (by linarith)]
        refine ⟨by linarith, ?_, by linarith⟩
        exact mul_nonneg (by linarith) h.le
    obtain ⟨b, hb⟩ := up_grid uy hy0
    have hu : Unbounded F (numOf r + numOf y) :=
      unb_below (Y := numOf y) (n := c + b) (by push_cast; linear_combination hc + hb) hsum.1
    have hru : roundUnb F .RN ((numOf r + numOf y : ℚ) : ℝ) = numOf r + numOf y := ru_exact hu
    obtain ⟨a1, a2⟩ := fadd_fin he2 g2 hy1 (by rw [hru]; exact le_trans hsum.1 oy)
    rw [hru] at a2
    refine ⟨fadd F r y, _, n - 1, returns_iff g1, isReal_iff.2 ⟨a1, rfl⟩, ?_, ?_, ?_⟩
    · rw [a2, g4]; push_cast; ring
    · rw [a2, ← Rat.cast_abs, ← Rat.cast_abs]; exact_mod_cast hsum.2.2
    · rw [a2]; exact_mod_cast hsum.2.1
  · have ht : flt (fmul F r x) .plusZero = false := by
      rw [sign_test g2 hx1]
      exact decide_eq_false (not_lt.2 (rr_ge (unb_zero F) (not_lt.1 hneg)))
    rw [ht, if_neg (by simp)] at g1
    refine ⟨r, _, n, returns_iff g1, isReal_iff.2 ⟨g2, rfl⟩, ?_, ?_, ?_⟩
    · rw [g4]; push_cast; ring
    · rw [← Rat.cast_abs, ← Rat.cast_abs]; exact_mod_cast g3
    · exact_mod_cast not_lt.1 hneg

/-- the hypotheses of `C81_fmod_exact_partial` hold of -7 and -2 in binary32 -/
example : ∃ (r : Val) (R : ℝ) (n : ℤ), (∀ r', FmodReturns ⟨8, 23⟩ (.num (-7)) (.num (-2)) r' ↔ r' = r) ∧ IsReal ⟨8, 23⟩ r R ∧ IsFmod (-7) (-2) R n := by
  refine C81_fmod_exact_partial (m := .num 7) (M := 7) (by decide) ?_ ?_ ?_ ?_ (by norm_num)
  · exact ⟨⟨⟨-7 * 2 ^ 21, 2, by norm_num, by decide, by decide, by norm_num⟩, by norm_num⟩, by simp [value]⟩
  · exact ⟨⟨⟨-2 ^ 23, 1, by norm_num, by decide, by decide, by norm_num⟩, by norm_num⟩, by simp [value]⟩
  · have : (2 : ℝ) ^ (Fmt.emin ⟨8, 23⟩) ≤ (2 : ℝ) ^ (0 : ℤ) := r2le (by decide)
    rw [zpow_zero] at this; linarith
  · exact ⟨⟨⟨7 * 2 ^ 21, 2, by norm_num, by decide, by decide, by norm_num⟩, by norm_num⟩, by simp [value]⟩

/-- C81: for operands of any sign the loop ends if the quotient does not overflow. -/
theorem C81_fmod_terminates_partial {F : Fmt} (he : 3 ≤ F.e) {x y m : Val} {X Y M : ℝ} (hx : IsReal F x X) (hy : IsReal F y Y)
    (hY : Y ≠ 0) (hm : IsReal F m M) (hov : |X / Y| ≤ M) : ∃ r, ∀ r', FmodReturns F x y r' ↔ r' = r := by
  have he2 : 2 ≤ F.e := by omega
  obtain ⟨hx1, rfl⟩ := isReal_iff.1 hx
  obtain ⟨hy1, rfl⟩ := isReal_iff.1 hy
  obtain ⟨hm1, rfl⟩ := isReal_iff.1 hm
  have hov' : |numOf x / numOf y| ≤ numOf m := by exact_mod_cast hov
  obtain ⟨k, r, g1, _⟩ := fmod_spec he hx1 hy1 (by exact_mod_cast hY) (le_trans hov' (le_trans (le_abs_self _) (fin_unb he2 hm1).2))
  exact ⟨_, returns_iff g1⟩

theorem iN (t : Bool) : isNaN (infS t) = false := by cases t <;> rfl
theorem iI (t : Bool) : isInf (infS t) = true := by cases t <;> rfl
theorem iS (t : Bool) : sgn (infS t) = t := by cases t <;> rfl
theorem iZ (t : Bool) : isZero (infS t) = false := by cases t <;> rfl

theorem nan_test (F : Fmt) : fgt (fabs .qNaN) (qiBound F) = false := by simp [fgt, flt, cLe, fabs, sgn, Special.neg, qiBound]

theorem inf_test (F : Fmt) (s : Bool) : fgt (fabs (infS s)) (qiBound F) = true := by
  cases s <;> simp [fgt, flt, cLe, fabs, sgn, Special.neg, qiBound, infS, fneg]

/-- a NaN after the first step, whatever the quotient -/
theorem fmod_nan {F : Fmt} {x y : Val} (h : ffma F (fneg (ftrunc (fdiv F x y))) y x = .qNaN) (hq : ftrunc (fdiv F x y) = .qNaN ∨ (∃ s, ftrunc (fdiv F x y) = infS s) ∨ ∃ s, ftrunc (fdiv F x y) = zeroS s) :
    fmod F 1 x y = some .qNaN := by
  have h1 : ∀ a, fdiv F .qNaN a = .qNaN := by intro a; simp [fdiv, isNaN]
  have h2 : ∀ a b, ffma F .qNaN a b = .qNaN := by intro a b; simp [ffma, isNaN]
  have h3 : flt (fmul F .qNaN x) .plusZero = false := by simp [fmul, isNaN, flt, cLe]
  have h4 : ftrunc .qNaN = .qNaN := rfl
  have h5 : fneg .qNaN = .qNaN := rfl
  unfold fmod
  simp only [h]
  rcases hq with e | ⟨s, e⟩ | ⟨s, e⟩
  · rw [e]; simp only [fmodLoop, nan_test, Bool.false_eq_true, if_false, h3]
  · rw [e]; simp only [fmodLoop, inf_test, if_true, h1, h4, h5, h2, nan_test, Bool.false_eq_true, if_false, h3]
  · have : fgt (fabs (zeroS s)) (qiBound F) = false := by
      have hp : (0 : ℚ) ≤ (2 : ℚ) ^ (F.f + 1) := by positivity
      cases s <;> simp [fgt, flt, cLe, fabs, sgn, Special.neg, qiBound, zeroS, fneg, numOf, hp]
    rw [e]; simp only [fmodLoop, this, Bool.false_eq_true, if_false, h3]

/-- C81: a NaN operand, an infinite dividend and a null divisor give a NaN.  Missing: the infinite divisors (`C81_fmod_inf_wrong`) and the sign of a
null dividend (`C81_fmod_zero_sign_wrong`). -/
theorem C81_fmod_special_partial {F : Fmt} {x y : Val} (hx : F.Datum x) (hy : F.Datum y) (h : Special.IsNaN x ∨ Special.IsNaN y ∨ Special.IsInf x ∨ Special.IsZero y) (r : Val) :
    FmodReturns F x y r ↔ r = .qNaN := by
  have hN : ∀ a, ffma F .qNaN a x = .qNaN := by intro a; simp [ffma, isNaN]
  have ht : ∀ t, ftrunc (infS t) = infS t := by intro t; cases t <;> rfl
  have hn : ∀ t, fneg (infS t) = infS (!t) := by intro t; cases t <;> rfl
  have ofNaN : fdiv F x y = .qNaN → (FmodReturns F x y r ↔ r = .qNaN) := by
    intro e
    exact returns_iff (n := 1) (fmod_nan (by rw [e]; exact hN y) (Or.inl (by rw [e]; rfl))) r
  have ofInf : ∀ t, fdiv F x y = infS t → ffma F (infS (!t)) y x = .qNaN → (FmodReturns F x y r ↔ r = .qNaN) := by
    intro t e e'
    exact returns_iff (n := 1) (fmod_nan (by rw [e, ht, hn]; exact e') (Or.inr (Or.inl ⟨t, by rw [e, ht]⟩))) r
  by_cases nx : isNaN x = true
  · exact ofNaN (by unfold fdiv; rw [nx]; rfl)
  by_cases ny : isNaN y = true
  · exact ofNaN (by unfold fdiv; rw [ny, Bool.or_true]; rfl)
  rw [Bool.not_eq_true] at nx ny
  by_cases ix : isInf x = true
  · by_cases iy : isInf y = true
    · exact ofNaN (by unfold fdiv; rw [nx, ny, ix, iy]; rfl)
    · rw [Bool.not_eq_true] at iy
      refine ofInf (xor (sgn x) (sgn y)) (by unfold fdiv; rw [nx, ny, ix, iy]; rfl) ?_
      unfold ffma
      rw [iN, iI, iS, nx, ny, ix]
      cases sgn x <;> cases sgn y <;> simp
  · rw [Bool.not_eq_true] at ix
    have zy : isZero y = true ∧ isInf y = false := by
      cases x <;> cases y <;> simp_all [Special.IsNaN, Special.IsInf, Special.IsZero, Special.finVal, isNaN, isInf, isZero]
    by_cases zx : isZero x = true
    · exact ofNaN (by unfold fdiv; rw [nx, ny, ix, zy.1, zy.2, zx]; rfl)
    · rw [Bool.not_eq_true] at zx
      refine ofInf (xor (sgn x) (sgn y)) (by unfold fdiv; rw [nx, ny, ix, zy.1, zy.2, zx]; rfl) ?_
      unfold ffma
      rw [iN, iI, nx, ny, zy.1]
      simp

example (r : Val) : FmodReturns ⟨8, 23⟩ (.num 1) .minusZero r ↔ r = .qNaN :=
  C81_fmod_special_partial (x := .num 1) (y := .minusZero) ⟨⟨2 ^ 23, 0, by norm_num, by decide, by decide, by norm_num⟩, by norm_num⟩ trivial
    (Or.inr (Or.inr (Or.inr rfl))) r

/-- C81: a finite number modulo an infinity is a NaN, it should be that number. -/
theorem C81_fmod_inf_wrong {F : Fmt} {x y : Val} {X : ℝ} (hx : IsReal F x X) (hy : Special.IsInf y) (r : Val) : FmodReturns F x y r ↔ r = .qNaN := by
  obtain ⟨⟨h1, h2, h3⟩, _⟩ := isReal_iff.1 hx
  have iy : isInf y = true ∧ isNaN y = false := by cases y <;> simp_all [Special.IsInf, isInf, isNaN]
  have hd : fdiv F x y = zeroS (xor (sgn x) (sgn y)) := by unfold fdiv; rw [h2, h3, iy.1, iy.2]; rfl
  have ht : ∀ t, ftrunc (zeroS t) = zeroS t := by intro t; cases t <;> simp [ftrunc, isNaN, isInf, numOf, truncQ, sgn, Special.neg, zeroS]
  have hn : ∀ t, fneg (zeroS t) = zeroS (!t) := by intro t; cases t <;> rfl
  refine returns_iff (n := 1) (fmod_nan ?_ (Or.inr (Or.inr ⟨xor (sgn x) (sgn y), by rw [hd, ht]⟩))) r
  rw [hd, ht, hn]
  have zN : ∀ t, isNaN (zeroS t) = false := by intro t; cases t <;> rfl
  have zZ : ∀ t, isZero (zeroS t) = true := by intro t; cases t <;> rfl
  unfold ffma
  rw [zN, zZ, h2, iy.1, iy.2]
  simp

theorem fmod_plusZero {F : Fmt} {x y : Val} (h : ffma F (fneg (ftrunc (fdiv F x y))) y x = .plusZero) (hq : fgt (fabs (ftrunc (fdiv F x y))) (qiBound F) = false)
    (hx : Fin' F x) : fmod F 0 x y = some .plusZero := by
  unfold fmod
  simp only [h, fmodLoop, hq, Bool.false_eq_true, if_false]
  have : flt (fmul F .plusZero x) .plusZero = false := by
    rw [sign_test (F := F) (a := .plusZero) ⟨trivial, rfl, rfl⟩ hx]
    simp only [numOf, zero_mul, rr_zero]
    exact decide_eq_false (lt_irrefl _)
  rw [this]; simp

/-- C81: a null result is the positive zero for a negative null dividend, and for a negative dividend equal to the divisor. -/
theorem C81_fmod_zero_sign_wrong {F : Fmt} (he : 3 ≤ F.e) {v : ℚ} (hv : F.Finite v) (h0 : v < 0) (r : Val) :
    (FmodReturns F .minusZero (.num v) r ↔ r = .plusZero) ∧ (FmodReturns F (.num v) (.num v) r ↔ r = .plusZero) := by
  have he2 : 2 ≤ F.e := by omega
  have hem := emax_ge3 he
  have hs : sgn (.num v) = true := decide_eq_true h0
  have hone : F.Finite 1 := by
    refine fin_of he2 (c := 1) (j := 0) (by rw [abs_one]; exact one_le_pow₀ (by norm_num)) (by unfold Fmt.emin; omega) (by norm_num) ?_
    have : (2 : ℚ) ^ (0 : ℤ) < (2 : ℚ) ^ (F.emax + 1) := Float.zlt (by omega)
    simpa using this
  have hP : (1 : ℚ) ≤ (2 : ℚ) ^ (F.f + 1) := one_le_pow₀ (by norm_num)
  constructor
  · have hd : fdiv F .minusZero (.num v) = .plusZero := by
      unfold fdiv
      simp only [isNaN, isInf, isZero, h0.ne, decide_false, Bool.or_self, Bool.false_eq_true, if_false, numOf, zero_div, hs]
      simp [rnd, sgn, Special.neg, zeroS]
    have ht : ftrunc (.plusZero) = .plusZero := by simp [ftrunc, isNaN, isInf, numOf, truncQ, sgn, Special.neg, zeroS]
    refine returns_iff (n := 0) (fmod_plusZero (x := .minusZero) ?_ ?_ ⟨trivial, rfl, rfl⟩) r
    · rw [hd, ht]
      unfold ffma
      simp only [fneg, isNaN, isInf, Bool.or_self, Bool.false_eq_true, if_false, numOf, zero_mul, add_zero, hs]
      simp [rnd, sgn, Special.neg, zeroS]
    · rw [hd, ht]; simp [fgt, flt, cLe, fabs, sgn, Special.neg, qiBound, numOf]
  · have hd : fdiv F (.num v) (.num v) = .num 1 := by
      unfold fdiv
      simp only [isNaN, isInf, isZero, h0.ne, decide_false, Bool.or_self, Bool.false_eq_true, if_false, numOf, div_self h0.ne]
      exact rnd_exact he2 _ hone (by norm_num)
    have ht : ftrunc (.num 1) = .num 1 := by simp [ftrunc, isNaN, isInf, numOf, truncQ]
    refine returns_iff (n := 0) (fmod_plusZero (x := .num v) ?_ ?_ ⟨⟨hv, h0.ne⟩, rfl, rfl⟩) r
    · rw [hd, ht]
      unfold ffma
      have e : (-1 * v + v : ℚ) = 0 := by ring
      have hs1 : sgn (.num (-1)) = true := decide_eq_true (p := (-1 : ℚ) < 0) (by norm_num)
      simp only [fneg, isNaN, isInf, Bool.or_self, Bool.false_eq_true, if_false, numOf, hs, hs1, e]
      simp [rnd, zeroS]
    · have h1 : qiBound F = nn ((2 : ℚ) ^ (F.f + 1)) := by unfold qiBound; rw [nn_num (by positivity)]
      rw [hd, ht, fabs_num (by norm_num), h1, fgt_nn, abs_one]
      exact decide_eq_false (not_lt.2 hP)

/-- C81: two numbers whose quotient overflows give a NaN. -/
theorem C81_fmod_overflow_wrong {F : Fmt} (he : 3 ≤ F.e) {x y : Val} {X Y : ℝ} (hx : IsReal F x X) (hy : IsReal F y Y) (hY : Y ≠ 0)
    (h : (2 : ℝ) ^ (F.emax + 1) ≤ |X / Y|) (r : Val) : FmodReturns F x y r ↔ r = .qNaN := by
  have he2 : 2 ≤ F.e := by omega
  obtain ⟨⟨x1, x2, x3⟩, rfl⟩ := isReal_iff.1 hx
  obtain ⟨⟨y1, y2, y3⟩, rfl⟩ := isReal_iff.1 hy
  have hY0 : numOf y ≠ 0 := by exact_mod_cast hY
  have hyz : isZero y = false := by cases y <;> simp_all [isZero, numOf]
  set z : ℚ := numOf x / numOf y with hz
  have hzR : ((z : ℚ) : ℝ) = (numOf x : ℝ) / numOf y := by rw [hz]; push_cast; rfl
  rw [← hzR] at h
  obtain ⟨s, hs⟩ : ∃ s, fdiv F x y = infS s := by
    unfold fdiv
    simp only [x2, x3, y2, y3, hyz, Bool.or_self, Bool.false_eq_true, if_false]
    rw [← hz]
    refine ⟨decide ((z : ℝ) < 0), ?_⟩
    have hp := r2 (F.emax + 1)
    have hb : ¬ |roundUnb F .RN ((z : ℚ) : ℝ)| ≤ Float.omega F := by
      intro hc
      have hlt := lt_of_le_of_lt hc (omega_lt he2)
      have h' : (2 : ℚ) ^ (F.emax + 1) ≤ |z| := by rw [r2cast, ← Rat.cast_abs] at h; exact_mod_cast h
      rw [abs_lt] at hlt
      rcases abs_choice z with e | e
      · rw [e] at h'
        have := rr_ge (unb_omega_succ he2) h'
        unfold rr at this; linarith
      · rw [e] at h'
        have := rr_le (F := F) (z := z) (unb_neg (unb_omega_succ he2)) (by linarith)
        unfold rr at this; linarith
    have h0 : ((z : ℚ) : ℝ) ≠ 0 := by intro e; rw [e, abs_zero] at h; linarith
    have h1 : roundUnb F .RN ((z : ℚ) : ℝ) ≠ 0 := by
      intro e; rw [e, abs_zero] at hb; exact hb (le_trans (Float.zp _).le (omega_ge he2))
    unfold rnd
    rw [if_neg h0, if_neg h1, if_neg hb]
  have ht : ∀ t, ftrunc (infS t) = infS t := by intro t; cases t <;> rfl
  have hn : ∀ t, fneg (infS t) = infS (!t) := by intro t; cases t <;> rfl
  have hf : ∀ t, ffma F (infS t) y x = infS (xor t (sgn y)) := by
    intro t; unfold ffma; rw [iN, iI, iS, iZ, x2, x3, y2, y3, hyz]; rfl
  have hd : ∀ t, fdiv F (infS t) y = infS (xor t (sgn y)) := by
    intro t; unfold fdiv; rw [iN, iI, iS, y2, y3]; rfl
  have hf2 : ∀ t, ffma F (infS t) y (infS (!(xor t (sgn y)))) = .qNaN := by
    intro t; unfold ffma; rw [iN, iN, iI, iI, iS, iS, iZ, y2, y3, hyz]; cases t <;> cases sgn y <;> rfl
  refine returns_iff (n := 2) (r := .qNaN) ?_ r
  have h1 : ∀ a, fdiv F .qNaN a = .qNaN := by intro a; simp [fdiv, isNaN]
  have h2 : ∀ a b, ffma F .qNaN a b = .qNaN := by intro a b; simp [ffma, isNaN]
  have h3 : flt (fmul F .qNaN x) .plusZero = false := by simp [fmul, isNaN, flt, cLe]
  have h4 : ftrunc .qNaN = .qNaN := rfl
  have h5 : fneg .qNaN = .qNaN := rfl
  have h6 : ffma F (infS (!(xor (xor (!s) (sgn y)) (sgn y)))) y (infS (xor (!s) (sgn y))) = .qNaN := by
    have := hf2 (!(xor (xor (!s) (sgn y)) (sgn y)))
    convert this using 3
    cases s <;> cases sgn y <;> rfl
  unfold fmod
  simp only [hs, ht, hn, hf, fmodLoop, inf_test, if_true, hd, h6, h1, h4, h5, h2, nan_test, Bool.false_eq_true, if_false, h3]

/-- the quotient of two powers of two of binary32 overflows -/
example (r : Val) : FmodReturns ⟨8, 23⟩ (.num (2 ^ 100)) (.num (1 / 2 ^ 28)) r ↔ r = .qNaN := by
  refine C81_fmod_overflow_wrong (X := 2 ^ 100) (Y := 1 / 2 ^ 28) (by decide) ?_ ?_ (by norm_num) ?_ r
  · exact isReal_iff.2 ⟨⟨⟨⟨2 ^ 23, 100, by norm_num, by decide, by decide, by norm_num⟩, by norm_num⟩, rfl, rfl⟩, by simp [numOf]⟩
  · exact isReal_iff.2 ⟨⟨⟨⟨2 ^ 23, -28, by norm_num, by decide, by decide, by norm_num⟩, by norm_num⟩, rfl, rfl⟩, by simp [numOf]⟩
  · rw [show Fmt.emax ⟨8, 23⟩ = 127 by decide, abs_of_pos (by positivity)]; norm_num

/-- the operands of the two wrong cases below: `u g` and `3 g` with `u = 3 Q - 1`, in a binade where quotients are rounded to integers -/
theorem third {F : Fmt} (he : 3 ≤ F.e) (hf : 3 ≤ F.f) (hfe : (F.f : ℤ) + 2 ≤ F.emax) {s : ℤ} (h1 : F.emin - F.f ≤ s) (h2 : s ≤ 0) :
    ∃ Q : ℤ, 2 ^ F.f < Q ∧ Q < 2 ^ (F.f + 1) ∧ F.Finite ((3 * Q - 1 : ℤ) * (2 : ℚ) ^ s) ∧ F.Finite (3 * (2 : ℚ) ^ s) ∧
      ∀ σ : ℤ, σ = 1 ∨ σ = -1 → Step F (σ * ((3 * Q - 1 : ℤ) * (2 : ℚ) ^ s)) (3 * (2 : ℚ) ^ s) (σ * Q) := by
  have he2 : 2 ≤ F.e := by omega
  have hem := emax_ge3 he
  set p : ℤ := 2 ^ F.f with hp
  have hp8 : 8 ≤ p := by
    calc (8 : ℤ) = 2 ^ 3 := by norm_num
      _ ≤ 2 ^ F.f := pow_le_pow_right₀ (by norm_num) hf
  have hp2 : (2 : ℤ) ^ (F.f + 1) = 2 * p := by rw [pow_succ]; ring
  obtain ⟨Q, c, hQ, hc1, hc2⟩ : ∃ Q c : ℤ, 3 * Q - 1 = 4 * c ∧ p ≤ c ∧ c ≤ p + 1 := by
    have h3 : ∀ n : ℕ, (2 : ℤ) ^ n % 3 ≠ 0 := by
      intro n
      induction n with
      | zero => norm_num
      | succ n ih => rw [pow_succ]; omega
    have h3 := h3 F.f
    rw [← hp] at h3
    rcases (by omega : p % 3 = 1 ∨ p % 3 = 2) with h | h
    · exact ⟨(4 * (p + 1) + 1) / 3, p + 1, by omega, by omega, le_rfl⟩
    · exact ⟨(4 * p + 1) / 3, p, by omega, le_rfl, by omega⟩
  have hg := Float.zp s
  have hgle : (2 : ℚ) ^ s ≤ 1 := by have : (2 : ℚ) ^ s ≤ (2 : ℚ) ^ (0 : ℤ) := Float.zle h2; rwa [zpow_zero] at this
  have hbig : (16 : ℚ) * p ≤ (2 : ℚ) ^ (F.emax + 1) * 2 := by
    have : (2 : ℚ) ^ ((F.f : ℤ) + 3) ≤ (2 : ℚ) ^ (F.emax + 1) := Float.zle (by omega)
    rw [Float.zadd, zpow_natCast] at this
    have e : ((p : ℤ) : ℚ) = 2 ^ F.f := by rw [hp]; push_cast; rfl
    rw [e]; norm_num at this ⊢; linarith
  have hpq : (8 : ℚ) ≤ p := by exact_mod_cast hp8
  have hcq : (c : ℚ) ≤ p + 1 := by exact_mod_cast hc2
  have hcq1 : (p : ℚ) ≤ c := by exact_mod_cast hc1
  have hQq : (3 : ℚ) * Q - 1 = 4 * c := by exact_mod_cast hQ
  have fX : F.Finite ((3 * Q - 1 : ℤ) * (2 : ℚ) ^ s) := by
    refine fin_of he2 (c := c) (j := s + 2) (by rw [abs_of_pos (by omega), hp2]; omega) (by omega) ?_ ?_
    · rw [hQ, Float.zadd]; push_cast; norm_num; ring
    · rw [hQ]; push_cast
      rw [abs_of_pos (mul_pos (by linarith) hg)]
      nlinarith
  have fY : F.Finite (3 * (2 : ℚ) ^ s) := by
    refine fin_of he2 (c := 3) (j := s) (by rw [hp2]; norm_num; omega) h1 (by norm_num) ?_
    rw [abs_of_pos (by linarith)]
    nlinarith
  refine ⟨Q, by omega, by omega, fX, fY, ?_⟩
  have hY0 : (3 : ℚ) * (2 : ℚ) ^ s ≠ 0 := by positivity
  have pos : Step F ((3 * Q - 1 : ℤ) * (2 : ℚ) ^ s) (3 * (2 : ℚ) ^ s) Q := by
    obtain ⟨q, hq⟩ := step_all he ((finite_iff he2).1 fX).1 ((finite_iff he2).1 fY).1 hY0
    have ez : ((3 * Q - 1 : ℤ) : ℚ) * (2 : ℚ) ^ s / (3 * (2 : ℚ) ^ s) = Q - 1 / 3 := by push_cast; field_simp
    have hf1 : (2 : ℚ) ^ ((F.f : ℤ)) = p := by rw [hp, zpow_natCast]; push_cast; rfl
    have hQ1 : (p : ℚ) + 1 ≤ Q := by exact_mod_cast (by omega : p + 1 ≤ Q)
    have hQ2 : (Q : ℚ) ≤ 2 * p := by exact_mod_cast (by omega : Q ≤ 2 * p)
    have hr : rr F ((Q : ℚ) - 1 / 3) = Q := by
      have := ru_eqe (F := F) (z := (Q : ℚ) - 1 / 3) (E := F.f) (M := F.f) (n := Q) (by unfold Fmt.emin; omega)
        (by rw [hf1, abs_of_pos (by linarith)]; linarith) (by rw [Float.zadd, hf1, zpow_one, abs_of_pos (by linarith)]; linarith)
        (Or.inl (by rw [sub_self, zpow_zero, mul_one, zero_sub, zpow_neg_one, show (Q : ℚ) - 1 / 3 - Q = -(1 / 3) by ring, abs_neg, abs_of_pos (by norm_num)]; norm_num))
      rw [sub_self, zpow_zero, mul_one] at this
      exact this
    have : q = Q := by
      have h := hq.tr
      rw [ez, hr] at h
      unfold truncQ at h
      rw [if_neg (by linarith), Int.floor_intCast] at h
      exact h.symm
    rw [this] at hq; exact hq
  rintro σ (rfl | rfl)
  · simpa using pos
  · simpa using pos.negA

theorem fmod_first {F : Fmt} (he : 3 ≤ F.e) {x y : Val} (hx : Fin' F x) (hy : Fin' F y) (hy0 : numOf y ≠ 0) (hov : |numOf x / numOf y| ≤ Float.omega F) {q : ℤ}
    (hq : Step F (numOf x) (numOf y) q) (hs : |q| ≤ 2 ^ (F.f + 1)) :
    ∃ r, fmod F 0 x y = some (if flt (fmul F r x) .plusZero then fadd F r y else r) ∧ Fin' F r ∧ numOf r = numOf x - q * numOf y := by
  obtain ⟨q', s, d1, d2, f1, f2⟩ := step_val he hx hy hy0 hov
  have e : q' = q := by rw [← s.tr, hq.tr]
  rw [e] at d2 f2
  refine ⟨_, ?_, f1, f2⟩
  unfold fmod
  simp only [fmodLoop]
  rw [test_eq d1 d2, decide_eq_false (by omega)]
  rfl

/-- C81: in every format there are operands of opposite signs for which the result is not smaller than the divisor: the divisor is added to a remainder that
has its sign. -/
theorem C81_fmod_sign_wrong {F : Fmt} (he : 3 ≤ F.e) (hf : 3 ≤ F.f) (hfe : (F.f : ℤ) + 2 ≤ F.emax) : ∃ (x y r : Val) (X : ℝ), IsReal F x X ∧ X < 0 ∧ IsReal F y 3 ∧
    (∀ r', FmodReturns F x y r' ↔ r' = r) ∧ IsReal F r 4 ∧ ∀ n, ¬ IsFmod X 3 4 n := by
  have he2 : 2 ≤ F.e := by omega
  have hem := emax_ge3 he
  obtain ⟨Q, hQ1, hQ2, fX, fY, st⟩ := third he hf hfe (s := 0) (by unfold Fmt.emin; omega) le_rfl
  have hst := st (-1) (Or.inr rfl)
  have hQ0 : (8 : ℤ) ≤ 2 ^ F.f := by
    calc (8 : ℤ) = 2 ^ 3 := by norm_num
      _ ≤ 2 ^ F.f := pow_le_pow_right₀ (by norm_num) hf
  have hQq : (8 : ℚ) < Q := by exact_mod_cast (by omega : 8 < Q)
  simp only [zpow_zero, mul_one] at fX fY hst
  set u : ℚ := ((3 * Q - 1 : ℤ) : ℚ) with hu
  have hu' : u = 3 * Q - 1 := by rw [hu]; push_cast; ring
  have hu0 : 0 < u := by rw [hu']; linarith
  have hx : Fin' F (.num (-u)) := ⟨⟨finite_neg fX, by linarith⟩, rfl, rfl⟩
  have hy : Fin' F (.num 3) := ⟨⟨fY, by norm_num⟩, rfl, rfl⟩
  have e1 : ((-1 : ℤ) : ℚ) * u = -u := by push_cast; ring
  rw [e1] at hst
  obtain ⟨r, g1, g2, g3⟩ := fmod_first he hx hy (by simp [numOf]) (by
    simp only [numOf]
    rw [abs_div, abs_neg, abs_of_pos hu0]
    refine le_trans ?_ ((finite_iff he2).1 fX).2
    rw [abs_of_pos hu0, abs_of_pos (by norm_num)]; linarith) hst (by rw [abs_mul, abs_of_pos (show 0 < Q by omega)]; norm_num; omega)
  have hr1 : numOf r = 1 := by rw [g3]; simp only [numOf]; rw [hu']; push_cast; ring
  have ht : flt (fmul F r (.num (-u))) .plusZero = true := by
    rw [sign_test g2 hx, hr1]
    simp only [numOf, one_mul]
    rw [rr_exact (unb_neg ((finite_iff he2).1 fX).1)]
    exact decide_eq_true (by linarith)
  rw [ht, if_pos rfl] at g1
  have h4 : Unbounded F (4 : ℚ) := by
    have := unb_int (F := F) he2 (n := 4) (by rw [pow_succ]; norm_num; omega)
    simpa using this
  have h4' : roundUnb F .RN ((numOf r + numOf (.num 3) : ℚ) : ℝ) = 4 := by
    rw [hr1]; simp only [numOf]; rw [show (1 : ℚ) + 3 = 4 by norm_num]; exact ru_exact h4
  obtain ⟨a1, a2⟩ := fadd_fin he2 g2 hy (by
    rw [h4']
    refine le_trans ?_ ((finite_iff he2).1 fX).2
    rw [abs_of_pos hu0, abs_of_pos (by norm_num), hu']; linarith)
  rw [h4'] at a2
  refine ⟨.num (-u), .num 3, fadd F r (.num 3), ((-u : ℚ) : ℝ), isReal_iff.2 ⟨hx, rfl⟩, by exact_mod_cast neg_neg_of_pos hu0, isReal_iff.2 ⟨hy, by simp [numOf]⟩,
    returns_iff g1, isReal_iff.2 ⟨a1, by rw [a2]; norm_num⟩, ?_⟩
  rintro n ⟨_, h, _⟩
  norm_num at h

/-- C81: in every format there are positive operands for which the result is negative: the product whose sign is tested underflows. -/
theorem C81_fmod_underflow_wrong {F : Fmt} (he : 3 ≤ F.e) (hf : 3 ≤ F.f) (hfe : (F.f : ℤ) + 2 ≤ F.emax) : ∃ (x y r : Val) (X Y R : ℝ), IsReal F x X ∧
    (2 : ℝ) ^ F.emin ≤ X ∧ IsReal F y Y ∧ 0 < Y ∧ (∀ r', FmodReturns F x y r' ↔ r' = r) ∧ IsReal F r R ∧ R < 0 ∧ ∀ n, ¬ IsFmod X Y R n := by
  have he2 : 2 ≤ F.e := by omega
  have hem := emax_ge3 he
  obtain ⟨Q, hQ1, hQ2, fX, fY, st⟩ := third he hf hfe (s := F.emin - F.f) le_rfl (by unfold Fmt.emin; omega)
  have hst := st 1 (Or.inl rfl)
  simp only [Int.cast_one, one_mul] at hst
  have hQpos : 0 < Q := by
    have : (1 : ℤ) ≤ 2 ^ F.f := one_le_pow₀ (by norm_num)
    omega
  set g : ℚ := (2 : ℚ) ^ (F.emin - F.f) with hg
  have hgp : 0 < g := Float.zp _
  have hpq : (2 : ℚ) ^ F.f + 1 ≤ Q := by exact_mod_cast (by omega : 2 ^ F.f + 1 ≤ Q)
  have hQ2q : (Q : ℚ) ≤ 2 * (2 : ℚ) ^ F.f := by rw [pow_succ] at hQ2; exact_mod_cast (by omega : Q ≤ 2 * 2 ^ F.f)
  have hp1 : (1 : ℚ) ≤ (2 : ℚ) ^ F.f := one_le_pow₀ (by norm_num)
  set u : ℚ := ((3 * Q - 1 : ℤ) : ℚ) with hu
  have hu' : u = 3 * Q - 1 := by rw [hu]; push_cast; ring
  have hu0 : 0 < u := by rw [hu']; linarith
  have hX0 : 0 < u * g := mul_pos hu0 hgp
  have hx : Fin' F (.num (u * g)) := ⟨⟨fX, hX0.ne'⟩, rfl, rfl⟩
  have hy : Fin' F (.num (3 * g)) := ⟨⟨fY, by positivity⟩, rfl, rfl⟩
  have hpe : (2 : ℚ) ^ F.f * g = (2 : ℚ) ^ F.emin := by
    rw [hg, ← zpow_natCast, ← Float.zadd]; congr 1; ring
  have hX1 : (2 : ℚ) ^ F.emin ≤ u * g := by
    rw [← hpe]; exact mul_le_mul_of_nonneg_right (by rw [hu']; linarith) hgp.le
  have hX2 : u * g < 6 * (2 : ℚ) ^ F.emin := by
    rw [← hpe, ← mul_assoc]; exact mul_lt_mul_of_pos_right (by rw [hu']; linarith) hgp
  obtain ⟨r, g1, g2, g3⟩ := fmod_first he hx hy (by simp only [numOf]; positivity) (by
    simp only [numOf]
    rw [mul_div_mul_right _ _ hgp.ne', abs_of_pos (by linarith)]
    have h1 : (2 : ℚ) ^ ((F.f : ℤ) + 1) ≤ (2 : ℚ) ^ F.emax := Float.zle (by omega)
    rw [Float.zadd, zpow_natCast, zpow_one] at h1
    have := omega_ge he2
    rw [hu']; linarith) hst (by rw [abs_of_pos hQpos]; omega)
  have hr1 : numOf r = -g := by rw [g3]; simp only [numOf]; rw [hu']; ring
  have ht : flt (fmul F r (.num (u * g))) .plusZero = false := by
    rw [sign_test g2 hx, hr1]
    apply decide_eq_false
    simp only [numOf]
    rw [rr_tiny]
    · exact lt_irrefl _
    · rw [neg_mul, abs_neg, abs_of_pos (mul_pos hgp hX0), show F.emin - (F.f : ℤ) - 1 = (F.emin - F.f) + (-1) by ring, Float.zadd, ← hg]
      apply mul_lt_mul_of_pos_left _ hgp
      have h1 : (2 : ℚ) ^ (F.emin + 3) ≤ (2 : ℚ) ^ (-1 : ℤ) := Float.zle (by unfold Fmt.emin; omega)
      have h2 : (2 : ℚ) ^ (F.emin + 3) = (2 : ℚ) ^ F.emin * 8 := by rw [Float.zadd]; norm_num
      have h3 := Float.zp F.emin
      linarith
  rw [ht, if_neg (by simp)] at g1
  refine ⟨.num (u * g), .num (3 * g), r, ((u * g : ℚ) : ℝ), ((3 * g : ℚ) : ℝ), ((-g : ℚ) : ℝ), isReal_iff.2 ⟨hx, rfl⟩, ?_, isReal_iff.2 ⟨hy, rfl⟩, ?_,
    returns_iff g1, isReal_iff.2 ⟨g2, by rw [hr1]⟩, ?_, ?_⟩
  · rw [r2cast]; exact_mod_cast hX1
  · exact_mod_cast (by positivity : (0 : ℚ) < 3 * g)
  · exact_mod_cast neg_neg_of_pos hgp
  · rintro n ⟨_, _, h⟩
    have h' : 0 ≤ -g * (u * g) := by exact_mod_cast h
    have := mul_pos hgp hX0
    linarith

end Verif.Rem
