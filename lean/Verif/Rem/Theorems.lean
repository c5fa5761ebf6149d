import Verif.Rem.Half
import Verif.Elem.SqrtWrong

/-! # C80: `remquo` -/

namespace Verif.Rem

open Verif.Float (Fmt Val)
open Verif.Elem
open Verif.Check

/-- the formats: exponents of at least three bits, a significand shorter than the exponent range, an exponent range the 5000 steps of the watchdog cover -/
structure Sized (F : Fmt) : Prop where
  e : 3 ≤ F.e
  f : (F.f : ℤ) ≤ F.emax
  steps : 2 * F.emax + F.f + 1 ≤ 5000

example : Sized ⟨8, 23⟩ := ⟨by decide, by decide, by decide⟩
example : Sized ⟨11, 52⟩ := ⟨by decide, by decide, by decide⟩

theorem numOf_fabs (a : Val) : numOf (fabs a) = |numOf a| := by
  cases a <;> simp [fabs, sgn, Special.neg, numOf, fneg]
  rename_i v
  by_cases h : v < 0
  · simp [h, abs_of_neg h, numOf]
  · simp [h, abs_of_nonneg (not_lt.1 h), numOf]

theorem fabs_fin {F : Fmt} {a : Val} (h : Fin' F a) : Fin' F (fabs a) := by
  unfold fabs; split_ifs
  · exact (fneg_fin h).1
  · exact h

theorem cEq_fin {F : Fmt} {a b : Val} (ha : Fin' F a) (hb : Fin' F b) : cEq a b = decide (numOf a = numOf b) := by
  unfold cEq
  rw [cLe_fin ha hb, cLe_fin hb ha]
  by_cases h : numOf a = numOf b
  · simp [h]
  · rw [decide_eq_false h]
    rcases lt_or_gt_of_ne h with h1 | h1
    · simp [not_le.2 h1]
    · simp [not_le.2 h1]

theorem fsub_self {F : Fmt} {a : Val} (h1 : isNaN a = false) (h2 : isInf a = false) : fsub F a a = .plusZero := by
  unfold fsub fadd
  have hs : (sgn a && sgn (fneg a)) = false := by
    cases a <;> simp [sgn, fneg, Special.neg]
    intro h; exact h.le
  simp only [h1, h2, isNaN_fneg, isInf_fneg, numOf_fneg, hs, Bool.or_self, Bool.false_eq_true, if_false]
  simp [rnd, zeroS]

/-- half the divisor, rounded, is finite; a number below it is at most half the divisor -/
theorem early {F : Fmt} (he : 3 ≤ F.e) {x y : Val} (hx : Fin' F x) (hy : Fin' F y) (h : flt (fabs x) (fabs (fmul F y (.num (1 / 2)))) = true) :
    2 * |numOf x| ≤ |numOf y| := by
  have he2 : 2 ≤ F.e := by omega
  have hem := emax_ge3 he
  have hh : Fin' F (.num (1 / 2)) := by
    refine ⟨⟨?_, by norm_num⟩, rfl, rfl⟩
    refine fin_of he2 (c := 1) (j := -1) (by rw [abs_one]; exact one_le_pow₀ (by norm_num)) (by unfold Fmt.emin; omega) (by norm_num) ?_
    have : (2 : ℚ) ^ (0 : ℤ) ≤ (2 : ℚ) ^ (F.emax + 1) := Float.zle (by omega)
    rw [zpow_zero] at this
    rw [abs_of_pos (by norm_num)]
    linarith [show (1 / 2 : ℚ) < 1 by norm_num]
  have hxu := fin_unb he2 hx
  have hyu := fin_unb he2 hy
  have key : ∀ w : ℚ, Unbounded F w → |numOf y| / 2 ≤ w → |roundUnb F .RN ((numOf y * numOf (.num (1 / 2)) : ℚ) : ℝ)| ≤ w := by
    intro w hw hle
    have e : ((numOf y * numOf (.num (1 / 2)) : ℚ) : ℝ) = ((numOf y : ℚ) : ℝ) / 2 := by simp only [numOf]; push_cast; ring
    rw [e]
    have hle' : |((numOf y : ℚ) : ℝ)| / 2 ≤ w := by rw [← Rat.cast_abs]; exact_mod_cast hle
    rw [abs_le]
    constructor
    · have h1 : ((-w : ℚ) : ℝ) ≤ ((numOf y : ℚ) : ℝ) / 2 := by push_cast; have := neg_abs_le ((numOf y : ℚ) : ℝ); linarith
      have h2 := ru_between_ge (F := F) (unb_neg hw) h1
      exact_mod_cast h2
    · have h1 : ((numOf y : ℚ) : ℝ) / 2 ≤ (w : ℝ) := by have := le_abs_self ((numOf y : ℚ) : ℝ); linarith
      exact_mod_cast ru_between_le (F := F) hw h1
  have hover : |roundUnb F .RN ((numOf y * numOf (.num (1 / 2)) : ℚ) : ℝ)| ≤ Float.omega F := by
    have h1 := key |numOf y| (by rcases abs_choice (numOf y) with g | g <;> rw [g]; exacts [hyu.1, unb_neg hyu.1]) (by have := abs_nonneg (numOf y); linarith)
    exact le_trans h1 hyu.2
  obtain ⟨g1, g2⟩ := fmul_fin he2 hy hh hover
  rw [flt_fin (fabs_fin hx) (fabs_fin g1), numOf_fabs, numOf_fabs, g2] at h
  have h1 := of_decide_eq_true h
  by_contra hc
  have := key |numOf x| (by rcases abs_choice (numOf x) with g | g <;> rw [g]; exacts [hxu.1, unb_neg hxu.1]) (by linarith [not_le.1 hc])
  linarith

/-- what `remquo` returns for finite operands, in rational numbers -/
theorem remquo_spec {F : Fmt} (hF : Sized F) {k : ℕ} (hk1 : 1 ≤ k) (hk : k ≤ intSize F) {x y : Val} (hx : Fin' F x) (hy : Fin' F y) (hy0 : numOf y ≠ 0)
    (hh : |numOf y| < (2 : ℚ) ^ F.emin ∨ F.Finite (numOf y / 2)) : ∃ (n : ℤ) (R : ℚ) (r : Val) (q : ℤ), remquo F k x y = some (r, q) ∧ Fin' F r ∧ numOf r = R ∧
      R = numOf x - n * numOf y ∧ 2 * |R| ≤ |numOf y| ∧ (2 * |R| = |numOf y| → Even n) ∧
      (0 < numOf x / numOf y → q = |n| % 2 ^ k) ∧ (numOf x / numOf y < 0 → q = -(|n| % 2 ^ k)) ∧
      (R = 0 → |numOf x| ≠ |numOf y| → r = if Special.neg x then .minusZero else .plusZero) := by
  have he2 : 2 ≤ F.e := by have := hF.e; omega
  obtain ⟨x1, x2, x3⟩ := hx
  obtain ⟨y1, y2, y3⟩ := hy
  have hyz : isZero y = false := by cases y <;> simp_all [isZero, numOf]
  unfold remquo
  simp only [x2, x3, y2, y3, hyz, Bool.or_self, Bool.false_eq_true, if_false]
  by_cases hxz : isZero x = true
  · have hx0 : numOf x = 0 := by cases x <;> simp_all [isZero, numOf]
    rw [hxz, if_pos rfl]
    refine ⟨0, 0, x, 0, rfl, ⟨x1, x2, x3⟩, hx0, by rw [hx0]; simp, by simp, fun _ => by simp, ?_, ?_, fun _ _ => ?_⟩
    · rw [hx0]; simp
    · rw [hx0]; simp
    · cases x <;> simp_all [isZero, numOf, Special.neg, Fmt.Datum, isNaN, isInf]
  · have hx0 : numOf x ≠ 0 := by
      cases x <;> simp_all [isZero, numOf, isNaN, isInf]
    rw [if_neg hxz]
    by_cases h1 : flt (fabs x) (fabs (fmul F y (.num (1 / 2)))) = true
    · rw [if_pos h1]
      have h2 := early hF.e ⟨x1, x2, x3⟩ ⟨y1, y2, y3⟩ h1
      exact ⟨0, numOf x, x, 0, rfl, ⟨x1, x2, x3⟩, rfl, by simp, h2, fun _ => by simp, fun _ => by simp, fun _ => by simp, fun h => absurd h hx0⟩
    · rw [if_neg h1, cEq_fin ⟨x1, x2, x3⟩ ⟨y1, y2, y3⟩]
      have hm1 : (1 : ℤ) % 2 ^ k = 1 := by
        apply Int.emod_eq_of_lt (by norm_num)
        calc (1 : ℤ) < 2 ^ 1 := by norm_num
          _ ≤ 2 ^ k := pow_le_pow_right₀ (by norm_num) hk1
      by_cases h2 : numOf x = numOf y
      · rw [decide_eq_true h2, if_pos rfl, fsub_self x2 x3]
        refine ⟨1, 0, .plusZero, 1, rfl, ⟨trivial, rfl, rfl⟩, rfl, by rw [h2]; simp, by simp, ?_, ?_, ?_, fun _ h => absurd (by rw [h2]) h⟩
        · intro h; simp at h; exact absurd h.symm (by simpa using hy0)
        · intro _; rw [abs_one, hm1]
        · rw [h2, div_self hy0]; intro h; norm_num at h
      · rw [decide_eq_false h2, if_neg (by simp), cEq_fin ⟨x1, x2, x3⟩ (fneg_fin ⟨y1, y2, y3⟩).1, numOf_fneg]
        by_cases h3 : numOf x = -numOf y
        · rw [decide_eq_true h3, if_pos rfl, fsub_self x2 x3]
          refine ⟨-1, 0, .plusZero, -1, rfl, ⟨trivial, rfl, rfl⟩, rfl, by rw [h3]; simp, by simp, ?_, ?_, ?_, fun _ h => absurd (by rw [h3, abs_neg]) h⟩
          · intro h; simp at h; exact absurd h.symm (by simpa using hy0)
          · rw [h3, neg_div, div_self hy0]; intro h; norm_num at h
          · intro _; rw [abs_neg, abs_one, hm1]
        · rw [decide_eq_false h3, if_neg (by simp)]
          have ex : x = .num (numOf x) := fin_num_ne ⟨x1, x2, x3⟩ hx0
          have ey : y = .num (numOf y) := fin_num_ne ⟨y1, y2, y3⟩ hy0
          generalize numOf x = X at *
          generalize numOf y = Y at *
          subst ex; subst ey
          obtain ⟨Q, m, g1, g2, g3, g4, g5, g6⟩ := remLoop_spec hF.e hF.f hF.steps x1.1 hx0 y1.1 hy0 hh hk
          have hb : (|X| : ℚ) - Q * |Y| = m := by linarith
          -- the signs
          refine ⟨(if xor (decide (X < 0)) (decide (Y < 0)) then -1 else 1) * Q, if X < 0 then -m else m, _, _, g1, ?_, ?_, ?_, ?_, ?_, ?_, ?_, ?_⟩
          · by_cases h0 : m = 0
            · rw [if_pos h0]; by_cases hX : X < 0 <;> simp [hX, zeroS, Fin', Fmt.Datum, isNaN, isInf]
            · rw [if_neg h0]
              refine ⟨?_, rfl, rfl⟩
              by_cases hX : X < 0
              · rw [if_pos hX]; exact ⟨finite_neg g2, neg_ne_zero.2 h0⟩
              · rw [if_neg hX]; exact ⟨g2, h0⟩
          · by_cases h0 : m = 0
            · rw [if_pos h0, h0]; by_cases hX : X < 0 <;> simp [hX, zeroS, numOf]
            · rw [if_neg h0]; rfl
          · rcases lt_or_ge X 0 with hX | hX <;> rcases lt_or_ge Y 0 with hY | hY
            · rw [abs_of_neg hX, abs_of_neg hY] at hb; simp [hX, hY]; linarith
            · rw [abs_of_neg hX, abs_of_nonneg hY] at hb; simp [hX, not_lt.2 hY]; linarith
            · rw [abs_of_nonneg hX, abs_of_neg hY] at hb; simp [not_lt.2 hX, hY]; linarith
            · rw [abs_of_nonneg hX, abs_of_nonneg hY] at hb; simp [not_lt.2 hX, not_lt.2 hY]; linarith
          · split_ifs
            · rw [abs_neg]; exact g5
            · exact g5
          · intro h
            have : 2 * |m| = |Y| := by
              split_ifs at h
              · rwa [abs_neg] at h
              · exact h
            exact (g6 this).mul_left _
          · intro h
            have hxy : xor (decide (X < 0)) (decide (Y < 0)) = false := by
              rcases div_pos_iff.1 h with ⟨a, b⟩ | ⟨a, b⟩
              · simp [not_lt.2 a.le, not_lt.2 b.le]
              · simp [a, b]
            rw [hxy]; simp [abs_of_nonneg g3]
          · intro h
            have hxy : xor (decide (X < 0)) (decide (Y < 0)) = true := by
              rcases div_neg_iff.1 h with ⟨a, b⟩ | ⟨a, b⟩
              · simp [not_lt.2 a.le, b]
              · simp [a, not_lt.2 b.le]
            rw [hxy]; simp [abs_of_nonneg g3]
          · intro h _
            have h0 : m = 0 := by
              split_ifs at h
              · linarith
              · exact h
            rw [if_pos h0]; rfl

/-- C80: for finite operands the remainder is that of IEEE-754, exactly, and the quotient has the low bits and the sign C asks for, in the three modes; no
watchdog fires.  Missing: the divisors of the lowest binade of the normal numbers that have no half in the format (`C80_remquo_half_wrong`). -/
theorem C80_remquo_exact_partial {F : Fmt} (hF : Sized F) {k : ℕ} (hk1 : 1 ≤ k) (hk : k < 1 + F.e + F.f) {x y : Val} {X Y : ℝ} (hx : IsReal F x X)
    (hy : IsReal F y Y) (hY : Y ≠ 0) (hh : |Y| < (2 : ℝ) ^ F.emin ∨ ∃ h, IsReal F h (Y / 2)) :
    ∃ (n : ℤ) (R : ℝ), IsRemainder X Y R n ∧ IsReal F (remResult F k x y) R ∧ QuotientBits k X Y n (quoResult F k x y) ∧
      quoWritten F k x y = some (quoResult F k x y) := by
  have he2 : 2 ≤ F.e := by have := hF.e; omega
  obtain ⟨hx1, rfl⟩ := isReal_iff.1 hx
  obtain ⟨hy1, rfl⟩ := isReal_iff.1 hy
  have hh' : |numOf y| < (2 : ℚ) ^ F.emin ∨ F.Finite (numOf y / 2) := by
    rcases hh with h | ⟨a, ha⟩
    · left; rw [r2cast, ← Rat.cast_abs] at h; exact_mod_cast h
    · right
      obtain ⟨ha1, ha2⟩ := isReal_iff.1 ha
      have : numOf a = numOf y / 2 := by exact_mod_cast ha2
      rw [← this]; exact (finite_iff he2).2 (fin_unb he2 ha1)
  obtain ⟨n, R, r, q, g1, g2, g3, g4, g5, g6, g7, g8, _⟩ := remquo_spec hF hk1 (by unfold intSize; omega) hx1 hy1 (by exact_mod_cast hY) hh'
  refine ⟨n, R, ⟨by rw [g4]; push_cast; ring, by exact_mod_cast g5, fun h => g6 (by exact_mod_cast h)⟩, ?_, ?_, ?_⟩
  · unfold remResult; rw [g1]; exact isReal_iff.2 ⟨g2, by rw [← g3]; rfl⟩
  · unfold quoResult; rw [g1]
    exact ⟨fun h => g7 (by exact_mod_cast h), fun h => g8 (by exact_mod_cast h)⟩
  · unfold quoWritten quoResult; rw [g1]; rfl

/-- C80: a null remainder has the sign of the dividend.  Missing: the operands equal in magnitude (`C80_remquo_zero_sign_wrong`) and the divisors
`C80_remquo_exact_partial` leaves out. -/
theorem C80_remquo_zero_sign_partial {F : Fmt} (hF : Sized F) {k : ℕ} (hk1 : 1 ≤ k) (hk : k < 1 + F.e + F.f) {x y : Val} {X Y : ℝ} (hx : IsReal F x X)
    (hy : IsReal F y Y) (hY : Y ≠ 0) (hne : |X| ≠ |Y|) (hh : |Y| < (2 : ℝ) ^ F.emin ∨ ∃ h, IsReal F h (Y / 2)) (h0 : IsReal F (remResult F k x y) 0) :
    remResult F k x y = if Special.neg x then .minusZero else .plusZero := by
  have he2 : 2 ≤ F.e := by have := hF.e; omega
  obtain ⟨hx1, rfl⟩ := isReal_iff.1 hx
  obtain ⟨hy1, rfl⟩ := isReal_iff.1 hy
  have hh' : |numOf y| < (2 : ℚ) ^ F.emin ∨ F.Finite (numOf y / 2) := by
    rcases hh with h | ⟨a, ha⟩
    · left; rw [r2cast, ← Rat.cast_abs] at h; exact_mod_cast h
    · right
      obtain ⟨ha1, ha2⟩ := isReal_iff.1 ha
      have : numOf a = numOf y / 2 := by exact_mod_cast ha2
      rw [← this]; exact (finite_iff he2).2 (fin_unb he2 ha1)
  obtain ⟨n, R, r, q, g1, g2, g3, _, _, _, _, _, g9⟩ := remquo_spec hF hk1 (by unfold intSize; omega) hx1 hy1 (by exact_mod_cast hY) hh'
  have hr : remResult F k x y = r := by unfold remResult; rw [g1]; rfl
  rw [hr] at h0 ⊢
  have h1 := (isReal_iff.1 h0).2
  exact g9 (by rw [← g3]; exact_mod_cast h1) (by intro h; apply hne; rw [← Rat.cast_abs, ← Rat.cast_abs, h])

/-- C80: a dividend equal to plus or minus the divisor gives the positive zero, whatever its sign. -/
theorem C80_remquo_zero_sign_wrong {F : Fmt} (hF : Sized F) (k : ℕ) {v : ℚ} (hv : F.Finite v) (h0 : v < 0) :
    remResult F k (.num v) (.num v) = .plusZero ∧ remResult F k (.num v) (.num (-v)) = .plusZero := by
  have hfx : Fin' F (.num v) := ⟨⟨hv, h0.ne⟩, rfl, rfl⟩
  have hfy : Fin' F (.num (-v)) := ⟨⟨finite_neg hv, neg_ne_zero.2 h0.ne⟩, rfl, rfl⟩
  have hsub := fsub_self (F := F) (a := .num v) rfl rfl
  constructor
  · have hn : flt (fabs (.num v)) (fabs (fmul F (.num v) (.num (1 / 2)))) = false := by
      by_contra h
      have := early hF.e hfx hfx (by simpa using h)
      simp only [numOf] at this
      have := abs_pos.2 h0.ne
      linarith
    unfold remResult remquo
    simp only [isNaN, isZero, isInf, h0.ne, hn, Bool.or_self, Bool.false_eq_true, if_false, decide_false]
    rw [cEq_fin hfx hfx, decide_eq_true rfl, if_pos rfl, hsub]; rfl
  · have hn : flt (fabs (.num v)) (fabs (fmul F (.num (-v)) (.num (1 / 2)))) = false := by
      by_contra h
      have := early hF.e hfx hfy (by simpa using h)
      simp only [numOf, abs_neg] at this
      have := abs_pos.2 h0.ne
      linarith
    have h1 : cEq (.num v) (.num (-v)) = false := by
      rw [cEq_fin hfx hfy]; exact decide_eq_false (by simp only [numOf]; intro h; linarith)
    unfold remResult remquo
    have h2 : cEq (.num v) (fneg (.num (-v))) = true := by
      rw [cEq_fin hfx (fneg_fin hfy).1, numOf_fneg]; exact decide_eq_true (by simp only [numOf, neg_neg])
    simp only [isNaN, isZero, isInf, h0.ne, neg_ne_zero.2 h0.ne, hn, h1, h2, Bool.or_self, Bool.false_eq_true, if_false, if_true, decide_false, hsub]; rfl

/-- C80: NaN operands, infinite operands, null operands. -/
theorem C80_remquo_special (F : Fmt) (k : ℕ) {x y : Val} (hx : F.Datum x) (hy : F.Datum y) : RemSpecial x y (remResult F k x y) := by
  constructor
  · intro h
    unfold remResult remquo
    rcases h with h | h
    · cases x <;> simp_all [Special.IsNaN, isNaN]
    · cases y <;> simp_all [Special.IsNaN, isNaN]
  · intro h
    unfold remResult remquo
    cases x <;> simp_all [Special.IsInf, isNaN, isZero, isInf]
    all_goals (by_cases h1 : isNaN y = true <;> by_cases h2 : isZero y = true <;> simp_all)
  · intro h
    unfold remResult remquo
    cases y <;> simp_all [Special.IsZero, Special.finVal, isNaN, isZero, isInf, Fmt.Datum]
    all_goals (by_cases h1 : isNaN x = true <;> simp_all)
  · rintro h ⟨v, hv⟩
    unfold remResult remquo
    cases y <;> simp_all [Special.IsInf, isNaN, isZero, isInf]
    all_goals (cases x <;> simp_all [Special.finVal, isNaN, isZero, isInf])
    all_goals (split_ifs <;> simp_all)
  · rintro h ⟨w, hw, hw0⟩
    unfold remResult remquo
    cases x <;> simp_all [Special.IsZero, Special.finVal, isNaN, isZero, isInf, Fmt.Datum]
    all_goals (cases y <;> simp_all [Special.finVal, isNaN, isZero, isInf])

example : remResult ⟨8, 23⟩ 7 .minusInf (.num 1) = .qNaN := (C80_remquo_special ⟨8, 23⟩ 7 (x := .minusInf) (y := .num 1) trivial ⟨⟨2 ^ 23, 0, by norm_num, by decide, by decide, by norm_num⟩, by norm_num⟩).infL trivial

/-- the hypotheses of `C80_remquo_exact_partial` hold of 7 and 2 in binary32 -/
example : ∃ (n : ℤ) (R : ℝ), IsRemainder 7 2 R n ∧ IsReal ⟨8, 23⟩ (remResult ⟨8, 23⟩ 7 (.num 7) (.num 2)) R ∧
    QuotientBits 7 7 2 n (quoResult ⟨8, 23⟩ 7 (.num 7) (.num 2)) ∧ quoWritten ⟨8, 23⟩ 7 (.num 7) (.num 2) = some (quoResult ⟨8, 23⟩ 7 (.num 7) (.num 2)) := by
  refine C80_remquo_exact_partial ⟨by decide, by decide, by decide⟩ (by decide) (by decide) ?_ ?_ (by norm_num) (Or.inr ⟨.num 1, ?_⟩)
  · exact ⟨⟨⟨7 * 2 ^ 21, 2, by norm_num, by decide, by decide, by norm_num⟩, by norm_num⟩, by simp [value]⟩
  · exact ⟨⟨⟨2 ^ 23, 1, by norm_num, by decide, by decide, by norm_num⟩, by norm_num⟩, by simp [value]⟩
  · exact ⟨⟨⟨2 ^ 23, 0, by norm_num, by decide, by decide, by norm_num⟩, by norm_num⟩, by simp [value]⟩

/-- C80: in every format there is a normal divisor, with a normal dividend, for which the result is not the IEEE-754 remainder: half the divisor is
rounded before it is compared to the remainder. -/
theorem C80_remquo_half_wrong {F : Fmt} (hF : Sized F) (hf : 2 ≤ F.f) {k : ℕ} (hk : k < 1 + F.e + F.f) : ∃ (x y : Val) (X Y : ℝ), IsReal F x X ∧ IsReal F y Y ∧
    (2 : ℝ) ^ F.emin ≤ X ∧ (2 : ℝ) ^ F.emin ≤ Y ∧ ∀ R n, IsReal F (remResult F k x y) R → ¬ IsRemainder X Y R n := by
  have he := hF.e
  have he2 : 2 ≤ F.e := by omega
  have hem := emax_ge3 he
  obtain ⟨t, ht⟩ : ∃ t, F.f = t + 2 := ⟨F.f - 2, by omega⟩
  set g : ℚ := (2 : ℚ) ^ (F.emin - F.f) with hg
  have hgp : 0 < g := Float.zp _
  set K : ℤ := 2 ^ (t + 1) with hK
  have hK0 : 2 ≤ K := by rw [hK, pow_succ]; have : (1 : ℤ) ≤ 2 ^ t := one_le_pow₀ (by norm_num); omega
  have hKev : Even K := ⟨2 ^ t, by rw [hK, pow_succ]; ring⟩
  have hf1 : (2 : ℤ) ^ F.f = 2 * K := by rw [ht, hK, pow_succ]; ring
  have hf2 : (2 : ℤ) ^ (F.f + 1) = 4 * K := by rw [pow_succ, hf1]; ring
  have hKq : (2 : ℚ) ≤ K := by exact_mod_cast hK0
  have hpemin : (2 : ℚ) ^ F.emin = 2 * K * g := by
    rw [hg, show F.emin = (F.f : ℤ) + (F.emin - F.f) by ring, Float.zadd, Float.znat, add_sub_cancel_left]
    congr 1; exact_mod_cast hf1
  have hbig : 4 * K * g < (2 : ℚ) ^ (F.emax + 1) := by
    have : (2 : ℚ) ^ (F.emin + 1) < (2 : ℚ) ^ (F.emax + 1) := Float.zlt (by unfold Fmt.emin; omega)
    rw [Float.zadd, zpow_one, hpemin] at this; linarith
  have fin : ∀ c : ℤ, |c| ≤ 4 * K → F.Finite (c * g) := by
    intro c hc
    refine fin_of he2 (c := c) (j := F.emin - F.f) (by rw [hf2]; exact hc) le_rfl rfl (lt_of_le_of_lt ?_ hbig)
    rw [abs_mul, abs_of_pos hgp]
    apply mul_le_mul_of_nonneg_right _ hgp.le
    exact_mod_cast hc
  set Y : ℚ := (2 * K + 1 : ℤ) * g with hY
  set X : ℚ := (3 * K + 1 : ℤ) * g with hX
  have hYf : F.Finite Y := fin _ (by rw [abs_of_pos (by omega)]; omega)
  have hXf : F.Finite X := fin _ (by rw [abs_of_pos (by omega)]; omega)
  have hYp : 0 < Y := mul_pos (by exact_mod_cast (by omega : 0 < 2 * K + 1)) hgp
  have hXp : 0 < X := mul_pos (by exact_mod_cast (by omega : 0 < 3 * K + 1)) hgp
  have hXY : X = Y + K * g := by rw [hX, hY]; push_cast; ring
  have hfx : Fin' F (.num X) := ⟨⟨hXf, hXp.ne'⟩, rfl, rfl⟩
  have hfy : Fin' F (.num Y) := ⟨⟨hYf, hYp.ne'⟩, rfl, rfl⟩
  have hKg : 0 < K * g := mul_pos (by linarith) hgp
  have hY2 : Y = 2 * (K * g) + g := by rw [hY]; push_cast; ring
  -- half the divisor is rounded to `K g`
  have hhalf : fmul F (.num Y) (.num (1 / 2)) = .num (K * g) := by
    unfold fmul
    have hru : roundUnb F .RN ((Y * (1 / 2) : ℚ) : ℝ) = K * (2 : ℚ) ^ (F.emin - F.f) := by
      have hp1 : (2 : ℚ) ^ (F.emin - 1) = K * g := by
        have : (2 : ℚ) ^ F.emin = (2 : ℚ) ^ (F.emin - 1) * 2 := by
          rw [show F.emin = (F.emin - 1) + 1 by ring, Float.zadd, zpow_one, add_sub_cancel_right]
        rw [hpemin] at this; linarith
      have hp2 : (2 : ℚ) ^ (F.emin - F.f - 1) = g / 2 := by rw [show F.emin - F.f - 1 = (F.emin - F.f) + (-1) by ring, Float.zadd (F.emin - F.f) (-1), ← hg, zpow_neg_one]; ring
      refine ru_eqe (F := F) (z := Y * (1 / 2)) (E := F.emin - 1) (M := F.emin) (n := K) (by omega) ?_ ?_ (Or.inr ⟨?_, hKev⟩)
      · rw [hp1, abs_of_pos (by linarith), hY2]; linarith
      · rw [sub_add_cancel, hpemin, abs_of_pos (by linarith), hY2]; nlinarith
      · rw [hp2, ← hg, hY2, show (2 * (K * g) + g) * (1 / 2) - K * g = g / 2 by ring, abs_of_pos (by linarith)]
    simp only [isNaN, isInf, numOf, Bool.or_self, Bool.false_eq_true, if_false, sgn_pos hYp.le, sgn_pos (show (0 : ℚ) ≤ 1 / 2 by norm_num), Bool.xor_self]
    unfold rnd
    have hYh : ((Y * (1 / 2) : ℚ) : ℝ) ≠ 0 := by
      have : (Y * (1 / 2) : ℚ) ≠ 0 := by positivity
      exact_mod_cast this
    rw [if_neg hYh, hru, ← hg, if_neg hKg.ne', if_pos]
    exact ((finite_iff he2).1 (fin K (by rw [abs_of_pos (by omega)]; omega))).2
  refine ⟨.num X, .num Y, X, Y, isReal_iff.2 ⟨hfx, rfl⟩, isReal_iff.2 ⟨hfy, rfl⟩, ?_, ?_, ?_⟩
  · rw [r2cast, Rat.cast_le, hpemin, hX]; push_cast; nlinarith
  · rw [r2cast, Rat.cast_le, hpemin, hY]; push_cast; nlinarith
  -- the loop
  obtain ⟨Q, m, w, st, hw, heq⟩ := to_stage he hF.f hF.steps hXf hXp.ne' hYf hYp.ne' k
  obtain ⟨q, mx, w', l1, Q1, m1, l2, l3, l4, l5, l6, l7, l8, l9⟩ :=
    loop3_spec he2 (abs_pos.2 hYp.ne') (fabs_num hYp.ne') st.m0 st.lt st.fin st.sub hw Q
  have heq1 : Q1 * |Y| + m1 = |X| := l5.trans st.eq
  rw [abs_of_pos hYp, abs_of_pos hXp] at heq1
  rw [abs_of_pos hYp] at l4
  have hKgY : K * g < Y := by rw [hY2]; linarith
  have hQ1 : Q1 = 1 := by
    have a1 : (Q1 : ℚ) < 2 := by
      by_contra hc
      have := mul_le_mul_of_nonneg_right (not_lt.1 hc) hYp.le
      linarith
    have a2 : (0 : ℚ) < Q1 := by
      by_contra hc
      have := mul_le_mul_of_nonneg_right (not_lt.1 hc) hYp.le
      linarith
    have a1' : Q1 < 2 := by exact_mod_cast a1
    have a2' : 0 < Q1 := by exact_mod_cast a2
    omega
  have hm1 : m1 = K * g := by rw [hQ1] at heq1; push_cast at heq1; linarith
  have hns : isSubnormal F (.num Y) = false := by
    rw [isSub_num, abs_of_pos hYp]; apply decide_eq_false; rw [hpemin, hY]; push_cast; nlinarith
  have hone : fmul F (nn (K * g)) (.num 1) = nn (K * g) := by
    rw [nn_num hKg.ne', fmul_num he2 hKg.ne' (by norm_num) (by rw [mul_one]; exact fin K (by rw [abs_of_pos (by omega)]; omega)), mul_one]
  have hover : overHalf F (.num Y) (wrap F Q1, nn m1) = (wrap F Q1, nn m1) := by
    unfold overHalf
    simp only [hns, hm1, hone, hhalf, Bool.false_eq_true, if_false]
    rw [fabs_num hKg.ne', abs_of_pos hKg, fgt_nn, decide_eq_false (lt_irrefl _)]; rfl
  have hw1 : wrap F Q1 = 1 := by
    rw [hQ1]; exact wrap_small (by norm_num) (by rw [hf1]; omega)
  have hd : F.Finite (K * g - Y) := by
    have : K * g - Y = (-(K + 1) : ℤ) * g := by rw [hY]; push_cast; ring
    rw [this]; exact fin _ (by rw [abs_neg, abs_of_pos (by omega)]; omega)
  have hat : atHalf F (.num Y) (wrap F Q1, nn m1) = (wrap F (1 + 1), nn (K * g - Y)) := by
    unfold atHalf
    simp only [hns, hm1, hone, hhalf, Bool.false_eq_true, if_false, hw1]
    rw [fabs_num hKg.ne', abs_of_pos hKg, cEq_nn, decide_eq_true rfl, decide_eq_true (by decide : Int.tmod 1 2 = 1)]
    simp only [Bool.and_self, if_true]
    rw [fabs_num hYp.ne', abs_of_pos hYp, fsub_nn' he2 hKg.le hd]
  have hres : remResult F k (.num X) (.num Y) = .num (K * g - Y) := by
    have h1 : flt (fabs (.num X)) (fabs (fmul F (.num Y) (.num (1 / 2)))) = false := by
      rw [hhalf, fabs_num hXp.ne', fabs_num hKg.ne', abs_of_pos hXp, abs_of_pos hKg, flt_nn]; exact decide_eq_false (by linarith)
    have h2 : cEq (.num X) (.num Y) = false := by rw [cEq_fin hfx hfy]; exact decide_eq_false (by simp only [numOf]; linarith)
    have h3 : cEq (.num X) (fneg (.num Y)) = false := by
      rw [cEq_fin hfx (fneg_fin hfy).1, numOf_fneg]; exact decide_eq_false (by simp only [numOf]; linarith)
    have hl : remLoop F k (.num X) (.num Y) = some (.num (K * g - Y), (signs F k (.num X) (.num Y) (wrap F (1 + 1), nn (K * g - Y))).2) := by
      rw [heq, l1]
      simp only
      rw [l2, hover, hat]
      have := signs_fst (F := F) (X := X) (Y := Y) he2 hd k (wrap F (1 + 1))
      rw [if_neg (by linarith), if_neg (by linarith)] at this
      rw [← this]
    unfold remResult remquo
    simp only [isNaN, isZero, isInf, hYp.ne', hXp.ne', h1, h2, h3, Bool.or_self, Bool.false_eq_true, if_false, decide_false]
    rw [hl]; rfl
  intro R n hR hrem
  rw [hres] at hR
  have h1 := (isReal_iff.1 hR).2
  simp only [numOf] at h1
  have h2 := hrem.2.1
  rw [← h1, ← Rat.cast_abs, ← Rat.cast_abs, abs_of_pos hYp, abs_of_neg (by linarith)] at h2
  have h3 : 2 * -(K * g - Y) ≤ Y := by exact_mod_cast h2
  linarith

end Verif.Rem
