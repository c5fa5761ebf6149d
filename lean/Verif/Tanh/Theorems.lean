import Mathlib.Analysis.SpecialFunctions.Log.Base
import Mathlib.Analysis.Complex.ExponentialBounds
import Verif.Atan.Theorems
import Verif.Tanh.Spec
import Verif.Tanh.Model

/-! # C94: the generated hyperbolic tangent -/

namespace Verif.Tanh

open Verif.Float (Fmt Val)
open Verif.Elem Verif.Check
open Verif.Atan (Near near_iff fabs_fin' neg_fin one_fin unbOne fin_lt_inf fabs_inf zero_fin)

theorem pyInt_gt (x : ℝ) : x - 1 < pyInt x := by
  unfold pyInt
  split_ifs
  · linarith [Int.le_ceil x]
  · exact Int.sub_one_lt_floor x

/-- the bound is not below `(p + 2) log 2 / 2` -/
theorem highBound_ge (p : ℕ) {nz : ℝ} (h : nz < highBound0 p) {num : ℕ} (hn : 0 < num) : highBound0 p ≤ highBound p nz num := by
  have hn' : (0 : ℝ) < num := by exact_mod_cast hn
  have hs : 0 < (highBound0 p - nz) / num := div_pos (by linarith) hn'
  generalize hS : (highBound0 p - nz) / num = S at hs
  have h1 : S / 2 < newSize p nz num := by
    unfold newSize
    rw [hS]
    have := pyInt_gt (Real.logb 2 S)
    calc S / 2 = (2 : ℝ) ^ (Real.logb 2 S - 1) := by
          rw [Real.rpow_sub (by norm_num), Real.rpow_logb (by norm_num) (by norm_num) hs, Real.rpow_one]
      _ < (2 : ℝ) ^ ((pyInt (Real.logb 2 S) : ℤ) : ℝ) := Real.rpow_lt_rpow_of_exponent_lt (by norm_num) this
      _ = _ := Real.rpow_intCast _ _
  unfold highBound
  have h2 : S * num = highBound0 p - nz := by rw [← hS]; field_simp
  push_cast
  nlinarith

theorem one_sub_tanh (x : ℝ) : 0 < 1 - Real.tanh x ∧ 1 - Real.tanh x < 2 * Real.exp (-(2 * x)) := by
  have a := Real.exp_pos x
  have b := Real.exp_pos (-x)
  have e : 1 - Real.tanh x = 2 * Real.exp (-x) / (Real.exp x + Real.exp (-x)) := by
    rw [Real.tanh_eq_sinh_div_cosh, Real.sinh_eq, Real.cosh_eq]
    field_simp
    ring
  rw [e]
  refine ⟨by positivity, ?_⟩
  have e2 : Real.exp (-(2 * x)) = Real.exp (-x) / Real.exp x := by rw [← Real.exp_sub]; congr 1; ring
  rw [e2, ← mul_div_assoc]
  exact div_lt_div_of_pos_left (by positivity) a (by linarith)

theorem tanh_sat {f : ℕ} {x : ℝ} (h : highBound0 (f + 1) ≤ x) : 1 - (2 : ℝ) ^ (-(f : ℤ) - 2) < Real.tanh x ∧ Real.tanh x < 1 := by
  obtain ⟨h1, h2⟩ := one_sub_tanh x
  refine ⟨?_, by linarith⟩
  have : Real.exp (-(2 * x)) ≤ (2 : ℝ) ^ (-(f : ℤ) - 3) := by
    have e : (2 : ℝ) ^ (-(f : ℤ) - 3) = Real.exp (-(((f + 1 : ℕ) : ℝ) + 2) * Real.log 2) := by
      rw [← Real.rpow_intCast, Real.rpow_def_of_pos (by norm_num)]
      congr 1; push_cast; ring
    rw [e]
    apply Real.exp_le_exp.2
    unfold highBound0 at h
    linarith
  have e3 : (2 : ℝ) ^ (-(f : ℤ) - 2) = 2 * (2 : ℝ) ^ (-(f : ℤ) - 3) := by
    rw [show (-(f : ℤ) - 2) = 1 + (-(f : ℤ) - 3) by ring, r2add]; norm_num
  linarith

/-- just below 1, everything rounds to 1 -/
theorem rounds_one {F : Fmt} (hF : Wide F) {z : ℝ} (h1 : 1 - (2 : ℝ) ^ (-(F.f : ℤ) - 2) < z) (h2 : z < 1) :
    RoundsTo F z (.num 1) ∧ RoundsTo F (-z) (.num (-1)) := by
  have hf := hF.f
  have he := emin_le' hF
  have hu : (2 : ℝ) ^ (-(F.f : ℤ) - 2) ≤ 1 / 2 := by
    calc (2 : ℝ) ^ (-(F.f : ℤ) - 2) ≤ (2 : ℝ) ^ (-1 : ℤ) := r2le (by omega)
      _ = 1 / 2 := by norm_num
  have hz : 0 < z := by linarith
  have e1 : (((2 ^ (F.f + 1) : ℤ) : ℤ) : ℝ) * (2 : ℝ) ^ ((-1 : ℤ) - F.f) = 1 := by
    push_cast
    rw [← zpow_natCast, ← r2add]
    rw [show ((F.f + 1 : ℕ) : ℤ) + (-1 - F.f) = 0 by push_cast; ring, zpow_zero]
  have hr : roundUnb F .RN z = 1 := by
    have := ru_eq (F := F) (z := z) (E := -1) (n := 2 ^ (F.f + 1)) (by omega) (by rw [abs_of_pos hz]; norm_num; linarith)
      (by rw [abs_of_pos hz]; norm_num; exact h2) (by
        rw [e1, abs_lt]
        have : (2 : ℝ) ^ ((-1 : ℤ) - F.f - 1) = (2 : ℝ) ^ (-(F.f : ℤ) - 2) := by congr 1; ring
        rw [this]
        constructor <;> linarith [r2 (-(F.f : ℤ) - 2)])
    rw [this]
    have e2 := e1
    rw [r2cast] at e2
    exact_mod_cast e2
  have ho : |(1 : ℚ)| ≤ Float.omega F := ((finite_iff hF.e2).1 (unbOne hF)).2
  have hrn : roundUnb F .RN (-z) = -1 := by rw [ru_neg, hr]
  constructor
  · have := rnd_rounds hF.e2 (by omega) false hz.ne'
    rwa [rnd, if_neg hz.ne', hr, if_neg one_ne_zero, if_pos ho] at this
  · have hz' : -z ≠ 0 := by linarith
    have := rnd_rounds hF.e2 (by omega) false hz'
    rwa [rnd, if_neg hz', hrn, if_neg (by norm_num), if_pos (by rwa [abs_neg])] at this
where
  emin_le' {F : Fmt} (hF : Wide F) : F.emin ≤ -10 := Verif.Atan.emin_le hF

theorem flt_real {F : Fmt} {a b : Val} (ha : Fin' F a) (hb : Fin' F b) : flt a b = decide (rv a < rv b) := by
  rw [flt_fin ha hb]; unfold rv; congr 1; exact propext (by exact_mod_cast Iff.rfl)

/-- the scheme of the absolute value -/
theorem complete_near {F : Fmt} (hF : Wide F) {δ ε : ℝ} (hδ0 : 0 ≤ δ) (hδ : δ ≤ 1) {N P : Val → Val} {nz hb : Val} (hnz : Fin' F nz) (hhb : Fin' F hb)
    (hnz1 : rv nz ≤ 1) (hN : NearZero F δ (rv nz) N) (hP : Piece F ε (rv nz) (rv hb) P) {num : ℕ} (hnum : 0 < num)
    (hhbv : rv hb = highBound (F.f + 1) (rv nz) num) {a : Val} (ha : Fin' F a) (h0 : 0 ≤ rv a) :
    (rv a < rv nz → Near F (δ * rv a + (uu F * (Real.tanh (rv a) + δ * rv a) + ee F)) (complete F N P nz hb a) (Real.tanh (rv a))) ∧
    (rv nz ≤ rv a → rv a < rv hb → Near F ε (complete F N P nz hb a) (Real.tanh (rv a))) ∧
    (rv hb ≤ rv a → complete F N P nz hb a = .num 1 ∧ 1 - (2 : ℝ) ^ (-(F.f : ℤ) - 2) < Real.tanh (rv a) ∧ Real.tanh (rv a) < 1) := by
  have h0b : rv nz < highBound0 (F.f + 1) := by
    unfold highBound0
    have := Real.log_two_gt_d9
    have hf : (10 : ℝ) ≤ F.f := by exact_mod_cast hF.f
    push_cast
    nlinarith
  have hge := highBound_ge (F.f + 1) h0b hnum
  unfold complete
  rw [flt_real ha hnz, flt_real ha hhb]
  refine ⟨fun h => ?_, fun h1 h2 => ?_, fun h => ?_⟩
  · rw [decide_eq_true h, if_pos rfl]
    obtain ⟨q, q1, q2⟩ := hN a (rv a) (isReal_rv.2 ⟨ha, rfl⟩) h0 h
    obtain ⟨q3, rfl⟩ := isReal_rv.1 q1
    have ht := (one_sub_tanh (rv a)).1
    have ht0 : 0 ≤ Real.tanh (rv a) := by
      rw [Real.tanh_eq_sinh_div_cosh]; exact div_nonneg (Real.sinh_nonneg_iff.2 h0) (Real.cosh_pos _).le
    obtain ⟨l1, l2⟩ := abs_le.1 q2
    have hb1 : |rv a * rv (N a)| ≤ Real.tanh (rv a) + δ * rv a := by rw [abs_le]; constructor <;> nlinarith
    have hda : δ * rv a ≤ 1 := by nlinarith
    obtain ⟨m1, d, n, m2, m3, m4⟩ := mul_rel hF.e2 ha q3 (by have := Verif.Atan.four_le hF; linarith)
    rw [near_iff]
    refine ⟨m1, ?_⟩
    rw [m4, show rv a * rv (N a) * (1 + d) + n - Real.tanh (rv a) = (rv a * rv (N a) - Real.tanh (rv a)) + (d * (rv a * rv (N a)) + n) by ring]
    refine le_trans (abs_add_le _ _) (add_le_add q2 (le_trans (abs_add_le _ _) (add_le_add ?_ m3)))
    rw [abs_mul]
    exact mul_le_mul m2 hb1 (abs_nonneg _) (uu_pos F).le
  · rw [decide_eq_false (not_lt.2 h1), decide_eq_true h2]
    simp only [Bool.false_eq_true, if_false, if_true]
    exact hP a (rv a) (isReal_rv.2 ⟨ha, rfl⟩) h1 h2
  · have h3 : rv nz ≤ rv a := by linarith
    rw [decide_eq_false (not_lt.2 h3), decide_eq_false (not_lt.2 h)]
    exact ⟨rfl, tanh_sat (by rw [hhbv] at h; linarith)⟩

theorem near_neg {F : Fmt} {δ : ℝ} {r : Val} {t : ℝ} (h : Near F δ r t) : Near F δ (fneg r) (-t) := by
  obtain ⟨h1, h2⟩ := near_iff.1 h
  obtain ⟨h3, h4⟩ := rv_neg h1
  rw [near_iff]
  refine ⟨h3, ?_⟩
  rw [h4, show -rv r - -t = -(rv r - t) by ring, abs_neg]; exact h2

/-- **C94 (partial).** `nz` and `hb` are the constants of the format for the two bounds, `hb` computed from `nz` and the number of intervals as the code
does it. Let the polynomial evaluate `tanh(z)/z` with an error `δ` and the tables `tanh` with an absolute error `ε`. For every finite `x`, with real `z`:
below `nz` the result is within `δ |z|`, a half unit of roundoff and half of the least subnormal number of `tanh z`; between the bounds it is within `ε`; and
from `hb` on it is the correctly rounded hyperbolic tangent. At the infinities it is `±1`. Missing: NaNs and the sign of zero, which are wrong, and the bounds
`δ` and `ε`, which Sollya computes. -/
theorem C94_tanh_partial {F : Fmt} (hF : Wide F) {δ ε : ℝ} (hδ0 : 0 ≤ δ) (hδ : δ ≤ 1) {N P : Val → Val} {nz hb : Val} {nzr hbr : ℝ} (hnz : IsReal F nz nzr)
    (hhb : IsReal F hb hbr) (hnz1 : nzr ≤ 1) (hN : NearZero F δ nzr N) (hP : Piece F ε nzr hbr P) {num : ℕ} (hnum : 0 < num)
    (hhbv : hbr = highBound (F.f + 1) nzr num) :
    (∀ (x : Val) (z : ℝ), IsReal F x z →
      (|z| < nzr → Near F (δ * |z| + ((2 : ℝ) ^ (-(F.f : ℤ) - 1) * (|Real.tanh z| + δ * |z|) + (2 : ℝ) ^ (F.emin - F.f - 1))) (tanh F N P nz hb x)
        (Real.tanh z)) ∧
      (nzr ≤ |z| → |z| < hbr → Near F ε (tanh F N P nz hb x) (Real.tanh z)) ∧
      (hbr ≤ |z| → RoundsTo F (Real.tanh z) (tanh F N P nz hb x))) ∧
    tanh F N P nz hb .plusInf = .num 1 ∧ tanh F N P nz hb .minusInf = .num (-1) := by
  obtain ⟨fnz, rfl⟩ := isReal_rv.1 hnz
  obtain ⟨fhb, rfl⟩ := isReal_rv.1 hhb
  refine ⟨?_, ?_, ?_⟩
  · intro x z hx
    obtain ⟨fx, rfl⟩ := isReal_rv.1 hx
    obtain ⟨fa, ra⟩ := fabs_fin' fx
    have key := complete_near hF hδ0 hδ fnz fhb hnz1 hN hP hnum hhbv fa (by rw [ra]; exact abs_nonneg _)
    rw [ra] at key
    have htn : 0 ≤ Real.tanh |rv x| := by
      rw [Real.tanh_eq_sinh_div_cosh]; exact div_nonneg (Real.sinh_nonneg_iff.2 (abs_nonneg _)) (Real.cosh_pos _).le
    have hneg : flt x .plusZero = decide (rv x < 0) := by
      rw [neg_fin fx]; unfold rv; congr 1; exact propext (by exact_mod_cast Iff.rfl)
    have hta : |Real.tanh (rv x)| = Real.tanh |rv x| := by
      rcases le_total 0 (rv x) with h | h
      · rw [abs_of_nonneg h] at htn ⊢; exact abs_of_nonneg htn
      · rw [abs_of_nonpos h] at htn ⊢; rw [Real.tanh_neg] at htn ⊢; exact abs_of_nonpos (by linarith)
    unfold tanh
    rw [hneg, hta]
    by_cases h0 : rv x < 0
    · rw [decide_eq_true h0, if_pos rfl]
      have ht : Real.tanh (rv x) = -Real.tanh |rv x| := by rw [abs_of_neg h0, Real.tanh_neg, neg_neg]
      rw [ht]
      refine ⟨fun h => near_neg (key.1 h), fun h1 h2 => near_neg (key.2.1 h1 h2), fun h => ?_⟩
      obtain ⟨k1, k2, k3⟩ := key.2.2 h
      rw [k1]
      exact (rounds_one hF k2 k3).2
    · rw [decide_eq_false h0]
      simp only [Bool.false_eq_true, if_false]
      have ht : Real.tanh (rv x) = Real.tanh |rv x| := by rw [abs_of_nonneg (not_lt.1 h0)]
      rw [ht]
      refine ⟨key.1, key.2.1, fun h => ?_⟩
      obtain ⟨k1, k2, k3⟩ := key.2.2 h
      rw [k1]
      exact (rounds_one hF k2 k3).1
  · have e : tanh F N P nz hb .plusInf = complete F N P nz hb .plusInf := rfl
    rw [e, complete, (fin_lt_inf fnz).2, (fin_lt_inf fhb).2]
    rfl
  · have e : tanh F N P nz hb .minusInf = fneg (complete F N P nz hb .plusInf) := rfl
    rw [e, complete, (fin_lt_inf fnz).2, (fin_lt_inf fhb).2]
    rfl

/-- **C94.** The generated function is odd, bit for bit, on every datum that is neither a NaN nor a zero, whatever the polynomials and the bounds. -/
theorem C94_tanh_odd {F : Fmt} (N P : Val → Val) (nz hb : Val) {x : Val} (hd : F.Datum x) (hn : ¬ Special.IsNaN x) (hz : ¬ Special.IsZero x) :
    tanh F N P nz hb (fneg x) = fneg (tanh F N P nz hb x) := by
  have hnn : ∀ r : Val, fneg (fneg r) = r := by intro r; cases r <;> simp [fneg]
  cases x <;> simp_all [Special.IsNaN, Special.IsZero, Special.finVal]
  · exact rfl
  · change complete F N P nz hb .plusInf = fneg (fneg (complete F N P nz hb .plusInf))
    rw [hnn]
  · rename_i v
    have hl : ∀ w : ℚ, flt (.num w) .plusZero = decide (w < 0) := by
      intro w
      have : flt (.num w) .plusZero = (decide (w ≤ 0) && !decide (0 ≤ w)) := rfl
      rw [this]
      by_cases h1 : w < 0
      · simp [h1, h1.le]
      · simp [h1, not_lt.1 h1]
    have ha : fabs (.num (-v)) = fabs (.num v) := by
      unfold fabs sgn
      rcases lt_trichotomy v 0 with h | h | h
      · simp [Special.neg, h, h.le, fneg]
      · exact absurd h hz
      · simp [Special.neg, h, h.le, fneg]
    change tanh F N P nz hb (.num (-v)) = _
    unfold tanh
    rw [hl, hl, ha]
    rcases lt_trichotomy v 0 with h | h | h
    · simp [h, h.le, hnn]
    · exact absurd h hz
    · simp [h, not_lt.2 h.le]

/-- **C94, disagreement.** A NaN has to give a NaN (IEEE-754, C99 F.9). The generated function returns `1`. -/
theorem C94_tanh_nan_wrong (F : Fmt) (N P : Val → Val) (nz hb : Val) {x : Val} (hx : Special.IsNaN x) : tanh F N P nz hb x = .num 1 := by
  cases x <;> simp [Special.IsNaN] at hx <;> rfl

/-- **C94, disagreement.** `tanh(-0)` has to be `-0` (C99 F.9.2.6). The generated function returns `+0`, as soon as the polynomial is 1 at zero. -/
theorem C94_tanh_minus_zero_wrong {F : Fmt} (N P : Val → Val) {nz : Val} (hb : Val) {nzr : ℝ} (hnz : IsReal F nz nzr) (h0 : 0 < nzr)
    (hN : N .plusZero = .num 1) : tanh F N P nz hb .minusZero = .plusZero := by
  obtain ⟨fnz, rfl⟩ := isReal_rv.1 hnz
  have e : tanh F N P nz hb .minusZero = complete F N P nz hb .plusZero := rfl
  have hl : flt .plusZero nz = true := by
    have := flt_real (zero_fin F false).1 fnz
    rw [(zero_fin F false).2, decide_eq_true h0] at this
    exact this
  rw [e, complete, hl, if_pos rfl, hN]
  simp [fmul, isNaN, isInf, rnd, numOf, zeroS, sgn, Special.neg, show ¬ ((1 : ℚ) < 0) by norm_num]

/-- the bound in binary32 with the default 1024 intervals above `0.125`: 32.125 -/
theorem highBound_b32 : highBound 24 (1 / 8) 1024 = 257 / 8 := by
  have l1 := Real.log_two_gt_d9
  have l2 := Real.log_two_lt_d9
  have hs : newSize 24 (1 / 8) 1024 = 1 / 64 := by
    unfold newSize
    have e : pyInt (Real.logb 2 ((highBound0 24 - 1 / 8) / (1024 : ℕ))) = -6 := by
      unfold highBound0
      have hpos : (0 : ℝ) < (((24 : ℕ) + 2) * Real.log 2 / 2 - 1 / 8) / (1024 : ℕ) := by push_cast; linarith
      have h1 : Real.logb 2 ((((24 : ℕ) + 2) * Real.log 2 / 2 - 1 / 8) / (1024 : ℕ)) < -6 := by
        rw [Real.logb_lt_iff_lt_rpow (by norm_num) hpos, show (-6 : ℝ) = ((-6 : ℤ) : ℝ) by norm_num, Real.rpow_intCast]
        push_cast; norm_num; linarith
      have h2 : -7 < Real.logb 2 ((((24 : ℕ) + 2) * Real.log 2 / 2 - 1 / 8) / (1024 : ℕ)) := by
        rw [Real.lt_logb_iff_rpow_lt (by norm_num) hpos, show (-7 : ℝ) = ((-7 : ℤ) : ℝ) by norm_num, Real.rpow_intCast]
        push_cast; norm_num; linarith
      unfold pyInt
      rw [if_pos (by linarith), Int.ceil_eq_iff]
      constructor <;> push_cast <;> linarith
    rw [e]; norm_num
  unfold highBound
  rw [hs]; norm_num

/-- the hypotheses of `C94_tanh_partial` are met in binary32 with the default parameters: `hb = 32.125`, and correctly rounded polynomials -/
example : ∃ N P : Val → Val, RoundsTo ⟨8, 23⟩ (Real.tanh 33) (tanh ⟨8, 23⟩ N P (.num (1 / 8)) (.num (257 / 8)) (.num 33)) := by
  have hF : Wide ⟨8, 23⟩ := ⟨by decide, by decide, by decide⟩
  have ht : ∀ z : ℝ, |Real.tanh z| ≤ 2 := by
    intro z
    have h1 := (one_sub_tanh z).1
    have h2 := (one_sub_tanh (-z)).1
    rw [Real.tanh_neg] at h2
    rw [abs_le]; constructor <;> linarith
  have hfin : ∀ (m E : ℤ), |m| < 2 ^ 24 → -126 ≤ E → E ≤ 127 → (m : ℚ) * 2 ^ (E - 23) ≠ 0 → IsReal ⟨8, 23⟩ (.num ((m : ℚ) * 2 ^ (E - 23))) (((m : ℚ) * 2 ^ (E - 23) : ℚ) : ℝ) := by
    intro m E h1 h2 h3 h4
    exact ⟨⟨⟨m, E, h1, h2, h3, rfl⟩, h4⟩, rfl⟩
  have e1 : ((1 : ℤ) : ℚ) * 2 ^ ((20 : ℤ) - 23) = 1 / 8 := by norm_num
  have e2 : ((257 : ℤ) : ℚ) * 2 ^ ((20 : ℤ) - 23) = 257 / 8 := by norm_num
  have e3 : ((33 : ℤ) : ℚ) * 2 ^ ((23 : ℤ) - 23) = 33 := by norm_num
  have h1 := hfin 1 20 (by norm_num) (by norm_num) (by norm_num) (by norm_num)
  have h2 := hfin 257 20 (by norm_num) (by norm_num) (by norm_num) (by norm_num)
  have h3 := hfin 33 23 (by norm_num) (by norm_num) (by norm_num) (by norm_num)
  rw [e1] at h1; rw [e2] at h2; rw [e3] at h3
  refine ⟨fun _ => .num 1, fun r => cst ⟨8, 23⟩ (Real.tanh (rv r)), ?_⟩
  have := (C94_tanh_partial hF (δ := 1) (ε := uu ⟨8, 23⟩) zero_le_one le_rfl (N := fun _ => .num 1) (P := fun r => cst ⟨8, 23⟩ (Real.tanh (rv r))) h1 h2
    (by norm_num) ?_ ?_ (num := 1024) (by norm_num) (by push_cast; rw [highBound_b32])).1 (.num 33) _ h3
  · have h4 := this.2.2 (by push_cast; rw [abs_of_pos] <;> norm_num)
    push_cast at h4
    exact h4
  · intro r z _ h0 _
    refine ⟨1, isReal_rv.2 ⟨one_fin hF, by simp [rv, numOf]⟩, ?_⟩
    have h5 : 0 ≤ Real.tanh z := by
      rw [Real.tanh_eq_sinh_div_cosh]; exact div_nonneg (Real.sinh_nonneg_iff.2 h0) (Real.cosh_pos _).le
    have h6 : Real.tanh z ≤ 2 * z := by
      rw [Real.tanh_eq_sinh_div_cosh, div_le_iff₀ (Real.cosh_pos _)]
      have c := Real.one_le_cosh z
      have e := Real.exp_pos z
      have e' : Real.exp (-z) * Real.exp z = 1 := by rw [← Real.exp_add]; simp
      have a := Real.add_one_le_exp (-(2 * z))
      have b : Real.exp (-(2 * z)) = Real.exp (-z) * Real.exp (-z) := by rw [← Real.exp_add]; congr 1; ring
      have e'' := Real.exp_pos (-z)
      rw [Real.sinh_eq, Real.cosh_eq]
      -- (e^z - e^{-z}) ≤ 2 z (e^z + e^{-z}), from 1 - e^{-2z} ≤ 2 z
      have k : Real.exp z - Real.exp (-z) = Real.exp z * (1 - Real.exp (-(2 * z))) := by rw [b]; linear_combination Real.exp (-z) * e'
      have k2 : Real.exp z * (1 - Real.exp (-(2 * z))) ≤ Real.exp z * (2 * z) := mul_le_mul_of_nonneg_left (by linarith) e.le
      nlinarith [mul_nonneg h0 e''.le]
    rw [abs_le]; constructor <;> linarith
  · intro r z hr _ _
    obtain ⟨_, h7⟩ := isReal_rv.1 hr
    obtain ⟨k1, k2⟩ := Verif.Atan.cst_val hF (x := Real.tanh z) (by linarith [ht z])
    rw [near_iff]
    simp only [h7]
    exact ⟨k1, by rw [k2]; exact Verif.Atan.ru_two hF (ht z)⟩

end Verif.Tanh
