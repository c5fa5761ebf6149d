import Verif.Cbrt.Lemmas

/-! # C96: the generated cube root -/

namespace Verif.Cbrt

open Verif.Float (Fmt Val)
open Verif.Elem Verif.Check
open Verif.Atan (uu_le emin_le fdiv_val cst_val one_fin fin_finVal)

/-- **C96 (partial).** For every normal number from twice the smallest one to the inverse of the smallest one, the generated function is within
`5/2` half units (in relative error) of the real cube root; a NaN gives a NaN. Missing: the negative numbers, the subnormal numbers, the numbers of the last binades, the
infinities and the sign of zero, for which see the `_wrong` theorems. -/
theorem C96_cbrt_partial {F : Fmt} (hF : Wide F) (hf : F.f ≤ 52) {x : Val} :
    (Fin' F x → (2 : ℝ) ^ (F.emin + 1) ≤ rv x → rv x ≤ (2 : ℝ) ^ (F.emax - 1) → NearCbrt F (5 / 2 * (2 : ℝ) ^ (-(F.f : ℤ) - 1)) (cbrt F x) x) ∧
      (isNaN x = true → isNaN (cbrt F x) = true) := by
  constructor
  · intro hx h1 h2
    have hpos : 0 < rv x := lt_of_lt_of_le (r2 _) h1
    have he := hF.e2
    obtain ⟨c, hc⟩ : ∃ c : ℝ, c = rv x ^ (1 / 3 : ℝ) := ⟨_, rfl⟩
    have hc0 : 0 < c := by rw [hc]; positivity
    have hc3 : c ^ 3 = rv x := by rw [hc]; exact rpow_third hpos.le
    have hnz : numOf x ≠ 0 := by
      intro h
      have : rv x = 0 := by unfold rv; rw [h]; norm_num
      linarith
    have hz : isZero x = false := by rw [fin_num_ne hx hnz]; simp [isZero, hnz]
    have hone : rv (.num 1) = 1 := by simp [rv, numOf]
    have hinv1 : (2 : ℝ) ^ F.emin ≤ 1 / rv x := by
      rw [le_div_iff₀ hpos]
      calc (2 : ℝ) ^ F.emin * rv x ≤ (2 : ℝ) ^ F.emin * (2 : ℝ) ^ (F.emax - 1) := mul_le_mul_of_nonneg_left h2 (r2 _).le
        _ = 1 := by rw [← r2add, show F.emin + (F.emax - 1) = 0 by unfold Fmt.emin; ring]; norm_num
    have hinv2 : 1 / rv x ≤ (2 : ℝ) ^ F.emax := by
      rw [div_le_iff₀ hpos]
      calc (1 : ℝ) ≤ (2 : ℝ) ^ F.emax * (2 : ℝ) ^ (F.emin + 1) := by
            rw [← r2add, show F.emax + (F.emin + 1) = 2 by unfold Fmt.emin; ring]; norm_num
        _ ≤ _ := mul_le_mul_of_nonneg_left h1 (r2 _).le
    have hinv0 : 0 < 1 / rv x := by positivity
    obtain ⟨fi, ei⟩ := fdiv_val he (one_fin hF) hx hpos.ne' (by rw [hone, abs_of_pos hinv0]; exact hinv2)
    obtain ⟨d3, hd3, e3⟩ := ru_norm F (z := 1 / rv x) (by rw [abs_of_pos hinv0]; exact hinv1)
    rw [hone, e3] at ei
    obtain ⟨f0, e0⟩ := init_val hF hx h1 h2 hc0 hc3
    obtain ⟨fr, er⟩ := newton_iter hF hf hc0 hc3 h1 h2 fi hd3 ei f0 e0 8
    have hres : cbrt F x = (newton F (fdiv F (.num 1) x))^[8] (init F x) := by
      unfold cbrt result; rw [hz]; simp
    rw [← hres] at fr er
    refine ⟨numOf x, c, rv (cbrt F x), fin_finVal hx, hc3, isReal_rv.2 ⟨fr, rfl⟩, ?_⟩
    have hsmall : ((1 : ℝ) / 32) ^ 2 ^ 8 / 4 ≤ 0.2 * uu F := by
      have h53 : (2 : ℝ) ^ (-53 : ℤ) ≤ uu F := by unfold uu; exact r2le (by omega)
      have : ((1 : ℝ) / 32) ^ 2 ^ 8 / 4 ≤ 0.2 * (2 : ℝ) ^ (-53 : ℤ) := by norm_num
      exact le_trans this (mul_le_mul_of_nonneg_left h53 (by norm_num))
    have h5 : |rv (cbrt F x) / c - 1| ≤ 5 / 2 * uu F := by
      generalize ((1 : ℝ) / 32) ^ 2 ^ 8 = q at er hsmall
      linarith
    rw [abs_of_pos hc0]
    have h6 : rv (cbrt F x) - c = (rv (cbrt F x) / c - 1) * c := by field_simp
    rw [h6, abs_mul, abs_of_pos hc0]
    exact mul_le_mul_of_nonneg_right h5 hc0.le
  · intro hx
    have hz : isZero x = false := by cases x <;> simp_all [isNaN, isZero]
    have hd : fdiv F (.num 1) x = .qNaN := by unfold fdiv; simp [hx]
    have hn : ∀ a, newton F .qNaN a = .qNaN := by
      intro a
      have h1 : fmsn F (fmul F a (fmul F a a)) .qNaN (.num 1) = .qNaN := by unfold fmsn ffma; simp [isNaN]
      unfold newton
      rw [h1]
      unfold ffma; simp [isNaN]
    unfold cbrt result
    rw [hz, hd]
    simp only [Bool.false_eq_true, if_false]
    rw [Function.iterate_succ_apply', hn]; rfl

/-- the hypotheses are met: 27 in binary32 and binary64 -/
example : NearCbrt ⟨8, 23⟩ (5 / 2 * (2 : ℝ) ^ (-(23 : ℤ) - 1)) (cbrt ⟨8, 23⟩ (.num 27)) (.num 27) ∧
    NearCbrt ⟨11, 52⟩ (5 / 2 * (2 : ℝ) ^ (-(52 : ℤ) - 1)) (cbrt ⟨11, 52⟩ (.num 27)) (.num 27) := by
  have key : ∀ F : Fmt, Wide F → F.f ≤ 52 → NearCbrt F (5 / 2 * (2 : ℝ) ^ (-(F.f : ℤ) - 1)) (cbrt F (.num 27)) (.num 27) := by
    intro F hF hf
    have hm := hF.m
    have hff := hF.f
    have hr : rv (.num 27) = 27 := by simp [rv, numOf]
    have hbig : (27 : ℝ) ≤ (2 : ℝ) ^ (F.emax - 1) := by
      calc (27 : ℝ) ≤ (2 : ℝ) ^ (5 : ℤ) := by norm_num
        _ ≤ _ := r2le (by omega)
    refine (C96_cbrt_partial hF hf).1 ⟨⟨(finite_iff hF.e2).2 ⟨?_, ?_⟩, by norm_num⟩, rfl, rfl⟩ ?_ (by rw [hr]; exact hbig)
    · have h32 : (2 : ℤ) ^ 5 ≤ 2 ^ (F.f + 1) := pow_le_pow_right₀ (by norm_num) (by omega)
      exact_mod_cast unb_int hF.e2 (n := 27) (by rw [abs_of_pos (by norm_num)]; norm_num at h32; linarith)
    · rw [abs_of_pos (by norm_num)]
      refine le_trans ?_ (omega_ge hF.e2)
      calc (27 : ℚ) ≤ (2 : ℚ) ^ (5 : ℤ) := by norm_num
        _ ≤ _ := Float.zle (by omega)
    · rw [hr]
      calc (2 : ℝ) ^ (F.emin + 1) ≤ (2 : ℝ) ^ (0 : ℤ) := r2le (by unfold Fmt.emin; omega)
        _ ≤ 27 := by norm_num
  exact ⟨key ⟨8, 23⟩ ⟨by decide, by decide, by decide⟩ (by decide), key ⟨11, 52⟩ ⟨by decide, by decide, by decide⟩ (by decide)⟩

/-! ## Where it is wrong -/

theorem sgn_rnd {F : Fmt} {x : ℝ} (h : 0 ≤ x) : sgn (rnd F false x) = false := by
  unfold rnd
  have h0 : decide (x < 0) = false := by simpa using h
  rw [h0]
  split_ifs
  · rfl
  · rfl
  · have : 0 ≤ roundUnb F .RN x := by
      have := ru_between_ge (F := F) (x := x) (w := 0) (unb_zero F) (by simpa using h)
      exact_mod_cast this
    simpa [sgn, Special.neg] using this
  · rfl

theorem num_nonneg {a : Val} (h : sgn a = false) : 0 ≤ numOf a := by
  cases a <;> simp_all [sgn, Special.neg, numOf]

theorem num_nonpos {a : Val} (h : sgn a = true) : numOf a ≤ 0 := by
  cases a <;> simp_all [sgn, Special.neg, numOf]
  exact h.le

theorem sgn_fma {F : Fmt} {a b c : Val} (hab : sgn a = sgn b ∨ isNaN a = true) (hc : sgn c = false) : sgn (ffma F a b c) = false := by
  unfold ffma
  rcases hab with hab | hab
  · have hx : xor (sgn a) (sgn b) = false := by rw [hab]; simp
    rw [hx, hc]
    split_ifs
    · rfl
    · rfl
    · rfl
    · exact hc
    · refine sgn_rnd ?_
      have h1 : 0 ≤ numOf a * numOf b := by
        cases h : sgn a
        · exact mul_nonneg (num_nonneg h) (num_nonneg (by rw [← hab, h]))
        · exact mul_nonneg_of_nonpos_of_nonpos (num_nonpos h) (num_nonpos (by rw [← hab, h]))
      have := num_nonneg hc
      exact_mod_cast add_nonneg h1 this
  · rw [hab]; rfl

theorem sgn_mul {F : Fmt} {a b : Val} (ha : sgn a = false) (hb : sgn b = false) : sgn (fmul F a b) = false := by
  unfold fmul
  rw [ha, hb]
  split_ifs
  · rfl
  · rfl
  · rfl
  · refine sgn_rnd ?_
    exact_mod_cast mul_nonneg (num_nonneg ha) (num_nonneg hb)

theorem sgn_cst {F : Fmt} {x : ℝ} (h : 0 ≤ x) : sgn (cst F x) = false := sgn_rnd h

theorem ru_nonneg {F : Fmt} {x : ℝ} (h : 0 ≤ x) : 0 ≤ roundUnb F .RN x := by
  have := ru_between_ge (F := F) (x := x) (w := 0) (unb_zero F) (by simpa using h)
  exact_mod_cast this

theorem sgn_third (F : Fmt) : sgn (third F) = false :=
  sgn_cst (by exact_mod_cast ru_nonneg (F := ⟨11, 52⟩) (x := 1 / 3) (by norm_num))

/-- not a zero -/
theorem neg_sgn {a : Val} (h : sgn a = false) : sgn (fneg a) = true ∨ isNaN (fneg a) = true ∨ a = .num 0 := by
  cases a <;> simp_all [sgn, Special.neg, fneg, isNaN]
  rcases h.lt_or_eq with h | h
  · exact Or.inl h
  · exact Or.inr h.symm

theorem rnd_ne_num0 {F : Fmt} {s : Bool} {x : ℝ} : rnd F s x ≠ .num 0 := by
  unfold rnd
  split_ifs with h1 h2 h3
  · cases s <;> simp [zeroS]
  · cases decide (x < 0) <;> simp [zeroS]
  · simpa using h2
  · cases decide (x < 0) <;> simp [infS]

theorem fmul_ne_num0 {F : Fmt} {a b : Val} : fmul F a b ≠ .num 0 := by
  unfold fmul
  split_ifs
  · simp
  · simp
  · cases xor (sgn a) (sgn b) <;> simp [infS]
  · exact rnd_ne_num0

theorem sgn_newton {F : Fmt} {inv a : Val} (hi : sgn inv = true) (ha : sgn a = false) : sgn (newton F inv a) = false := by
  unfold newton
  have h1 : sgn (fmul F a (fmul F a a)) = false := sgn_mul ha (sgn_mul ha ha)
  have h2 : sgn (fmsn F (fmul F a (fmul F a a)) inv (.num 1)) = false := by
    refine sgn_fma ?_ (by simp [sgn, Special.neg])
    rcases neg_sgn h1 with h | h | h
    · exact Or.inl (by rw [h, hi])
    · exact Or.inr h
    · exact absurd h fmul_ne_num0
  exact sgn_fma (Or.inl (by rw [sgn_mul ha (sgn_third F), h2])) ha

theorem sgn_decode {F : Fmt} (he : 2 ≤ F.e) (k : ℤ) (h1 : F.emin ≤ k) (h2 : k ≤ F.emax) : sgn (insExp F k) = false := by
  rw [insExp_eq he h1 h2]; simp [sgn, Special.neg, (Float.zp k).le]

/-- the exponent field of a finite number, or of an infinity, divided by 3 -/
theorem third_range {F : Fmt} (hF : Wide F) {x : Val} (h : F.Datum x) : F.emin + 1 ≤ (expExtract F x).tdiv 3 ∧ (expExtract F x).tdiv 3 + 2 ≤ F.emax := by
  have hm := hF.m
  have hf := hF.f
  have hb : F.emin - 1 ≤ expExtract F x ∧ expExtract F x ≤ F.emax + 1 := by
    cases x with
    | num v =>
      simp only [expExtract]
      split_ifs with h1
      · unfold Fmt.emin; omega
      · have hv := ((finite_iff hF.e2).1 h.1).2
        have hv0 : 0 < |v| := abs_pos.2 h.2
        have g1 := Float.pow_log_le hv0
        constructor
        · have := Float.le_log hv0 (not_lt.1 h1); omega
        · have h3 : Float.omega F < (2 : ℚ) ^ (F.emax + 1) := by
            rw [omega_val hF.e2, zpow_add₀ (by norm_num)]
            have h5 := Float.zp F.emax
            have h6 := Float.zp (-(F.f : ℤ))
            nlinarith
          by_contra hcon
          have h4 : (2 : ℚ) ^ (F.emax + 1) ≤ (2 : ℚ) ^ Int.log 2 |v| := Float.zle (by omega)
          linarith
    | _ => simp only [expExtract]; unfold Fmt.emin; omega
  have hd := Int.mul_tdiv_add_tmod (expExtract F x) 3
  have r1 := Int.tmod_lt_of_pos (expExtract F x) (show (0 : ℤ) < 3 by norm_num)
  have r2' := Int.lt_tmod_of_pos (expExtract F x) (show (0 : ℤ) < 3 by norm_num)
  unfold Fmt.emin at hb ⊢
  omega

/-- **C96, disagreement.** The cube root of a negative number is never a negative number: the first approximation is positive and the iterations never change its
sign (they diverge, the inverse being negative). -/
theorem C96_negative_wrong {F : Fmt} (hF : Wide F) {x : Val} (hx : Fin' F x) (h : rv x < 0) :
    Special.neg (cbrt F x) = false ∧ ∀ δ < 1, ¬ NearCbrt F δ (cbrt F x) x := by
  have hq : numOf x < 0 := by unfold rv at h; exact_mod_cast h
  have hxe := fin_num_ne hx hq.ne
  have hz : isZero x = false := by rw [hxe]; simp [isZero, hq.ne]
  have hi : sgn (fdiv F (.num 1) x) = true := by
    rw [hxe]
    generalize numOf x = v at hq
    have e1 : fdiv F (.num 1) (.num v) = rnd F true (((1 : ℚ) / v : ℚ) : ℝ) := by
      unfold fdiv
      simp [isNaN, isInf, isZero, hq.ne, sgn, Special.neg, hq, numOf, show ¬ ((1 : ℚ) < 0) by norm_num]
    rw [e1]
    have hlt : (((1 : ℚ) / v : ℚ) : ℝ) < 0 := by exact_mod_cast div_neg_of_pos_of_neg one_pos hq
    unfold rnd
    rw [if_neg hlt.ne, show decide ((((1 : ℚ) / v : ℚ) : ℝ) < 0) = true by simpa using hlt]
    split_ifs with h1 h2
    · rfl
    · have : roundUnb F .RN (((1 : ℚ) / v : ℚ) : ℝ) ≤ 0 := by
        have := ru_between_le (F := F) (x := (((1 : ℚ) / v : ℚ) : ℝ)) (w := 0) (unb_zero F) (by simpa using hlt.le)
        exact_mod_cast this
      simpa [sgn, Special.neg] using lt_of_le_of_ne this h1
    · rfl
  have h0 : sgn (init F x) = false := by
    unfold init approxTable modTable
    obtain ⟨r1, r2'⟩ := third_range hF hx.1
    have hidx : 0 ≤ index F x := by
      rw [hxe]
      simp only [index]
      split_ifs with h1
      · exact Int.floor_nonneg.2 (by have := Float.zp F.emin; positivity)
      · have hv0 : 0 < |numOf x| := abs_pos.2 hq.ne
        have g1 := Float.pow_log_le hv0
        have hp := Float.zp (Int.log 2 |numOf x|)
        refine Int.floor_nonneg.2 ?_
        have : 1 ≤ |numOf x| / (2 : ℚ) ^ Int.log 2 |numOf x| := by rw [le_div_iff₀ hp]; linarith
        linarith
    have hidx' : (0 : ℝ) ≤ index F x := by exact_mod_cast hidx
    exact sgn_mul (sgn_mul (sgn_cst (by positivity)) (sgn_cst (by positivity))) (sgn_decode hF.e2 _ (by omega) (by omega))
  have hit : ∀ n, sgn ((newton F (fdiv F (.num 1) x))^[n] (init F x)) = false := by
    intro n
    induction n with
    | zero => exact h0
    | succ n ih => rw [Function.iterate_succ_apply']; exact sgn_newton hi ih
  have hres : Special.neg (cbrt F x) = false := by
    unfold cbrt result; rw [hz]; simp only [Bool.false_eq_true, if_false]; exact hit 8
  refine ⟨hres, ?_⟩
  rintro δ hδ ⟨v, y, z, h1, h2, h3, h4⟩
  rw [fin_finVal hx] at h1
  obtain rfl : numOf x = v := by simpa using h1
  have hy : y < 0 := by
    by_contra hc
    have : 0 ≤ y ^ 3 := pow_nonneg (not_lt.1 hc) 3
    rw [h2] at this
    have : (0 : ℚ) ≤ numOf x := by exact_mod_cast this
    linarith
  have hz0 : 0 ≤ z := by
    rw [← (isReal_rv.1 h3).2]
    unfold rv
    exact_mod_cast num_nonneg hres
  rw [abs_of_nonneg (by linarith), abs_of_neg hy] at h4
  nlinarith

/-- the hypotheses of `C96_negative_wrong` are met: -8 in binary32 -/
example : Special.neg (cbrt ⟨8, 23⟩ (.num (-8))) = false := by
  have hF : Wide ⟨8, 23⟩ := ⟨by decide, by decide, by decide⟩
  refine (C96_negative_wrong hF (x := .num (-8)) ⟨⟨(finite_iff hF.e2).2 ⟨?_, ?_⟩, by norm_num⟩, rfl, rfl⟩ (by simp [rv, numOf])).1
  · exact_mod_cast unb_int hF.e2 (n := -8) (by norm_num)
  · rw [abs_neg, abs_of_pos (by norm_num)]
    refine le_trans ?_ (omega_ge hF.e2)
    calc (8 : ℚ) ≤ (2 : ℚ) ^ (5 : ℤ) := by norm_num
      _ ≤ _ := Float.zle (by decide)

/-- **C96, disagreement.** The cube root of `-0` is `+0`. -/
theorem C96_minus_zero_wrong (F : Fmt) : cbrt F .minusZero = .plusZero := rfl

/-- the iterations stay at `-∞` when the inverse is `+∞` -/
theorem newton_minus_inf {F : Fmt} (hF : Wide F) (hf : F.f ≤ 52) : newton F .plusInf .minusInf = .minusInf := by
  obtain ⟨h1, d, h2, h3⟩ := third_val hF hf
  have hu := uu_le hF
  have hu0 := uu_pos F
  have hd := abs_le.1 h2
  have hp : 0 < rv (third F) := by rw [h3]; have : 0 < 1 + d := by linarith
                                   positivity
  have hq : 0 < numOf (third F) := by unfold rv at hp; exact_mod_cast hp
  have e := fin_num_ne h1 hq.ne'
  generalize numOf (third F) = t at hq e
  have m1 : fmul F .minusInf .minusInf = .plusInf := by simp [fmul, isNaN, isInf, isZero, sgn, Special.neg, infS]
  have m2 : fmul F .minusInf .plusInf = .minusInf := by simp [fmul, isNaN, isInf, isZero, sgn, Special.neg, infS]
  have m3 : fmul F .minusInf (.num t) = .minusInf := by
    simp [fmul, isNaN, isInf, isZero, sgn, Special.neg, infS, hq.ne', not_lt.2 hq.le]
  unfold newton fmsn
  rw [m1, m2, e, m3]
  have m4 : ffma F (fneg .minusInf) .plusInf (.num 1) = .plusInf := by simp [ffma, fneg, isNaN, isInf, isZero, sgn, Special.neg, infS]
  rw [m4]
  simp [ffma, isNaN, isInf, isZero, sgn, Special.neg, infS]

theorem r2sub_one (k : ℤ) : (2 : ℝ) ^ (k - 1) = 0.5 * (2 : ℝ) ^ k := by
  rw [show k - 1 = k + (-1) by ring, r2add]; norm_num; ring

theorem fmul_num {F : Fmt} {a b : Val} (ha : Fin' F a) (hb : Fin' F b) : fmul F a b = rnd F (xor (sgn a) (sgn b)) (rv a * rv b) := by
  unfold fmul
  simp only [ha.2.1, hb.2.1, ha.2.2, hb.2.2, Bool.or_self, Bool.false_eq_true, if_false]
  congr 1; unfold rv; push_cast; rfl

theorem pos_num {F : Fmt} {a : Val} (ha : Fin' F a) (h : 0 < rv a) : ∃ v : ℚ, 0 < v ∧ a = .num v := by
  have hq : 0 < numOf a := by unfold rv at h; exact_mod_cast h
  exact ⟨numOf a, hq, fin_num_ne ha hq.ne'⟩

theorem third_pos {F : Fmt} (hF : Wide F) (hf : F.f ≤ 52) : ∃ t : ℚ, 0 < t ∧ third F = .num t := by
  obtain ⟨h1, d, h2, h3⟩ := third_val hF hf
  have hu := uu_le hF
  have hd := abs_le.1 h2
  refine pos_num h1 ?_
  rw [h3]
  have : 0 < 1 + d := by linarith
  positivity

set_option maxHeartbeats 1000000 in
/-- **C96, disagreement.** The cube root of a subnormal number below a quarter of the smallest normal one is `-∞`: its inverse overflows. -/
theorem C96_subnormal_wrong {F : Fmt} (hF : Wide F) (hf : F.f ≤ 52) {x : Val} (hx : Fin' F x) (h1 : 0 < rv x) (h2 : rv x ≤ (2 : ℝ) ^ (F.emin - 2)) :
    cbrt F x = .minusInf := by
  have he := hF.e2
  have hu := uu_le hF
  have hu0 := uu_pos F
  have hm := hF.m
  have hff := hF.f
  obtain ⟨v, hv0, hxe⟩ := pos_num hx h1
  have hvr : rv x = (v : ℝ) := by rw [hxe]; rfl
  rw [hvr] at h1 h2
  have h2q : v ≤ (2 : ℚ) ^ (F.emin - 2) := by rw [r2cast] at h2; exact_mod_cast h2
  have hz : isZero x = false := by rw [hxe]; simp [isZero, hv0.ne']
  have hinv : fdiv F (.num 1) x = .plusInf := by
    have e1 : fdiv F (.num 1) (.num v) = rnd F false (((1 : ℚ) / v : ℚ) : ℝ) := by
      unfold fdiv
      simp [isNaN, isInf, isZero, hv0.ne', sgn, Special.neg, not_lt.2 hv0.le, numOf, show ¬ ((1 : ℚ) < 0) by norm_num]
    rw [hxe, e1]
    refine rnd_overflow he _ ?_
    push_cast
    rw [le_div_iff₀ h1]
    calc (2 : ℝ) ^ (F.emax + 1) * v ≤ (2 : ℝ) ^ (F.emax + 1) * (2 : ℝ) ^ (F.emin - 2) := mul_le_mul_of_nonneg_left h2 (r2 _).le
      _ = 1 := by rw [← r2add, show F.emax + 1 + (F.emin - 2) = 0 by unfold Fmt.emin; ring]; norm_num
  -- the first approximation
  have hlt : |v| < (2 : ℚ) ^ F.emin := by
    rw [abs_of_pos hv0]
    exact lt_of_le_of_lt h2q (zpow_lt_zpow_right₀ (by norm_num) (by omega))
  have hE : expExtract F x = F.emin - 1 := by rw [hxe]; simp only [expExtract]; rw [if_pos hlt]
  obtain ⟨i, hi⟩ : ∃ i, i = index F x := ⟨_, rfl⟩
  have hi' : i = ⌊v / (2 : ℚ) ^ F.emin * 64⌋ := by rw [hi, hxe]; simp only [index]; rw [if_pos hlt, abs_of_pos hv0]
  have hmq := Float.zp F.emin
  have i0 : 0 ≤ i := by rw [hi']; exact Int.floor_nonneg.2 (by positivity)
  have i1 : (i : ℚ) ≤ 64 := by
    have : v / (2 : ℚ) ^ F.emin ≤ 1 := by rw [div_le_one hmq]; rw [abs_of_pos hv0] at hlt; exact hlt.le
    have := Int.floor_le (v / (2 : ℚ) ^ F.emin * 64)
    rw [hi']; linarith
  have ir0 : (0 : ℝ) ≤ i := by exact_mod_cast i0
  have ir1 : (i : ℝ) ≤ 64 := by exact_mod_cast i1
  obtain ⟨A, hA⟩ : ∃ A : ℝ, A = (1 + (i : ℝ) / 64) ^ (1 / 3 : ℝ) := ⟨_, rfl⟩
  have A0 : 0 ≤ A := by rw [hA]; positivity
  have A3 : A ^ 3 = 1 + (i : ℝ) / 64 := by rw [hA]; exact rpow_third (by positivity)
  obtain ⟨r, hr⟩ : ∃ r, r = (F.emin - 1).tmod 3 := ⟨_, rfl⟩
  obtain ⟨q, hq⟩ : ∃ q, q = (F.emin - 1).tdiv 3 := ⟨_, rfl⟩
  have hdm : 3 * q + r = F.emin - 1 := by rw [hr, hq]; exact Int.mul_tdiv_add_tmod _ 3
  have r1 : r < 3 := by rw [hr]; exact Int.tmod_lt_of_pos _ (by norm_num)
  have r2' : -3 < r := by rw [hr]; exact Int.lt_tmod_of_pos _ (by norm_num)
  obtain ⟨B, hB⟩ : ∃ B : ℝ, B = ((2 : ℝ) ^ (r + 3 - 3)) ^ (1 / 3 : ℝ) := ⟨_, rfl⟩
  have B0 : 0 ≤ B := by rw [hB]; positivity
  have B3 : B ^ 3 = (2 : ℝ) ^ r := by rw [hB, add_sub_cancel_right]; exact rpow_third (r2 _).le
  have hemin : F.emin = 1 - F.emax := rfl
  have hA1 : 1 ≤ A ^ 3 := by rw [A3]; linarith [div_nonneg ir0 (by norm_num : (0 : ℝ) ≤ 64)]
  have hA2 : A ^ 3 ≤ 2 := by rw [A3]; linarith
  have hB1 : 1 / 4 ≤ B ^ 3 := by
    rw [B3]
    calc (1 : ℝ) / 4 = (2 : ℝ) ^ (-2 : ℤ) := by norm_num
      _ ≤ _ := r2le (by omega)
  have hB2 : B ^ 3 ≤ 4 := by
    rw [B3]
    calc _ ≤ (2 : ℝ) ^ (2 : ℤ) := r2le (by omega)
      _ = 4 := by norm_num
  have hS := seed hF A0 B0 hA1 hA2 hB1 hB2 (q := q) (by omega) (by omega)
  have hinit : init F x = fmul F (fmul F (cst F A) (cst F B)) (insExp F q) := by
    unfold init approxTable modTable
    rw [hE, ← hi, ← hr, ← hq, hA, hB]
  rw [← hinit] at hS
  obtain ⟨fs, d1, d2, d3, d4, k1, k2, k3, k4, es⟩ := hS
  obtain ⟨δ, hδ⟩ : ∃ δ, δ = (1 + d1) * (1 + d2) * (1 + d3) * (1 + d4) := ⟨_, rfl⟩
  have hδ1 : |δ - 1| ≤ 0.0022 := by
    rw [hδ]
    have huu : uu F * uu F ≤ uu F * (1 / 2048) := mul_le_mul_of_nonneg_left hu hu0.le
    refine comp' (A := 0.0016) (comp' (A := 0.0011) (comp k1 k2 |>.trans ?_) k3 ?_) k4 ?_ <;> norm_num <;> linarith
  have hδ2 := abs_le.1 hδ1
  have es' : rv (init F x) = A * B * (2 : ℝ) ^ q * δ := by rw [es, hδ]; ring
  have a1 : 1 ≤ A := le_of_cube A0 (by linarith)
  have a2 : A ≤ 1.26 := le_of_cube (by norm_num) (by norm_num; linarith)
  have b1 : 0.62 ≤ B := le_of_cube B0 (by norm_num; linarith)
  have b2 : B ≤ 1.59 := le_of_cube (by norm_num) (by norm_num; linarith)
  have hq0 : 0 < (2 : ℝ) ^ q := r2 q
  have hq3 : (2 : ℝ) ^ q ≤ 1 / 8 := by
    calc (2 : ℝ) ^ q ≤ (2 : ℝ) ^ (-3 : ℤ) := r2le (by omega)
      _ = 1 / 8 := by norm_num
  obtain ⟨a, ha⟩ : ∃ a, a = init F x := ⟨_, rfl⟩
  rw [← ha] at fs es'
  have hAB : A * B ≤ 2.01 := by
    have := mul_le_mul a2 b2 B0 (by norm_num); linarith
  have hapos : 0 < rv a := by
    rw [es']
    have : 0 < A * B := by positivity
    have : 0 < δ := by linarith
    positivity
  have ha4 : rv a ≤ 0.26 := by
    rw [es']
    have t1 := mul_le_mul hAB hq3 hq0.le (by norm_num)
    have t2 := mul_le_mul t1 (show δ ≤ 1.01 by linarith) (by linarith) (by norm_num)
    linarith
  have hmin0 : 0 < (2 : ℝ) ^ F.emin := r2 _
  have ha3 : 0.49 * (2 : ℝ) ^ F.emin ≤ rv a ^ 3 := by
    have e : rv a ^ 3 = A ^ 3 * ((2 : ℝ) ^ (F.emin - 1)) * δ ^ 3 := by
      rw [es', mul_pow, mul_pow, mul_pow, B3, ← hdm, r2add, show ((2 : ℝ) ^ q) ^ 3 = (2 : ℝ) ^ (3 * q) by rw [← zpow_natCast, ← zpow_mul]; congr 1; push_cast; ring]
      ring
    have e2 : (2 : ℝ) ^ (F.emin - 1) = 0.5 * (2 : ℝ) ^ F.emin := by rw [r2sub_one]
    have t3 : (0.99 : ℝ) ≤ δ ^ 3 := by
      calc (0.99 : ℝ) ≤ 0.9978 ^ 3 := by norm_num
        _ ≤ δ ^ 3 := pow_le_pow_left₀ (by norm_num) (by linarith) 3
    rw [e, e2]
    have t4 := mul_le_mul_of_nonneg_right hA1 (show (0 : ℝ) ≤ 0.5 * (2 : ℝ) ^ F.emin by positivity)
    have t5 := mul_le_mul t4 t3 (by norm_num) (by positivity)
    linarith
  have ha2 : (2 : ℝ) ^ F.emin ≤ rv a * rv a := by
    have := mul_le_mul_of_nonneg_left ha4 (mul_nonneg hapos.le hapos.le)
    linarith
  have hmax4 := Atan.four_le hF
  obtain ⟨fsq, esq⟩ := fmul_val he fs fs (by rw [abs_of_pos (by positivity)]; nlinarith)
  obtain ⟨e1, k5, e5⟩ := ru_norm F (z := rv a * rv a) (by rw [abs_of_pos (by positivity)]; exact ha2)
  rw [e5] at esq
  have k5' := abs_le.1 k5
  have hcub : rv a * rv (fmul F a a) = rv a ^ 3 * (1 + e1) := by rw [esq]; ring
  have hcub1 : (2 : ℝ) ^ (F.emin - 2) ≤ rv a ^ 3 * (1 + e1) := by
    have t := mul_le_mul ha3 (show 0.99 ≤ 1 + e1 by linarith) (by norm_num) (by positivity)
    have e2 : (2 : ℝ) ^ (F.emin - 2) = 0.25 * (2 : ℝ) ^ F.emin := by
      rw [show F.emin - 2 = F.emin - 1 - 1 by ring, r2sub_one, r2sub_one]; ring
    rw [e2]; linarith
  have hcub2 : rv a ^ 3 * (1 + e1) ≤ 1 := by
    have : rv a ^ 3 ≤ 0.26 ^ 3 := pow_le_pow_left₀ hapos.le ha4 3
    have t := mul_le_mul this (show 1 + e1 ≤ 2 by linarith) (by linarith) (by norm_num)
    norm_num at t; linarith
  have hcub0 : 0 < rv a ^ 3 * (1 + e1) := lt_of_lt_of_le (r2 _) hcub1
  obtain ⟨fp, ep⟩ := fmul_val he fs fsq (by rw [hcub, abs_of_pos hcub0]; linarith)
  have hp0 : 0 < rv (fmul F a (fmul F a a)) := by
    rw [ep, hcub]
    have := ru_between_ge (F := F) (x := rv a ^ 3 * (1 + e1)) (w := (2 : ℚ) ^ (F.emin - 2)) (unb_pow (by omega)) (by rw [← r2cast]; exact hcub1)
    rw [← r2cast] at this
    exact lt_of_lt_of_le (r2 _) this
  obtain ⟨p, hp, epn⟩ := pos_num fp hp0
  obtain ⟨w, hw, ew⟩ := pos_num fs hapos
  obtain ⟨t, ht, et⟩ := third_pos hF hf
  -- the third of it is not null
  have hth : ∃ h : ℚ, 0 < h ∧ fmul F a (third F) = .num h := by
    obtain ⟨g1, d, g2, g3⟩ := third_val hF hf
    have gd := abs_le.1 g2
    have e : rv a * rv (third F) = rv a / 3 * (1 + d) := by rw [g3]; ring
    have l1 : 1 * (2 : ℝ) ^ F.emin ≤ rv a / 3 * (1 + d) := by
      have h8 : rv a * rv a ≤ 0.26 * rv a := mul_le_mul_of_nonneg_right ha4 hapos.le
      have h9 : 1.1 * (2 : ℝ) ^ F.emin ≤ rv a / 3 := by linarith
      have := mul_le_mul h9 (show 0.99 ≤ 1 + d by linarith) (by norm_num) (by positivity)
      linarith
    have l2 : rv a / 3 * (1 + d) ≤ 1 := by
      have := mul_le_mul (show rv a / 3 ≤ 0.1 by linarith) (show 1 + d ≤ 2 by linarith) (by linarith) (by norm_num)
      linarith
    have l0 : 0 < rv a / 3 * (1 + d) := by linarith
    obtain ⟨f6, e6⟩ := fmul_val he fs g1 (by rw [e, abs_of_pos l0]; linarith)
    refine pos_num f6 ?_
    rw [e6, e]
    have := ru_between_ge (F := F) (x := rv a / 3 * (1 + d)) (w := (2 : ℚ) ^ F.emin) (unb_pow (by omega)) (by rw [← r2cast]; linarith)
    rw [← r2cast] at this
    exact lt_of_lt_of_le hmin0 this
  obtain ⟨h, hh0, eh⟩ := hth
  have hstep : newton F .plusInf a = .minusInf := by
    unfold newton fmsn
    rw [epn, eh, ew]
    have m4 : ffma F (fneg (.num p)) .plusInf (.num 1) = .minusInf := by
      simp [ffma, fneg, isNaN, isInf, isZero, sgn, Special.neg, infS, hp.ne', hp]
    rw [m4]
    simp [ffma, isNaN, isInf, isZero, sgn, Special.neg, infS, hh0.ne', not_lt.2 hh0.le]
  have hit : ∀ n, (newton F .plusInf)^[n + 1] a = .minusInf := by
    intro n
    induction n with
    | zero => exact hstep
    | succ n ih => rw [Function.iterate_succ_apply', ih]; exact newton_minus_inf hF hf
  unfold cbrt result
  rw [hz, hinv, ← ha]
  simp only [Bool.false_eq_true, if_false]
  exact hit 7

/-- the hypotheses of `C96_subnormal_wrong` are met: `2^-130` in binary32 -/
example : cbrt ⟨8, 23⟩ (.num ((2 : ℚ) ^ (-130 : ℤ))) = .minusInf := by
  have hF : Wide ⟨8, 23⟩ := ⟨by decide, by decide, by decide⟩
  have hr : rv (.num ((2 : ℚ) ^ (-130 : ℤ))) = (2 : ℝ) ^ (-130 : ℤ) := by unfold rv; simp [numOf]
  refine C96_subnormal_wrong hF (by decide) (x := .num ((2 : ℚ) ^ (-130 : ℤ))) ⟨⟨(finite_iff hF.e2).2 ⟨unb_pow (by decide), ?_⟩, by norm_num⟩, rfl, rfl⟩ ?_ ?_
  · rw [abs_of_pos (Float.zp _)]
    exact le_trans (Float.zle (by decide)) (omega_ge hF.e2)
  · rw [hr]; exact r2 _
  · rw [hr]; exact r2le (by decide)

theorem newton_nan {F : Fmt} (inv : Val) : newton F inv .qNaN = .qNaN := by
  unfold newton ffma; simp [isNaN]

theorem newton_over {F : Fmt} {s : Bool} {a : Val} (h : fmul F a (fmul F a a) = .plusInf) : newton F (zeroS s) a = .qNaN := by
  have h1 : fmsn F .plusInf (zeroS s) (.num 1) = .qNaN := by cases s <;> simp [fmsn, ffma, fneg, isNaN, isInf, isZero, zeroS]
  unfold newton
  rw [h, h1]
  unfold ffma; simp [isNaN]

/-- the exact product of two positive numbers either overflows or does not -/
theorem fmul_or {F : Fmt} (he : 2 ≤ F.e) {a b : Val} (ha : Fin' F a) (hb : Fin' F b) (h : 0 < rv a * rv b) : fmul F a b = .plusInf ∨ Fin' F (fmul F a b) := by
  rw [fmul_num ha hb]
  by_cases h1 : |roundUnb F .RN (rv a * rv b)| ≤ Float.omega F
  · exact Or.inr (rnd_fin he _ h1).1
  · left
    have h0 : roundUnb F .RN (rv a * rv b) ≠ 0 := by
      intro h0
      rw [h0, abs_zero] at h1
      exact h1 (le_trans (Float.zp _).le (omega_ge he))
    rw [Atan.rnd_over h.ne' h0 h1]
    simp [infS, h.le]

set_option maxHeartbeats 1000000 in
/-- **C96, disagreement.** The cube root of an infinity is a NaN: the cube of the approximation overflows, and is multiplied by the inverse, which is null. -/
theorem C96_infinity_wrong {F : Fmt} (hF : Wide F) (hf : F.f ≤ 52) (s : Bool) : cbrt F (infS s) = .qNaN := by
  have he := hF.e2
  have hu := uu_le hF
  have hu0 := uu_pos F
  have hm := hF.m
  have hff := hF.f
  have hz : isZero (infS s) = false := by cases s <;> rfl
  have hinv : fdiv F (.num 1) (infS s) = zeroS s := by
    cases s <;> simp [fdiv, infS, isNaN, isInf, sgn, Special.neg, show ¬ ((1 : ℚ) < 0) by norm_num]
  have hE : expExtract F (infS s) = F.emax + 1 := by cases s <;> rfl
  have hi : index F (infS s) = 0 := by cases s <;> rfl
  obtain ⟨r, hr⟩ : ∃ r, r = (F.emax + 1).tmod 3 := ⟨_, rfl⟩
  obtain ⟨q, hq⟩ : ∃ q, q = (F.emax + 1).tdiv 3 := ⟨_, rfl⟩
  have hdm : 3 * q + r = F.emax + 1 := by rw [hr, hq]; exact Int.mul_tdiv_add_tmod _ 3
  have r1 : r < 3 := by rw [hr]; exact Int.tmod_lt_of_pos _ (by norm_num)
  have r2' : -3 < r := by rw [hr]; exact Int.lt_tmod_of_pos _ (by norm_num)
  have r3 : 0 ≤ r := by rw [hr]; exact Int.tmod_nonneg _ (by omega)
  obtain ⟨B, hB⟩ : ∃ B : ℝ, B = ((2 : ℝ) ^ (r + 3 - 3)) ^ (1 / 3 : ℝ) := ⟨_, rfl⟩
  have B0 : 0 ≤ B := by rw [hB]; positivity
  have B3 : B ^ 3 = (2 : ℝ) ^ r := by rw [hB, add_sub_cancel_right]; exact rpow_third (r2 _).le
  have hemin : F.emin = 1 - F.emax := rfl
  have hB1 : 1 ≤ B ^ 3 := by
    rw [B3]
    calc (1 : ℝ) = (2 : ℝ) ^ (0 : ℤ) := by norm_num
      _ ≤ _ := r2le (by omega)
  have hB2 : B ^ 3 ≤ 4 := by
    rw [B3]
    calc _ ≤ (2 : ℝ) ^ (2 : ℤ) := r2le (by omega)
      _ = 4 := by norm_num
  have hS := seed hF zero_le_one B0 (A := 1) (by norm_num) (by norm_num) (by linarith) hB2 (q := q) (by omega) (by omega)
  have hinit : init F (infS s) = fmul F (fmul F (cst F 1) (cst F B)) (insExp F q) := by
    unfold init approxTable modTable
    rw [hE, hi, ← hr, ← hq, hB]
    norm_num
  rw [← hinit] at hS
  obtain ⟨fs, d1, d2, d3, d4, k1, k2, k3, k4, es⟩ := hS
  obtain ⟨δ, hδ⟩ : ∃ δ, δ = (1 + d1) * (1 + d2) * (1 + d3) * (1 + d4) := ⟨_, rfl⟩
  have huu : uu F * uu F ≤ uu F * (1 / 2048) := mul_le_mul_of_nonneg_left hu hu0.le
  have hδ1 : |δ - 1| ≤ 0.0022 := by
    rw [hδ]
    refine comp' (A := 0.0016) (comp' (A := 0.0011) (comp k1 k2 |>.trans ?_) k3 ?_) k4 ?_ <;> norm_num <;> linarith
  have hδ2 := abs_le.1 hδ1
  have b1 : 1 ≤ B := le_of_cube B0 (by linarith)
  have b2 : B ≤ 1.59 := le_of_cube (by norm_num) (by norm_num; linarith)
  have hq0 : 0 < (2 : ℝ) ^ q := r2 q
  obtain ⟨a, ha⟩ : ∃ a, a = init F (infS s) := ⟨_, rfl⟩
  rw [← ha] at fs es
  have es' : rv a = B * δ * (2 : ℝ) ^ q := by rw [es, hδ]; ring
  have hBδ1 : 0.99 ≤ B * δ := by
    have := mul_le_mul b1 (show 0.99 ≤ δ by linarith) (by norm_num) B0; linarith
  have hBδ2 : B * δ ≤ 1.6 := by
    have := mul_le_mul b2 (show δ ≤ 1.0022 by linarith) (by linarith) (by norm_num); linarith
  have hapos : 0 < rv a := by rw [es']; positivity
  have hup : rv a ≤ 1.6 * (2 : ℝ) ^ q := by rw [es']; exact mul_le_mul_of_nonneg_right hBδ2 hq0.le
  have hlo : 0.99 * (2 : ℝ) ^ q ≤ rv a := by rw [es']; exact mul_le_mul_of_nonneg_right hBδ1 hq0.le
  have hmin1 : (2 : ℝ) ^ F.emin ≤ 0.5 := by
    calc (2 : ℝ) ^ F.emin ≤ (2 : ℝ) ^ (-1 : ℤ) := r2le (by have := emin_le hF; omega)
      _ = 0.5 := by norm_num
  have hq1 : 2 ≤ (2 : ℝ) ^ q := by
    calc (2 : ℝ) = (2 : ℝ) ^ (1 : ℤ) := by norm_num
      _ ≤ _ := r2le (by omega)
  have hqq : (2 : ℝ) ^ q ≤ (2 : ℝ) ^ q * (2 : ℝ) ^ q := by nlinarith
  have h8 : 8 * ((2 : ℝ) ^ q * (2 : ℝ) ^ q) ≤ (2 : ℝ) ^ F.emax := by
    calc 8 * ((2 : ℝ) ^ q * (2 : ℝ) ^ q) = (2 : ℝ) ^ (3 + (q + q)) := by rw [r2add, r2add]; norm_num
      _ ≤ _ := r2le (by omega)
  -- the square of a number below 2.4 * 2^q
  have hsq : ∀ b : Val, Fin' F b → 0.99 * (2 : ℝ) ^ q ≤ rv b → rv b ≤ 2.4 * (2 : ℝ) ^ q →
      Fin' F (fmul F b b) ∧ ∃ d : ℝ, |d| ≤ uu F ∧ rv (fmul F b b) = rv b * rv b * (1 + d) := by
    intro b fb l1 l2
    have hb0 : 0 < rv b := by linarith
    have t1 := mul_le_mul l2 l2 hb0.le (by positivity)
    have t2 := mul_le_mul l1 l1 (by positivity) hb0.le
    have hp : 0 < rv b * rv b := by positivity
    obtain ⟨f1, e1⟩ := fmul_val he fb fb (by rw [abs_of_pos hp]; linarith)
    obtain ⟨d, h1, h2⟩ := ru_norm F (z := rv b * rv b) (by rw [abs_of_pos hp]; nlinarith)
    exact ⟨f1, d, h1, by rw [e1, h2]⟩
  obtain ⟨fsq, e1, k5, esq⟩ := hsq a fs hlo (by linarith)
  have k5' := abs_le.1 k5
  have hcub : 0 < rv a * rv (fmul F a a) := by
    rw [esq]
    have : 0 < 1 + e1 := by linarith
    positivity
  have hit : ∀ n, (newton F (zeroS s))^[n] .qNaN = .qNaN := by
    intro n
    induction n with
    | zero => rfl
    | succ n ih => rw [Function.iterate_succ_apply', ih]; exact newton_nan _
  unfold cbrt result
  rw [hz, hinv, ← ha]
  simp only [Bool.false_eq_true, if_false]
  rw [show (8 : ℕ) = 7 + 1 from rfl, Function.iterate_succ_apply]
  rcases fmul_or he fs fsq hcub with hinf | fp
  · rw [newton_over hinf]; exact hit 7
  · -- the first iteration multiplies by 4/3, and the second one overflows
    rw [show (7 : ℕ) = 6 + 1 from rfl, Function.iterate_succ_apply]
    obtain ⟨fn, en⟩ := rv_neg fp
    obtain ⟨fz, ez⟩ := Atan.zero_fin F s
    have hone : rv (.num 1) = 1 := by simp [rv, numOf]
    have hmax4 := Atan.four_le hF
    obtain ⟨fd, ed⟩ := ffma_fin he fn fz (one_fin hF) (by rw [ez, hone, mul_zero, zero_add, abs_one]; linarith)
    change Fin' F (fmsn F _ _ _) at fd
    have ed' : rv (fmsn F (fmul F a (fmul F a a)) (zeroS s) (.num 1)) = 1 := by
      have : rv (fmsn F (fmul F a (fmul F a a)) (zeroS s) (.num 1)) = _ := ed
      rw [this, ez, mul_zero, zero_add]
      exact Atan.ru_rv he (one_fin hF) |>.trans hone
    obtain ⟨fth, d6, k6, e6⟩ := third_val hF hf
    have k6' := abs_le.1 k6
    have eth : rv a * rv (third F) = rv a / 3 * (1 + d6) := by rw [e6]; ring
    have t1 : 0.33 * rv a ≤ rv a / 3 * (1 + d6) := by
      have := mul_le_mul_of_nonneg_left (show 0.998 ≤ 1 + d6 by linarith) (show 0 ≤ rv a / 3 by positivity); linarith
    have t2 : rv a / 3 * (1 + d6) ≤ 0.34 * rv a := by
      have := mul_le_mul_of_nonneg_left (show 1 + d6 ≤ 1.002 by linarith) (show 0 ≤ rv a / 3 by positivity); linarith
    have t0 : 0 < rv a / 3 * (1 + d6) := by linarith
    have hamax : rv a * 2 ≤ (2 : ℝ) ^ F.emax := by linarith
    obtain ⟨fh, eh⟩ := fmul_val he fs fth (by rw [eth, abs_of_pos t0]; linarith)
    obtain ⟨d7, k7, e7⟩ := ru_norm F (z := rv a * rv (third F)) (by rw [eth, abs_of_pos t0]; linarith)
    have k7' := abs_le.1 k7
    rw [e7, eth] at eh
    have t3 : 0.329 * rv a ≤ rv (fmul F a (third F)) := by
      rw [eh]
      have := mul_le_mul t1 (show 0.999 ≤ 1 + d7 by linarith) (by norm_num) (by linarith); linarith
    have t4 : rv (fmul F a (third F)) ≤ 0.35 * rv a := by
      rw [eh]
      have := mul_le_mul t2 (show 1 + d7 ≤ 1.001 by linarith) (by linarith) (by linarith); linarith
    have hsum0 : 0 < rv (fmul F a (third F)) * 1 + rv a := by linarith
    obtain ⟨fl, el⟩ := ffma_fin he fh fd fs (by rw [ed', abs_of_pos hsum0]; linarith)
    obtain ⟨d8, k8, e8⟩ := ru_norm F (z := rv (fmul F a (third F)) * 1 + rv a) (by rw [abs_of_pos hsum0]; linarith)
    have k8' := abs_le.1 k8
    rw [ed', e8] at el
    change Fin' F (newton F (zeroS s) a) at fl
    change rv (newton F (zeroS s) a) = _ at el
    generalize newton F (zeroS s) a = b at fl el
    have u1 : 1.3 * rv a ≤ rv b := by
      rw [el]
      have := mul_le_mul (show 1.329 * rv a ≤ rv (fmul F a (third F)) * 1 + rv a by linarith) (show 0.999 ≤ 1 + d8 by linarith) (by norm_num) (by linarith)
      linarith
    have u2 : rv b ≤ 1.4 * rv a := by
      rw [el]
      have := mul_le_mul (show rv (fmul F a (third F)) * 1 + rv a ≤ 1.35 * rv a by linarith) (show 1 + d8 ≤ 1.001 by linarith) (by linarith) (by linarith)
      linarith
    obtain ⟨fsb, e9, k9, esb⟩ := hsq b fl (by linarith) (by linarith)
    have k9' := abs_le.1 k9
    have hover : fmul F b (fmul F b b) = .plusInf := by
      rw [fmul_num fl fsb]
      refine rnd_overflow he _ ?_
      have ha3 : rv a ^ 3 = (2 : ℝ) ^ (F.emax + 1) * δ ^ 3 := by
        rw [es', mul_pow, mul_pow, B3, ← hdm, r2add, show ((2 : ℝ) ^ q) ^ 3 = (2 : ℝ) ^ (3 * q) by rw [← zpow_natCast, ← zpow_mul]; congr 1; push_cast; ring]
        ring
      have t5 : (0.99 : ℝ) ≤ δ ^ 3 := by
        calc (0.99 : ℝ) ≤ 0.9978 ^ 3 := by norm_num
          _ ≤ δ ^ 3 := pow_le_pow_left₀ (by norm_num) (by linarith) 3
      have hp := r2 (F.emax + 1)
      have t6 : (1.3 * rv a) ^ 3 ≤ rv b ^ 3 := pow_le_pow_left₀ (by positivity) u1 3
      have t7 : 2 * (2 : ℝ) ^ (F.emax + 1) ≤ rv b ^ 3 := by
        rw [mul_pow, ha3] at t6
        have := mul_le_mul_of_nonneg_left t5 hp.le
        norm_num at t6
        linarith
      have e10 : rv b * rv (fmul F b b) = rv b ^ 3 * (1 + e9) := by rw [esb]; ring
      rw [e10]
      have := mul_le_mul t7 (show 0.9 ≤ 1 + e9 by linarith) (by norm_num) (by linarith)
      linarith
    rw [newton_over hover]
    exact hit 6

end Verif.Cbrt
