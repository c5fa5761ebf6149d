import Verif.Atan.Lemmas

/-! # C92, C93: the generated arc tangents -/

namespace Verif.Atan

open Verif.Float (Fmt Val)
open Verif.Elem Verif.Check
open Verif.Special (neg finVal)
open Real (arctan pi)

theorem near_iff {F : Fmt} {δ : ℝ} {r : Val} {t : ℝ} : Near F δ r t ↔ Fin' F r ∧ |rv r - t| ≤ δ := by
  constructor
  · rintro ⟨z, h1, h2⟩
    obtain ⟨h3, h4⟩ := isReal_rv.1 h1
    exact ⟨h3, by rw [h4]; exact h2⟩
  · rintro ⟨h1, h2⟩
    exact ⟨rv r, isReal_rv.2 ⟨h1, rfl⟩, h2⟩

theorem fin_finVal {F : Fmt} {x : Val} (h : Fin' F x) : finVal x = some (numOf x) := by
  obtain ⟨_, h2, h3⟩ := h
  cases x <;> simp_all [isNaN, isInf, finVal, numOf]

/-- an approximation exists: the correctly rounded arc tangent -/
theorem approx_exists {F : Fmt} (hF : Wide F) : Approx F (uu F) (fun r => cst F (arctan (rv r))) := by
  intro r z h h0 h1
  obtain ⟨h2, h3⟩ := isReal_rv.1 h
  have hb0 : 0 ≤ arctan z := by rw [← Real.arctan_zero]; exact Real.arctan_mono h0
  have hb1 : arctan z ≤ pi / 4 := by rw [← Real.arctan_one]; exact Real.arctan_mono h1
  have := pi_bd
  have ha : |arctan z| ≤ 2 := by rw [abs_of_nonneg hb0]; linarith
  obtain ⟨k1, k2⟩ := cst_val hF (x := arctan z) (by linarith)
  rw [near_iff]
  simp only [h3]
  exact ⟨k1, by rw [k2]; exact ru_two hF ha⟩

theorem absX_fin {F : Fmt} {x : Val} (h : Fin' F x) : Fin' F (absX x) ∧ numOf (absX x) = |numOf x| := by
  unfold absX
  rw [show flt x .plusZero = decide (numOf x < 0) from flt_fin h (zero_fin F false).1]
  by_cases hx : numOf x < 0
  · rw [decide_eq_true hx, if_pos rfl, abs_of_neg hx]; exact fneg_fin h
  · rw [decide_eq_false hx, abs_of_nonneg (not_lt.1 hx)]; exact ⟨h, rfl⟩

theorem boundX_fin {F : Fmt} (hF : Wide F) {x : Val} (h : Fin' F x) : boundX x = decide (1 < |numOf x|) := by
  unfold boundX fgt
  rw [flt_fin (one_fin hF) (absX_fin h).1, (absX_fin h).2]
  rfl

theorem neg_fin {F : Fmt} {x : Val} (h : Fin' F x) : flt x .plusZero = decide (numOf x < 0) := by
  have := flt_fin h (zero_fin F false).1
  exact this

theorem condX_fin {F : Fmt} (hF : Wide F) {x : Val} (h : Fin' F x) : condX x = xor (flt x .plusZero) (boundX x) := by
  unfold condX fgt
  rw [flt_fin (one_fin hF) h, boundX_fin hF h, neg_fin h]
  have e : numOf (.num 1) = 1 := rfl
  rw [e]
  by_cases h0 : numOf x < 0
  · have h1 : ¬ 1 < numOf x := by linarith
    simp [h0, h1]
  · rw [abs_of_nonneg (not_lt.1 h0)]; simp [h0]

theorem rv_abs {F : Fmt} {x : Val} (h : Fin' F x) : rv (absX x) = |rv x| := by
  unfold rv; rw [(absX_fin h).2]; push_cast; rfl

/-- the arc tangent of a finite datum -/
theorem atan_fin {F : Fmt} (hF : Wide F) {ε : ℝ} (he0 : 0 ≤ ε) (hε : ε ≤ 1 / 8) {P : Val → Val} (hP : Approx F ε P) {x : Val} (h : Fin' F x) :
    Near F (ε + 3 * uu F) (atan F P x) (arctan (rv x)) ∧ (|rv x| ≤ 1 → Near F ε (atan F P x) (arctan (rv x))) := by
  have ht : arctan (rv x) = sg (flt x .plusZero) * arctan (|rv x| / 1) := by
    rw [neg_fin h, div_one]
    have e : (numOf x < 0) ↔ rv x < 0 := by unfold rv; exact_mod_cast Iff.rfl
    by_cases h0 : rv x < 0
    · rw [decide_eq_true (e.2 h0), abs_of_neg h0, Real.arctan_neg]; simp [sg]
    · rw [decide_eq_false (mt e.1 h0), abs_of_nonneg (not_lt.1 h0)]; simp [sg]
  rw [arctan_part (abs_nonneg _) one_pos] at ht
  have hb : boundX x = decide (1 < |rv x|) := by
    rw [boundX_fin hF h]; unfold rv; congr 1; exact propext (by exact_mod_cast Iff.rfl)
  unfold atan
  rw [condX_fin hF h, near_iff, near_iff, ht, ← hb]
  by_cases hx : 1 < |rv x|
  · rw [if_pos hx]
    rw [decide_eq_true hx] at hb
    have hr : redX F x = fdiv F (.num 1) (absX x) := by unfold redX; rw [hb]; rfl
    have e1 : rv (.num 1) = 1 := by simp [rv, numOf]
    obtain ⟨q1, q2, q3, q4⟩ := quot hF (one_fin hF) (absX_fin h).1 (by rw [e1]; norm_num) (by rw [rv_abs h]; linarith) (by rw [rv_abs h, e1]; exact hx.le)
    rw [← hr] at q1 q2 q3 q4
    rw [e1, rv_abs h] at q4
    obtain ⟨c1, c2, _⟩ := combine_near hF he0 hε hP (flt x .plusZero) (boundX x) q1 q2 q3 q4
    exact ⟨⟨c1, c2⟩, fun h' => absurd hx (not_lt.2 h')⟩
  · rw [if_neg hx]
    rw [decide_eq_false hx] at hb
    have hr : redX F x = absX x := by unfold redX; rw [hb]; rfl
    have hrv : rv (redX F x) = |rv x| / 1 := by rw [hr, rv_abs h, div_one]
    obtain ⟨c1, c2, c3⟩ := combine_near hF he0 hε hP (flt x .plusZero) (boundX x) (red := redX F x) (t := |rv x| / 1) (by rw [hr]; exact (absX_fin h).1)
      (by rw [hrv, div_one]; exact abs_nonneg _) (by rw [hrv, div_one]; exact not_lt.1 hx) (by rw [hrv, sub_self, abs_zero]; exact (uu_pos F).le)
    exact ⟨⟨c1, c2⟩, fun _ => ⟨c1, c3 hb hrv⟩⟩

theorem zero_red {F : Fmt} (s : Bool) : Fin' F (zeroS s) ∧ 0 ≤ rv (zeroS s) ∧ rv (zeroS s) ≤ 1 ∧ |rv (zeroS s) - 0| ≤ uu F := by
  obtain ⟨h1, h2⟩ := zero_fin F s
  rw [h2]
  exact ⟨h1, le_refl _, zero_le_one, by simpa using (uu_pos F).le⟩

/-- **C92 (partial).** Let `P` evaluate the arc tangent on `[0, 1]` with an absolute error at most `ε ≤ 1/8`. For every datum `x` that is no NaN, the
infinities included, the generated arc tangent is a finite number within `ε` and three half units in the last place of 1 of the arc tangent; within
`ε` where `|x| ≤ 1`. Missing: the sign of zero (see `C92_atan_minus_zero_wrong`), NaNs, and the bound `ε` itself, which Sollya computes. -/
theorem C92_atan_partial {F : Fmt} (hF : Wide F) {ε : ℝ} (he0 : 0 ≤ ε) (hε : ε ≤ 1 / 8) {P : Val → Val} (hP : Approx F ε P) {x : Val} (hd : F.Datum x)
    (hn : ¬ Special.IsNaN x) :
    Near F (ε + 3 * (2 : ℝ) ^ (-(F.f : ℤ) - 1)) (atan F P x) (atanVal x) ∧ (|atanVal x| ≤ pi / 4 → Near F ε (atan F P x) (atanVal x)) := by
  change Near F (ε + 3 * uu F) _ _ ∧ _
  by_cases hi : isInf x = true
  · have hpi := pi_bd
    cases x <;> simp [isInf] at hi
    · obtain ⟨z1, z2, z3, z4⟩ := zero_red (F := F) false
      obtain ⟨c1, c2, _⟩ := combine_near hF he0 hε hP false true z1 z2 z3 z4
      have e : atanVal .plusInf = sg false * part true 0 := by simp [atanVal, finVal, neg, sg, part]
      have ea : atan F P .plusInf = combine F P (xor false true) false true (zeroS false) := rfl
      refine ⟨by rw [near_iff, ea, e]; exact ⟨c1, c2⟩, fun h => ?_⟩
      exfalso
      simp [atanVal, finVal, neg] at h
      rw [abs_of_pos (by linarith)] at h
      linarith
    · obtain ⟨z1, z2, z3, z4⟩ := zero_red (F := F) false
      obtain ⟨c1, c2, _⟩ := combine_near hF he0 hε hP true true z1 z2 z3 z4
      have e : atanVal .minusInf = sg true * part true 0 := by simp [atanVal, finVal, neg, sg, part]
      have ea : atan F P .minusInf = combine F P (xor true true) true true (zeroS false) := rfl
      refine ⟨by rw [near_iff, ea, e]; exact ⟨c1, c2⟩, fun h => ?_⟩
      exfalso
      simp [atanVal, finVal, neg] at h
      rw [abs_of_pos (by linarith)] at h
      linarith
  · have hf : Fin' F x := ⟨hd, by cases x <;> simp_all [isNaN, Special.IsNaN], by simpa using hi⟩
    have e : atanVal x = arctan (rv x) := by unfold atanVal; rw [fin_finVal hf]; rfl
    rw [e]
    obtain ⟨a, b⟩ := atan_fin hF he0 hε hP hf
    refine ⟨a, fun h => b ?_⟩
    obtain ⟨h1, h2⟩ := abs_le.1 h
    rw [abs_le]
    constructor
    · rw [← Real.arctan_one, ← Real.arctan_neg] at h1
      exact (Real.arctan_strictMono.le_iff_le).1 h1
    · rw [← Real.arctan_one] at h2
      exact (Real.arctan_strictMono.le_iff_le).1 h2

/-- the hypotheses of `C92_atan_partial` are met in binary32, at the least normal number and at the infinity -/
example : Near ⟨8, 23⟩ (uu ⟨8, 23⟩ + 3 * (2 : ℝ) ^ (-(23 : ℤ) - 1)) (atan ⟨8, 23⟩ (fun r => cst ⟨8, 23⟩ (arctan (rv r))) .plusInf) (pi / 2) := by
  have hF : Wide ⟨8, 23⟩ := ⟨by decide, by decide, by decide⟩
  have := (C92_atan_partial hF (uu_pos _).le (le_trans (uu_le hF) (by norm_num)) (approx_exists hF) (x := .plusInf) trivial (by simp [Special.IsNaN])).1
  have e : atanVal .plusInf = pi / 2 := by simp [atanVal, finVal, neg]
  rw [e] at this
  exact this

/-- **C92, disagreement.** C99 F.9.1.3: `atan(±0)` returns `±0`. The generated function returns `+0` for `-0`, for every approximation that returns a
zero at zero. -/
theorem C92_atan_minus_zero_wrong (F : Fmt) (P : Val → Val) (h : P .minusZero = .plusZero ∨ P .minusZero = .minusZero) :
    atan F P .minusZero = .plusZero := by
  have e : ∀ z, (z = .plusZero ∨ z = .minusZero) → fadd F (fmul F (.num 1) .plusZero) (fmul F (.num 1) z) = .plusZero := by
    rintro z (rfl | rfl) <;>
      simp [fadd, fmul, isNaN, isInf, rnd, numOf, zeroS, sgn, neg, show ¬ ((1 : ℚ) < 0) by norm_num]
  have ea : atan F P .minusZero = fadd F (fmul F (.num 1) .plusZero) (fmul F (.num 1) (P .minusZero)) := rfl
  rw [ea]
  exact e _ h

/-- **C92, the other method (partial).** Method "single" evaluates `x + x Q(|x|)`. If `Q` is within `ε ≤ 1` of `arctan(t)/t - 1` on `(0, 1]`, then for
every `x` with `0 < |x| ≤ 1` the result is within `ε |x|` and two half units in the last place of 1 of the arc tangent. There is no argument reduction:
see `C92_single_wrong`. -/
theorem C92_single_partial {F : Fmt} (hF : Wide F) {ε : ℝ} (hε : ε ≤ 1 / 8) {Q : Val → Val}
    (hQ : ∀ (r : Val) (z : ℝ), IsReal F r z → 0 < z → z ≤ 1 → Near F ε (Q r) (arctan z / z - 1))
    {x : Val} {z : ℝ} (hx : IsReal F x z) (h0 : z ≠ 0) (h1 : |z| ≤ 1) :
    Near F (ε * |z| + 2 * (2 : ℝ) ^ (-(F.f : ℤ) - 1)) (atanSingle F Q x) (arctan z) := by
  change Near F (ε * |z| + 2 * uu F) _ _
  obtain ⟨hf, rfl⟩ := isReal_rv.1 hx
  have ha := rv_abs hf
  have hp : 0 < |rv x| := abs_pos.2 h0
  obtain ⟨q1, q2⟩ := near_iff.1 (hQ (absX x) |rv x| (isReal_rv.2 ⟨(absX_fin hf).1, ha⟩) hp h1)
  have he : arctan (rv x) = rv x + rv x * (arctan |rv x| / |rv x| - 1) := by
    rcases abs_choice (rv x) with e | e <;> rw [e]
    · field_simp; ring
    · rw [Real.arctan_neg]; field_simp; ring
  have hat : 0 ≤ arctan |rv x| := by rw [← Real.arctan_zero]; exact Real.arctan_mono hp.le
  have hat1 : arctan |rv x| ≤ |rv x| := by
    have := arctan_lip |rv x| 0
    rw [Real.arctan_zero, sub_zero, sub_zero, abs_of_nonneg hat, abs_abs] at this
    exact this
  have hd0 : 0 ≤ arctan |rv x| / |rv x| := div_nonneg hat hp.le
  have hd1 : arctan |rv x| / |rv x| ≤ 1 := (div_le_one hp).2 hat1
  obtain ⟨l1, l2⟩ := abs_le.1 q2
  have hq : |rv (Q (absX x))| ≤ 9 / 8 := by rw [abs_le]; constructor <;> linarith
  have hm : |rv x * rv (Q (absX x))| ≤ 9 / 8 := by
    rw [abs_mul]; calc _ ≤ 1 * (9 / 8 : ℝ) := mul_le_mul h1 hq (abs_nonneg _) zero_le_one
      _ = _ := by norm_num
  have h4 := four_le hF
  have hu := uu_pos F
  have hul := uu_le hF
  obtain ⟨m1, m2⟩ := fmul_val hF.e2 hf q1 (by linarith)
  have e1 := ru_two hF (z := rv x * rv (Q (absX x))) (by linarith)
  rw [← m2] at e1
  have hxq : |rv x + rv x * rv (Q (absX x)) - arctan (rv x)| ≤ ε * |rv x| := by
    rw [he, show rv x + rv x * rv (Q (absX x)) - (rv x + rv x * (arctan |rv x| / |rv x| - 1)) =
      rv x * (rv (Q (absX x)) - (arctan |rv x| / |rv x| - 1)) by ring, abs_mul, mul_comm]
    exact mul_le_mul_of_nonneg_right q2 (abs_nonneg _)
  have hb : |arctan (rv x)| ≤ 1 := by
    have := arctan_lip (rv x) 0
    rw [Real.arctan_zero, sub_zero, sub_zero] at this
    linarith
  have hee : ε * |rv x| ≤ 1 / 8 := by nlinarith
  have hs : |rv x + rv (fmul F x (Q (absX x)))| ≤ 2 := by
    rw [show rv x + rv (fmul F x (Q (absX x))) = (rv (fmul F x (Q (absX x))) - rv x * rv (Q (absX x))) +
      ((rv x + rv x * rv (Q (absX x)) - arctan (rv x)) + arctan (rv x)) by ring]
    have a1 := abs_add_le (rv (fmul F x (Q (absX x))) - rv x * rv (Q (absX x))) ((rv x + rv x * rv (Q (absX x)) - arctan (rv x)) + arctan (rv x))
    have a2 := abs_add_le (rv x + rv x * rv (Q (absX x)) - arctan (rv x)) (arctan (rv x))
    linarith
  obtain ⟨r1, r2'⟩ := fadd_val hF.e2 hf m1 (by linarith)
  have e2 := ru_two hF hs
  rw [near_iff]
  refine ⟨r1, ?_⟩
  change |rv (fadd F x (fmul F x (Q (absX x)))) - arctan (rv x)| ≤ _
  rw [r2', show (roundUnb F .RN (rv x + rv (fmul F x (Q (absX x)))) : ℝ) - arctan (rv x) =
    ((roundUnb F .RN (rv x + rv (fmul F x (Q (absX x)))) : ℝ) - (rv x + rv (fmul F x (Q (absX x))))) +
    ((rv (fmul F x (Q (absX x))) - rv x * rv (Q (absX x))) + (rv x + rv x * rv (Q (absX x)) - arctan (rv x))) by ring]
  refine le_trans (abs_add_le _ _) ?_
  have := abs_add_le (rv (fmul F x (Q (absX x))) - rv x * rv (Q (absX x))) (rv x + rv x * rv (Q (absX x)) - arctan (rv x))
  linarith

theorem rnd_over {F : Fmt} {s : Bool} {x : ℝ} (h1 : x ≠ 0) (h2 : roundUnb F .RN x ≠ 0) (h3 : ¬ |roundUnb F .RN x| ≤ Float.omega F) :
    rnd F s x = infS (decide (x < 0)) := by
  unfold rnd; rw [if_neg h1, if_neg h2, if_neg h3]

/-- **C92, disagreement.** Method "single" has no argument reduction: at the infinities the result is never the finite `±π/2`, and at any `x > 2` it is
above `π/2` (no arc tangent is) as soon as the polynomial, there used outside of its interval, is not negative. -/
theorem C92_single_wrong {F : Fmt} (hF : Wide F) (Q : Val → Val) :
    (∀ t δ, ¬ Near F δ (atanSingle F Q .plusInf) t) ∧
    (∀ (x : Val) (z q : ℝ), IsReal F x z → 2 ≤ z → IsReal F (Q (absX x)) q → 0 ≤ q → ¬ Near F 0 (atanSingle F Q x) (arctan z) ∧
      ∀ w, IsReal F (atanSingle F Q x) w → pi / 2 < w) := by
  refine ⟨fun t δ h => ?_, fun x z q hx hz hq h0 => ?_⟩
  · obtain ⟨h1, h2⟩ := near_iff.1 h
    obtain ⟨_, h3, h4⟩ := h1
    have : isNaN (atanSingle F Q .plusInf) = true ∨ isInf (atanSingle F Q .plusInf) = true := by
      unfold atanSingle
      generalize fmul F .plusInf (Q (absX .plusInf)) = m
      cases m <;> simp [fadd, isNaN, isInf, sgn, neg]
    rcases this with h | h <;> simp_all
  · obtain ⟨hf, rfl⟩ := isReal_rv.1 hx
    obtain ⟨hqf, rfl⟩ := isReal_rv.1 hq
    have key : ∀ w, IsReal F (atanSingle F Q x) w → pi / 2 < w := by
      intro w hw
      obtain ⟨hwf, rfl⟩ := isReal_rv.1 hw
      have hpi := pi_bd
      have he := hF.e2
      -- the product is finite or infinite; the sum is not below x
      have hx0 : rv x ≤ rv (atanSingle F Q x) := by
        unfold atanSingle at hwf ⊢
        have hm : ∃ v : ℝ, 0 ≤ v ∧ ∃ s, fmul F x (Q (absX x)) = rnd F s v := by
          refine ⟨((numOf x * numOf (Q (absX x)) : ℚ) : ℝ), ?_, _, by
            unfold fmul; simp only [hf.2.1, hqf.2.1, hf.2.2, hqf.2.2, Bool.or_self, Bool.false_eq_true, if_false]; rfl⟩
          push_cast; exact mul_nonneg (by unfold rv at hz; linarith) h0
        obtain ⟨v, hv, s, hm⟩ := hm
        rw [hm] at hwf ⊢
        by_cases ho : |roundUnb F .RN v| ≤ Float.omega F
        · obtain ⟨g1, g2⟩ := rnd_fin he s ho
          have g3 : 0 ≤ numOf (rnd F s v) := by
            rw [g2]
            have := ru_between_ge (F := F) (x := v) (w := 0) (unb_zero F) (by simpa using hv)
            exact_mod_cast this
          by_cases ho2 : |roundUnb F .RN ((numOf x + numOf (rnd F s v) : ℚ) : ℝ)| ≤ Float.omega F
          · obtain ⟨k1, k2⟩ := fadd_fin he hf g1 ho2
            unfold rv
            rw [k2]
            exact ru_between_ge (fin_unb he hf).1 (by push_cast; have : (0 : ℝ) ≤ (numOf (rnd F s v) : ℝ) := by exact_mod_cast g3
                                                      linarith)
          · exfalso
            have hne : ((numOf x + numOf (rnd F s v) : ℚ) : ℝ) ≠ 0 := by
              have hx2 : (2 : ℝ) ≤ (numOf x : ℝ) := hz
              have : (0 : ℝ) ≤ (numOf (rnd F s v) : ℝ) := by exact_mod_cast g3
              push_cast; linarith
            have hne2 : roundUnb F .RN ((numOf x + numOf (rnd F s v) : ℚ) : ℝ) ≠ 0 := by
              intro h
              rw [h, abs_zero] at ho2
              exact ho2 (le_trans (Float.zp _).le (omega_ge he))
            have : isInf (fadd F x (rnd F s v)) = true := by
              unfold fadd
              simp only [hf.2.1, g1.2.1, hf.2.2, g1.2.2, Bool.or_self, Bool.false_eq_true, if_false]
              rw [rnd_over hne hne2 ho2]
              unfold infS; split_ifs <;> rfl
            exact absurd hwf.2.2 (by rw [this]; simp)
        · exfalso
          have hne : v ≠ 0 := by
            rintro rfl
            simp [roundUnb] at ho
            exact absurd (le_trans (Float.zp _).le (omega_ge he)) (not_le.2 ho)
          have hne2 : roundUnb F .RN v ≠ 0 := by
            intro h
            rw [h, abs_zero] at ho
            exact ho (le_trans (Float.zp _).le (omega_ge he))
          have hi : rnd F s v = .plusInf := by
            unfold rnd
            rw [if_neg hne, if_neg hne2, if_neg ho]
            simp [infS, not_lt.2 hv]
          rw [hi] at hwf
          have : isInf (fadd F x .plusInf) = true := by
            unfold fadd
            simp only [hf.2.1, hf.2.2, show isNaN .plusInf = false from rfl, show isInf .plusInf = true from rfl, Bool.or_self, Bool.false_eq_true,
              if_false, if_true]
          exact absurd hwf.2.2 (by rw [this]; simp)
      linarith
    refine ⟨fun h => ?_, key⟩
    obtain ⟨w, hw1, hw2⟩ := h
    have := key w hw1
    have h3 := Real.arctan_lt_pi_div_two (rv x)
    have h4 := (abs_le.1 hw2).2
    linarith

theorem cond2_eq (y x : Val) : cond2 y x = xor (sign2 y x) (bound2 y x) := by
  unfold cond2
  cases sign2 y x <;> cases bound2 y x <;> rfl

/-- the result of the two argument function, of the reduced argument and of the selections -/
theorem atan2_near {F : Fmt} (hF : Wide F) {ε : ℝ} (he0 : 0 ≤ ε) (hε : ε ≤ 1 / 8) {P : Val → Val} (hP : Approx F ε P) (y x : Val) {t : ℝ} (ht : 0 ≤ t)
    (h1 : Fin' F (red2 F y x)) (h2 : 0 ≤ rv (red2 F y x)) (h3 : rv (red2 F y x) ≤ 1) (h4 : |rv (red2 F y x) - t| ≤ uu F) :
    Near F (ε + 7 * uu F) (atan2 F P y x)
      (sg (sign2 y x) * part (bound2 y x) t + if fgt x .plusZero then 0 else -(sg (sign2 y x) * pi)) := by
  obtain ⟨c1, c2, _⟩ := combine_near hF he0 hε hP (sign2 y x) (bound2 y x) h1 h2 h3 h4
  have hu := uu_pos F
  have hul := uu_le hF
  rw [near_iff]
  unfold atan2 offset2
  rw [cond2_eq]
  generalize hc : combine F P (xor (sign2 y x) (bound2 y x)) (sign2 y x) (bound2 y x) (red2 F y x) = r at c1 c2 ⊢
  obtain ⟨b1, b2⟩ := part_range (bound := bound2 y x) ht
  generalize sign2 y x = c at c2 ⊢
  generalize part (bound2 y x) t = p at c2 b1 b2 ⊢
  cases fgt x .plusZero
  · simp only [Bool.false_eq_true, if_false]
    obtain ⟨pa, pb⟩ := pi_bd
    have ho : ∃ o : Val, (if c then cst F pi else cst F (-pi)) = o ∧ Fin' F o ∧ |rv o - -(sg c * pi)| ≤ 2 * uu F := by
      cases c
      · have ha : |(-pi)| ≤ 4 := by rw [abs_neg, abs_of_pos] <;> linarith
        obtain ⟨k1, k2⟩ := cst_val hF ha
        refine ⟨cst F (-pi), by simp, k1, ?_⟩
        rw [k2]; simpa [sg] using ru_four hF ha
      · have ha : |pi| ≤ 4 := by rw [abs_of_pos] <;> linarith
        obtain ⟨k1, k2⟩ := cst_val hF ha
        refine ⟨cst F pi, by simp, k1, ?_⟩
        rw [k2]; simpa [sg] using ru_four hF ha
    obtain ⟨o, e, o1, o2⟩ := ho
    rw [e]
    have hT : |sg c * p + -(sg c * pi)| ≤ pi := by
      rw [show sg c * p + -(sg c * pi) = sg c * (p - pi) by ring, abs_mul, sg_abs, one_mul, abs_le]; constructor <;> linarith
    have hd : |(rv r + rv o) - (sg c * p + -(sg c * pi))| ≤ ε + 5 * uu F := by
      rw [show (rv r + rv o) - (sg c * p + -(sg c * pi)) = (rv r - sg c * p) + (rv o - -(sg c * pi)) by ring]
      refine le_trans (abs_add_le _ _) (by linarith)
    have hs : |rv r + rv o| ≤ 4 := by
      rw [show rv r + rv o = ((rv r + rv o) - (sg c * p + -(sg c * pi))) + (sg c * p + -(sg c * pi)) by ring]
      refine le_trans (abs_add_le _ _) (by linarith)
    obtain ⟨r1, r2'⟩ := fadd_val hF.e2 c1 o1 (le_trans hs (four_le hF))
    refine ⟨r1, ?_⟩
    have e3 := ru_four hF hs
    rw [r2', show (roundUnb F .RN (rv r + rv o) : ℝ) - (sg c * p + -(sg c * pi)) =
      ((roundUnb F .RN (rv r + rv o) : ℝ) - (rv r + rv o)) + ((rv r + rv o) - (sg c * p + -(sg c * pi))) by ring]
    refine le_trans (abs_add_le _ _) (by linarith)
  · simp only [if_true]
    obtain ⟨r1, r2'⟩ := add_zero' hF c1 (zero_fin F false).1 (zero_fin F false).2
    change Fin' F (fadd F r (zeroS false)) ∧ |rv (fadd F r (zeroS false)) - (sg c * p + 0)| ≤ _
    refine ⟨r1, ?_⟩
    rw [r2', add_zero]; linarith

/-- the same, of the signs of the operands, where the first coordinate is not `+0` -/
theorem atan2_near' {F : Fmt} (hF : Wide F) {ε : ℝ} (he0 : 0 ≤ ε) (hε : ε ≤ 1 / 8) {P : Val → Val} (hP : Approx F ε P) (y x : Val) {t : ℝ} (ht : 0 ≤ t)
    (hpos : fgt x .plusZero = !neg x)
    (h : Fin' F (red2 F y x) ∧ 0 ≤ rv (red2 F y x) ∧ rv (red2 F y x) ≤ 1 ∧ |rv (red2 F y x) - t| ≤ uu F) :
    Near F (ε + 7 * uu F) (atan2 F P y x) (sg (neg y) * if neg x then pi - part (bound2 y x) t else part (bound2 y x) t) := by
  have := atan2_near hF he0 hε hP y x ht h.1 h.2.1 h.2.2.1 h.2.2.2
  rw [hpos] at this
  convert this using 1
  unfold sign2 sgn
  cases neg x <;> cases neg y <;> simp [sg] <;> ring

theorem pos_fin {F : Fmt} {x : Val} (h : F.Datum x) (hn : ¬ Special.IsNaN x) (h0 : x ≠ .plusZero) : fgt x .plusZero = !neg x := by
  cases x <;> simp_all [Special.IsNaN] <;> try rfl
  rename_i v
  have e : fgt (.num v) .plusZero = decide (0 < v) := by
    have : fgt (.num v) .plusZero = (decide (0 ≤ v) && !decide (v ≤ 0)) := rfl
    rw [this]
    by_cases h1 : 0 < v
    · simp [h1, h1.le]
    · simp [h1, not_lt.1 h1]
  rw [e]
  have hv : v ≠ 0 := h.2
  by_cases h1 : v < 0
  · simp [neg, h1, h1.le]
  · simp [neg, h1, lt_of_le_of_ne (not_lt.1 h1) hv.symm]

theorem fabs_fin' {F : Fmt} {a : Val} (h : Fin' F a) : Fin' F (fabs a) ∧ rv (fabs a) = |rv a| := by
  have hn : rv (fabs a) = |rv a| := by
    unfold fabs sgn
    cases a <;> simp [neg, rv, numOf, fneg]
    rename_i v
    by_cases h1 : v < 0
    · have : (v : ℝ) < 0 := by exact_mod_cast h1
      simp [h1, abs_of_neg this]
    · have : (0 : ℝ) ≤ v := by exact_mod_cast not_lt.1 h1
      simp [h1, abs_of_nonneg this]
  refine ⟨?_, hn⟩
  unfold fabs; split_ifs
  · exact (fneg_fin h).1
  · exact h

theorem bound2_fin {F : Fmt} {y x : Val} (hy : Fin' F y) (hx : Fin' F x) : bound2 y x = decide (|rv x| < |rv y|) := by
  unfold bound2 fgt
  rw [flt_fin (fabs_fin' hx).1 (fabs_fin' hy).1, ← (fabs_fin' hx).2, ← (fabs_fin' hy).2]
  unfold rv
  congr 1
  exact propext (by exact_mod_cast Iff.rfl)

/-- the reduced argument of two finite operands which are not both zero -/
theorem red2_fin {F : Fmt} (hF : Wide F) {y x : Val} (hy : Fin' F y) (hx : Fin' F x) (h0 : rv x ≠ 0 ∨ rv y ≠ 0) :
    let t := if |rv x| < |rv y| then |rv x| / |rv y| else |rv y| / |rv x|
    0 ≤ t ∧ Fin' F (red2 F y x) ∧ 0 ≤ rv (red2 F y x) ∧ rv (red2 F y x) ≤ 1 ∧ |rv (red2 F y x) - t| ≤ uu F := by
  intro t
  refine ⟨by simp only [t]; split_ifs <;> positivity, ?_⟩
  simp only [t]
  unfold red2
  rw [bound2_fin hy hx]
  by_cases h : |rv x| < |rv y|
  · simp only [h, decide_true, if_true]
    have := quot hF (fabs_fin' hx).1 (fabs_fin' hy).1 (by rw [(fabs_fin' hx).2]; positivity)
      (by rw [(fabs_fin' hy).2]; exact lt_of_le_of_lt (abs_nonneg _) h) (by rw [(fabs_fin' hx).2, (fabs_fin' hy).2]; exact h.le)
    rw [(fabs_fin' hx).2, (fabs_fin' hy).2] at this
    exact this
  · simp only [h, decide_false, Bool.false_eq_true, if_false]
    have hx0 : 0 < |rv x| := by
      rcases h0 with h0 | h0
      · exact abs_pos.2 h0
      · exact lt_of_lt_of_le (abs_pos.2 h0) (not_lt.1 h)
    have := quot hF (fabs_fin' hy).1 (fabs_fin' hx).1 (by rw [(fabs_fin' hy).2]; positivity)
      (by rw [(fabs_fin' hx).2]; exact hx0) (by rw [(fabs_fin' hx).2, (fabs_fin' hy).2]; exact not_lt.1 h)
    rw [(fabs_fin' hx).2, (fabs_fin' hy).2] at this
    exact this

theorem arg_quad {a b : ℝ} (ha : a ≠ 0) (hb : b ≠ 0) :
    Complex.arg ⟨a, b⟩ = sg (decide (b < 0)) * if a < 0 then pi - arctan (|b| / |a|) else arctan (|b| / |a|) := by
  have pos : ∀ a b : ℝ, 0 < a → Complex.arg ⟨a, b⟩ = arctan (b / a) := by
    intro a b ha
    have h1 : |Complex.arg ⟨a, b⟩| < pi / 2 := Complex.abs_arg_lt_pi_div_two_iff.2 (Or.inl ha)
    have h2 := Complex.tan_arg ⟨a, b⟩
    obtain ⟨h3, h4⟩ := abs_lt.1 h1
    rw [← h2, Real.arctan_tan h3 h4]
  by_cases h : a < 0
  · have hn : (⟨a, b⟩ : ℂ) = -⟨-a, -b⟩ := by apply Complex.ext <;> simp
    have hp := pos (-a) (-b) (by linarith)
    rw [if_pos h, abs_of_neg h]
    by_cases hb0 : b < 0
    · have := Complex.arg_neg_eq_arg_sub_pi_of_im_pos (x := ⟨-a, -b⟩) (by simpa using hb0)
      rw [hn, this, hp, decide_eq_true hb0, abs_of_neg hb0]; simp [sg]
    · have hb1 : 0 < b := lt_of_le_of_ne (not_lt.1 hb0) hb.symm
      have := Complex.arg_neg_eq_arg_add_pi_of_im_neg (x := ⟨-a, -b⟩) (by simpa using hb1)
      rw [hn, this, hp, decide_eq_false hb0, abs_of_pos hb1, neg_div, Real.arctan_neg]; simp [sg]; ring
  · have ha1 : 0 < a := lt_of_le_of_ne (not_lt.1 h) ha.symm
    rw [if_neg h, abs_of_pos ha1, pos a b ha1]
    by_cases hb0 : b < 0
    · rw [decide_eq_true hb0, abs_of_neg hb0, neg_div, Real.arctan_neg]; simp [sg]
    · rw [decide_eq_false hb0, abs_of_nonneg (not_lt.1 hb0)]; simp [sg]

theorem neg_num {F : Fmt} {x : Val} (h : Fin' F x) (h0 : rv x ≠ 0) : neg x = decide (rv x < 0) := by
  have hn : numOf x ≠ 0 := by unfold rv at h0; exact_mod_cast h0
  rw [fin_num_ne h hn]
  simp only [neg, rv]
  congr 1
  exact propext (by simp [numOf])

theorem zero_cases {F : Fmt} {x : Val} (h : Fin' F x) (h0 : rv x = 0) : x = .plusZero ∨ x = .minusZero := by
  obtain ⟨h1, h2, h3⟩ := h
  cases x <;> simp_all [isNaN, isInf, rv, numOf, Fmt.Datum]

theorem fabs_inf {x : Val} (h : isInf x = true) : fabs x = .plusInf := by
  cases x <;> simp_all [isInf, fabs, sgn, neg, fneg]

theorem fin_lt_inf {F : Fmt} {x : Val} (h : Fin' F x) : flt x .plusInf = true ∧ flt .plusInf x = false := by
  obtain ⟨_, h2, h3⟩ := h
  cases x <;> simp_all [isNaN, isInf] <;> constructor <;> rfl

theorem fdiv_inf {F : Fmt} {a : Val} (h : Fin' F a) : ∃ s, fdiv F a .plusInf = zeroS s := by
  refine ⟨xor (sgn a) (sgn .plusInf), ?_⟩
  unfold fdiv
  simp only [h.2.1, h.2.2, show isNaN .plusInf = false from rfl, show isInf .plusInf = true from rfl, Bool.or_self, Bool.false_eq_true, if_false,
    if_true]

/-- **C93 (partial).** Let `P` evaluate the arc tangent on `[0, 1]` with an absolute error at most `ε ≤ 1/8`. For all data `y` and `x` that are no NaN,
where `x` is not `+0`, and `y` and `x` are not both zero and not both infinite, the generated `atan2(y, x)` is a finite number within `ε` and seven half
units in the last place of 1 of the angle of C99, in all the quadrants, on the axes and at the infinities. Missing: the excluded operands, on which the
function is wrong (`C93_plus_zero_wrong`, `C93_invalid_wrong`), and the sign of a null result (`C93_minus_zero_wrong`). -/
theorem C93_atan2_partial {F : Fmt} (hF : Wide F) {ε : ℝ} (he0 : 0 ≤ ε) (hε : ε ≤ 1 / 8) {P : Val → Val} (hP : Approx F ε P) {y x : Val}
    (hy : F.Datum y) (hx : F.Datum x) (hyn : ¬ Special.IsNaN y) (hxn : ¬ Special.IsNaN x) (h0 : x ≠ .plusZero)
    (hz : ¬ (Special.IsZero y ∧ Special.IsZero x)) (hi : ¬ (Special.IsInf y ∧ Special.IsInf x)) :
    Near F (ε + 7 * (2 : ℝ) ^ (-(F.f : ℤ) - 1)) (atan2 F P y x) (angle y x) := by
  change Near F (ε + 7 * uu F) _ _
  have hpos := pos_fin hx hxn h0
  have hyn' : isNaN y = false := by cases y <;> simp_all [isNaN, Special.IsNaN]
  have hxn' : isNaN x = false := by cases x <;> simp_all [isNaN, Special.IsNaN]
  have hs : ∀ v : Val, (if neg v then (-1 : ℝ) else 1) = sg (neg v) := fun v => rfl
  by_cases iy : isInf y = true
  · have ix : isInf x = false := by
      cases hxx : isInf x
      · rfl
      · exact absurd ⟨by cases y <;> simp_all [isInf, Special.IsInf], by cases x <;> simp_all [isInf, Special.IsInf]⟩ hi
    have fx : Fin' F x := ⟨hx, hxn', ix⟩
    have hb : bound2 y x = true := by unfold bound2 fgt; rw [fabs_inf iy]; exact (fin_lt_inf (fabs_fin' fx).1).1
    have hr : ∃ s, red2 F y x = zeroS s := by unfold red2; rw [hb]; simp only [if_true]; rw [fabs_inf iy]; exact fdiv_inf (fabs_fin' fx).1
    obtain ⟨s, hr⟩ := hr
    have := atan2_near' hF he0 hε hP y x le_rfl hpos (by rw [hr]; exact zero_red s)
    rw [hb] at this
    convert this using 1
    have fy : finVal y = none := by cases y <;> simp_all [isInf, finVal]
    unfold angle
    rw [fy, fin_finVal fx]
    simp only [hs]
    congr 1
    simp only [part, if_true, Real.arctan_zero]
    cases neg x <;> simp; ring
  · have fy : Fin' F y := ⟨hy, hyn', by simpa using iy⟩
    by_cases ix : isInf x = true
    · have hb : bound2 y x = false := by unfold bound2 fgt; rw [fabs_inf ix]; exact (fin_lt_inf (fabs_fin' fy).1).2
      have hr : ∃ s, red2 F y x = zeroS s := by
        unfold red2; rw [hb]; simp only [Bool.false_eq_true, if_false]; rw [fabs_inf ix]; exact fdiv_inf (fabs_fin' fy).1
      obtain ⟨s, hr⟩ := hr
      have := atan2_near' hF he0 hε hP y x le_rfl hpos (by rw [hr]; exact zero_red s)
      rw [hb] at this
      convert this using 1
      have fx : finVal x = none := by cases x <;> simp_all [isInf, finVal]
      unfold angle
      rw [fx, fin_finVal fy]
      simp only [hs]
      cases neg x <;> simp [part]
    · have fx : Fin' F x := ⟨hx, hxn', by simpa using ix⟩
      have hz' : rv x ≠ 0 ∨ rv y ≠ 0 := by
        by_contra hc
        push Not at hc
        refine hz ⟨?_, ?_⟩
        · rcases zero_cases fy hc.2 with e | e <;> rw [e] <;> rfl
        · rcases zero_cases fx hc.1 with e | e <;> rw [e] <;> rfl
      obtain ⟨ht, hr⟩ := red2_fin hF fy fx hz'
      have := atan2_near' hF he0 hε hP y x ht hpos hr
      rw [bound2_fin fy fx] at this
      convert this using 1
      unfold angle
      rw [fin_finVal fy, fin_finVal fx]
      simp only [hs]
      have hnum : ∀ v : Val, (numOf v : ℝ) = rv v := fun _ => rfl
      simp only [hnum]
      by_cases hx0 : rv x = 0
      · have hy0 : rv y ≠ 0 := by rcases hz' with h | h; exacts [absurd hx0 h, h]
        have hyq : numOf y ≠ 0 := by intro h; apply hy0; rw [rv, h]; simp
        have hlt : |rv x| < |rv y| := by rw [hx0, abs_zero]; exact abs_pos.2 hy0
        have hm : x = .minusZero := by rcases zero_cases fx hx0 with e | e; exacts [absurd e h0, e]
        rw [if_neg hyq]
        simp only [hlt, decide_true, if_true]
        rw [hx0, abs_zero, zero_div, hm, neg_num fy hy0]
        simp only [part, neg, if_true, Real.arctan_zero, sub_zero]
        by_cases hyl : rv y < 0
        · have : (⟨0, rv y⟩ : ℂ) = -((-rv y : ℝ) * Complex.I) := by apply Complex.ext <;> simp
          have h2 : Complex.arg ⟨0, rv y⟩ = -(pi / 2) := by
            rw [Complex.arg_eq_neg_pi_div_two_iff]; exact ⟨rfl, hyl⟩
          rw [h2, decide_eq_true hyl]; simp [sg]; ring
        · have hyp : 0 < rv y := lt_of_le_of_ne (not_lt.1 hyl) hy0.symm
          have h2 : Complex.arg ⟨0, rv y⟩ = pi / 2 := by
            rw [Complex.arg_eq_pi_div_two_iff]; exact ⟨rfl, hyp⟩
          rw [h2, decide_eq_false hyl]; simp [sg]; ring
      · by_cases hy0 : rv y = 0
        · have hyq : numOf y = 0 := by unfold rv at hy0; exact_mod_cast hy0
          have hlt : ¬ |rv x| < |rv y| := by rw [hy0, abs_zero]; exact not_lt.2 (abs_nonneg _)
          rw [if_pos hyq]
          simp only [hlt, decide_false, Bool.false_eq_true, if_false]
          rw [hy0, abs_zero, zero_div]
          cases neg x <;> simp [part]
        · have hyq : numOf y ≠ 0 := by intro h; apply hy0; rw [rv, h]; simp
          rw [if_neg hyq, arg_quad hx0 hy0, neg_num fx hx0, neg_num fy hy0, arctan_part (abs_nonneg _) (abs_pos.2 hx0)]
          simp only [decide_eq_true_eq]

/-- the hypotheses of `C93_atan2_partial` are met in binary32: the angle of `(-0, -inf)` is `-π/2` -/
example : Near ⟨8, 23⟩ (uu ⟨8, 23⟩ + 7 * (2 : ℝ) ^ (-(23 : ℤ) - 1)) (atan2 ⟨8, 23⟩ (fun r => cst ⟨8, 23⟩ (arctan (rv r))) .minusInf .minusZero) (-(pi / 2)) := by
  have hF : Wide ⟨8, 23⟩ := ⟨by decide, by decide, by decide⟩
  have := C93_atan2_partial hF (uu_pos _).le (le_trans (uu_le hF) (by norm_num)) (approx_exists hF) (y := .minusInf) (x := .minusZero) trivial trivial
    (by simp [Special.IsNaN]) (by simp [Special.IsNaN]) (by simp) (by simp [Special.IsZero, finVal]) (by simp [Special.IsInf])
  have e : angle .minusInf .minusZero = -(pi / 2) := by simp [angle, finVal, neg]
  rw [e] at this
  exact this

/-- **C93, disagreement.** For `x = +0` and every `y` that is neither null nor a NaN, infinite or finite, the documented angle is `±π/2` with the sign
of `y`; the generated function returns the opposite angle, up to the error of the other cases. -/
theorem C93_plus_zero_wrong {F : Fmt} (hF : Wide F) {ε : ℝ} (he0 : 0 ≤ ε) (hε : ε ≤ 1 / 8) {P : Val → Val} (hP : Approx F ε P) {y : Val}
    (hy : F.Datum y) (hyn : ¬ Special.IsNaN y) (hz : ¬ Special.IsZero y) :
    |angle y .plusZero| = pi / 2 ∧ Near F (ε + 7 * (2 : ℝ) ^ (-(F.f : ℤ) - 1)) (atan2 F P y .plusZero) (-angle y .plusZero) := by
  change _ ∧ Near F (ε + 7 * uu F) _ _
  have hyn' : isNaN y = false := by cases y <;> simp_all [isNaN, Special.IsNaN]
  have fx : Fin' F .plusZero := (zero_fin F false).1
  have rx : rv .plusZero = 0 := (zero_fin F false).2
  have hb : bound2 y .plusZero = true ∧ ∃ s, Fin' F (red2 F y .plusZero) ∧ rv (red2 F y .plusZero) = rv (zeroS s) := by
    by_cases iy : isInf y = true
    · have hb : bound2 y .plusZero = true := by unfold bound2 fgt; rw [fabs_inf iy]; rfl
      refine ⟨hb, ?_⟩
      have hr : ∃ s, red2 F y .plusZero = zeroS s := by unfold red2; rw [hb]; simp only [if_true]; rw [fabs_inf iy]; exact fdiv_inf (fabs_fin' fx).1
      obtain ⟨s, hr⟩ := hr
      exact ⟨s, by rw [hr]; exact (zero_fin F s).1, by rw [hr]⟩
    · have fy : Fin' F y := ⟨hy, hyn', by simpa using iy⟩
      have hy0 : rv y ≠ 0 := by
        intro h
        rcases zero_cases fy h with e | e <;> rw [e] at hz <;> exact hz rfl
      have hlt : |rv .plusZero| < |rv y| := by rw [rx, abs_zero]; exact abs_pos.2 hy0
      have hb : bound2 y .plusZero = true := by rw [bound2_fin fy fx, decide_eq_true hlt]
      refine ⟨hb, false, ?_⟩
      unfold red2
      rw [hb]
      simp only [if_true]
      obtain ⟨a1, a2⟩ := fabs_fin' fy
      obtain ⟨b1, b2⟩ := fabs_fin' fx
      rw [rx, abs_zero] at b2
      obtain ⟨d1, d2⟩ := fdiv_val hF.e2 b1 a1 (by rw [a2]; exact abs_ne_zero.2 hy0) (by rw [b2, zero_div, abs_zero]; have := four_le hF; linarith)
      refine ⟨d1, ?_⟩
      rw [d2, b2, zero_div, (zero_fin F false).2]
      simp [roundUnb]
  obtain ⟨hb, s, hr, hr0⟩ := hb
  obtain ⟨_, z2, z3, z4⟩ := zero_red (F := F) s
  have := atan2_near hF he0 hε hP y .plusZero le_rfl hr (by rw [hr0]; exact z2) (by rw [hr0]; exact z3) (by rw [hr0]; exact z4)
  have hang : angle y .plusZero = sg (neg y) * (pi / 2) := by
    unfold angle
    by_cases iy : isInf y = true
    · have fy : finVal y = none := by cases y <;> simp_all [isInf, finVal]
      rw [fy]; rfl
    · have fy : Fin' F y := ⟨hy, hyn', by simpa using iy⟩
      have hy0 : rv y ≠ 0 := by
        intro h
        rcases zero_cases fy h with e | e <;> rw [e] at hz <;> exact hz rfl
      have hyq : numOf y ≠ 0 := by intro h; apply hy0; rw [rv, h]; simp
      rw [fin_finVal fy, neg_num fy hy0]
      simp only [finVal, if_neg hyq]
      by_cases hyl : rv y < 0
      · have h2 : Complex.arg ⟨0, rv y⟩ = -(pi / 2) := by rw [Complex.arg_eq_neg_pi_div_two_iff]; exact ⟨rfl, hyl⟩
        have h3 : Complex.arg ⟨((0 : ℚ) : ℝ), (numOf y : ℝ)⟩ = Complex.arg ⟨0, rv y⟩ := by rw [Rat.cast_zero]; rfl
        rw [h3, h2, decide_eq_true hyl]; simp [sg]
      · have hyp : 0 < rv y := lt_of_le_of_ne (not_lt.1 hyl) hy0.symm
        have h2 : Complex.arg ⟨0, rv y⟩ = pi / 2 := by rw [Complex.arg_eq_pi_div_two_iff]; exact ⟨rfl, hyp⟩
        have h3 : Complex.arg ⟨((0 : ℚ) : ℝ), (numOf y : ℝ)⟩ = Complex.arg ⟨0, rv y⟩ := by rw [Rat.cast_zero]; rfl
        rw [h3, h2, decide_eq_false hyl]; simp [sg]
  refine ⟨by rw [hang, abs_mul, sg_abs, one_mul, abs_of_pos]; have := pi_bd; linarith, ?_⟩
  rw [hb] at this
  convert this using 1
  rw [hang]
  have hp : fgt .plusZero .plusZero = false := rfl
  rw [hp]
  simp only [part, if_true, Real.arctan_zero, Bool.false_eq_true, if_false, sign2, sgn, neg, Bool.false_xor]
  ring

/-- the hypotheses of `C93_plus_zero_wrong` are met in binary32 at `atan2(1, +0)` -/
example : Near ⟨8, 23⟩ (uu ⟨8, 23⟩ + 7 * (2 : ℝ) ^ (-(23 : ℤ) - 1)) (atan2 ⟨8, 23⟩ (fun r => cst ⟨8, 23⟩ (arctan (rv r))) (.num 1) .plusZero) (-(pi / 2)) := by
  have hF : Wide ⟨8, 23⟩ := ⟨by decide, by decide, by decide⟩
  have := (C93_plus_zero_wrong hF (uu_pos _).le (le_trans (uu_le hF) (by norm_num)) (approx_exists hF) (y := .num 1) ⟨unbOne hF, by norm_num⟩
    (by simp [Special.IsNaN]) (by simp [Special.IsZero, finVal])).2
  have e : angle (.num 1) .plusZero = pi / 2 := by
    have : Complex.arg ⟨((0 : ℚ) : ℝ), ((1 : ℚ) : ℝ)⟩ = pi / 2 := by rw [Complex.arg_eq_pi_div_two_iff]; norm_num
    simpa [angle, finVal] using this
  rw [e] at this
  exact this

/-- **C93, disagreement.** `atan2(-0, x)` is documented to return `-0` for `x > 0`. The generated function returns `+0` for every positive number `x`, for
every approximation that returns a zero at zero. -/
theorem C93_minus_zero_wrong (F : Fmt) (P : Val → Val) (h : P .plusZero = .plusZero ∨ P .plusZero = .minusZero) {v : ℚ} (hv : 0 < v) :
    atan2 F P .minusZero (.num v) = .plusZero := by
  have h1 : sgn (.num v) = false := by simp [sgn, neg, hv.le]
  have hf : fabs (.num v) = .num v := by unfold fabs; rw [h1]; rfl
  have hf0 : fabs .minusZero = .plusZero := rfl
  have hb : bound2 .minusZero (.num v) = false := by
    unfold bound2 fgt flt
    rw [hf, hf0]
    have : cLe (.num v) .plusZero = decide (v ≤ 0) := rfl
    rw [this, decide_eq_false (not_le.2 hv)]; rfl
  have hs : sign2 .minusZero (.num v) = true := by unfold sign2; rw [h1]; rfl
  have hr : red2 F .minusZero (.num v) = .plusZero := by
    unfold red2
    rw [hb]
    simp only [Bool.false_eq_true, if_false]
    rw [hf0, hf]
    unfold fdiv
    simp [isNaN, isInf, isZero, hv.ne', rnd, numOf, zeroS, h1]
    rfl
  have hp : fgt (.num v) .plusZero = true := by
    have : fgt (.num v) .plusZero = (decide (0 ≤ v) && !decide (v ≤ 0)) := rfl
    rw [this, decide_eq_true hv.le, decide_eq_false (not_le.2 hv)]; rfl
  unfold atan2 combine offset2
  rw [cond2_eq, hb, hs, hr, hp]
  rcases h with h | h <;> rw [h] <;>
    simp [pm, fadd, fmul, isNaN, isInf, rnd, numOf, zeroS, sgn, neg]

/-- **C93, disagreement.** `atan2` of two zeros and of two infinities is documented (`±0`, `±π`, `±π/4`, `±3π/4`). The generated function divides them: for
an approximation that hands a NaN on, it returns a NaN in all the eight cases. -/
theorem C93_invalid_wrong (F : Fmt) (P : Val → Val) (h : P .qNaN = .qNaN) (y x : Val)
    (hz : (y = .plusZero ∨ y = .minusZero) ∧ (x = .plusZero ∨ x = .minusZero) ∨ (y = .plusInf ∨ y = .minusInf) ∧ (x = .plusInf ∨ x = .minusInf)) :
    atan2 F P y x = .qNaN := by
  have hn : ∀ a, fadd F a .qNaN = .qNaN := fun a => by unfold fadd; simp [isNaN]
  have hn' : ∀ a, fadd F .qNaN a = .qNaN := fun a => by unfold fadd; simp [isNaN]
  have hm : ∀ a, fmul F a .qNaN = .qNaN := fun a => by unfold fmul; simp [isNaN]
  have hr : red2 F y x = .qNaN := by
    rcases hz with ⟨rfl | rfl, rfl | rfl⟩ | ⟨rfl | rfl, rfl | rfl⟩ <;> rfl
  unfold atan2 combine
  rw [hr, h, hm, hn, hn']

end Verif.Atan
