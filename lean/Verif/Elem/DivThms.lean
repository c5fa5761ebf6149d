import Verif.Elem.Div
import Verif.Elem.ExpThms

/-! # The generated division: accuracy of seeds, special operands, wrong cases (property C78) -/

namespace Verif.Elem

open Verif.Float (Fmt Val)
open Verif.Check
open Verif.Special (IsNaN IsInf IsZero finVal neg)

/-- a seed as good as the format allows -/
noncomputable def bestSeed (F : Fmt) (a : Val) : Val := cst F (1 / (numOf a : ℝ))

theorem bestSeed_ok {F : Fmt} (B : Big F) : ∀ a y, IsReal F a y → 1 ≤ |y| → |y| < 4 → ∃ r, IsReal F (bestSeed F a) r ∧ |y * r - 1| ≤ 2 * uu F := by
  intro a y hy h1 h2
  have he := B.he2
  have hu := B.u_small
  have hu0 := uu_pos F
  have hee := B.ee_le
  obtain ⟨ha, rfl⟩ := isReal_rv.1 hy
  have h0 : rv a ≠ 0 := by intro h; rw [h, abs_zero] at h1; linarith
  have hb : |1 / rv a| ≤ 1 := by rw [abs_div, abs_one, div_le_one (by linarith)]; exact h1
  obtain ⟨c1, c2⟩ := cst_fin (F := F) he (x := 1 / rv a) (ru_no_over he (le_trans hb (by have := B.emax_ge; linarith)))
  obtain ⟨d, n, hd, hn, e⟩ := ru_split F (1 / rv a)
  refine ⟨_, isReal_rv.2 ⟨c1, rfl⟩, ?_⟩
  have e2 : rv (cst F (1 / rv a)) = 1 / rv a * (1 + d) + n := by unfold rv at c2 ⊢; rw [c2]; exact e
  show |rv a * rv (cst F (1 / rv a)) - 1| ≤ _
  rw [e2, show rv a * (1 / rv a * (1 + d) + n) - 1 = d + rv a * n by field_simp; ring]
  refine le_trans (aa hd (am h2.le (le_trans hn hee))) ?_
  nlinarith

/-- The hypotheses are met in binary32 with two iterations and a seed of relative error `2^-7`, in binary64 with three. -/
example (sub : Val) : ∀ a b x y, IsReal ⟨8, 23⟩ a x → IsReal ⟨8, 23⟩ b y → (2 : ℝ) ^ (-126 : ℤ) ≤ |x| → (2 : ℝ) ^ (-126 : ℤ) ≤ |y| →
    (2 : ℝ) ^ (-125 : ℤ) ≤ |x / y| → |x / y| < (2 : ℝ) ^ (126 : ℤ) →
    Faithful ⟨8, 23⟩ (x / y) (divModel ⟨8, 23⟩ (bestSeed ⟨8, 23⟩) 2 sub a b) := by
  intro a b x y hx hy h1 h2 h3 h4
  have B : Big ⟨8, 23⟩ := ⟨by norm_num, by norm_num [Fmt.emax]⟩
  refine C78_div_faithful_partial B.hf B.hm (t := 1 / 128) (by norm_num) (fun a y ha hy1 hy2 => ?_) ?_ sub hx hy h1 h2 h3 h4
  · obtain ⟨r, hr1, hr2⟩ := bestSeed_ok B a y ha hy1 hy2
    exact ⟨r, hr1, le_trans hr2 (by have := B.u_small; linarith)⟩
  · norm_num

example (sub : Val) : ∀ a b x y, IsReal ⟨11, 52⟩ a x → IsReal ⟨11, 52⟩ b y → (2 : ℝ) ^ (-1022 : ℤ) ≤ |x| → (2 : ℝ) ^ (-1022 : ℤ) ≤ |y| →
    (2 : ℝ) ^ (-1021 : ℤ) ≤ |x / y| → |x / y| < (2 : ℝ) ^ (1022 : ℤ) →
    Faithful ⟨11, 52⟩ (x / y) (divModel ⟨11, 52⟩ (bestSeed ⟨11, 52⟩) 3 sub a b) := by
  intro a b x y hx hy h1 h2 h3 h4
  have B : Big ⟨11, 52⟩ := ⟨by norm_num, by norm_num [Fmt.emax]⟩
  refine C78_div_faithful_partial B.hf B.hm (t := 1 / 128) (by norm_num) (fun a y ha hy1 hy2 => ?_) ?_ sub hx hy h1 h2 h3 h4
  · obtain ⟨r, hr1, hr2⟩ := bestSeed_ok B a y ha hy1 hy2
    exact ⟨r, hr1, le_trans hr2 (by have := B.u_small; linarith)⟩
  · norm_num

/-- C78.  The operands whose quotient does not depend on rounding give the IEEE-754 result, unless a zero is divided by a negative operand. -/
theorem C78_div_special_partial (F : Fmt) (seed : Val → Val) (n : ℕ) (sub a b : Val) (ha : F.Datum a) (hb : F.Datum b) (h : ¬ (IsZero a ∧ neg b = true)) :
    DivSpecial a b (divModel F seed n sub a b) := by
  constructor
  · intro h1
    cases a <;> cases b <;> simp_all [IsNaN, divModel, isInfOrNaN, isNaN, isInf, isZero, Fmt.Datum]
  · intro h1
    cases a <;> cases b <;> simp_all [IsInf, IsZero, finVal, divModel, isInfOrNaN, isNaN, isInf, isZero, Fmt.Datum]
  · intro h1 h2
    cases a <;> cases b <;> simp_all [IsInf, IsZero, finVal, divModel, isInfOrNaN, isNaN, isInf, isZero, Fmt.Datum, infS, sgn]
  · intro h1 h2
    cases a <;> cases b <;> simp_all [IsInf, IsZero, finVal, divModel, isInfOrNaN, isNaN, isInf, isZero, Fmt.Datum, infS, sgn]
  · intro h1 h2
    cases a <;> cases b <;> simp_all [IsInf, IsZero, finVal, divModel, isInfOrNaN, isNaN, isInf, isZero, Fmt.Datum, zeroS, sgn, neg]
  · intro h1 h2
    cases a <;> cases b <;> simp_all [IsInf, IsZero, finVal, divModel, isInfOrNaN, isNaN, isInf, isZero, Fmt.Datum, zeroS, sgn, neg]

example (seed : Val → Val) (n : ℕ) (sub : Val) : divModel ⟨8, 23⟩ seed n sub (.num (-1)) .plusZero = .minusInf :=
  (C78_div_special_partial ⟨8, 23⟩ seed n sub (.num (-1)) .plusZero
    ⟨⟨-2 ^ 23, 0, by norm_num, by norm_num [Fmt.emin, Fmt.emax], by norm_num [Fmt.emax], by norm_num⟩, by norm_num⟩ trivial (by simp [IsZero, finVal])).byZero
    (by simp [IsZero, finVal]) ⟨-1, by simp [finVal]⟩ |>.trans (by norm_num [neg])

/-- C78, wrong.  A zero divided by a negative number or by `-inf` keeps its sign, whatever the format, the seed and the number of iterations. -/
theorem C78_div_zero_sign_wrong (F : Fmt) (seed : Val → Val) (n : ℕ) (sub a b : Val) (ha : F.Datum a) (hb : F.Datum b) (h1 : IsZero a) (h2 : neg b = true)
    (h3 : ¬ IsZero b) : divModel F seed n sub a b = a ∧ ¬ DivSpecial a b (divModel F seed n sub a b) := by
  have e : divModel F seed n sub a b = a := by
    cases a <;> cases b <;> simp_all [IsInf, IsZero, finVal, divModel, isInfOrNaN, isNaN, isInf, isZero, Fmt.Datum, neg]
  refine ⟨e, fun h => ?_⟩
  rw [e] at h
  have hz := h.zero h1
  have hi := h.byInf
  cases a <;> cases b <;> simp_all [IsInf, IsZero, finVal, Fmt.Datum, neg]

example : neg .minusInf = true ∧ ¬ IsZero .minusInf ∧ IsZero .plusZero := by simp [neg, IsZero, finVal]

theorem scale_over {F : Fmt} (he : 2 ≤ F.e) {j : ℤ} (h1 : F.emin ≤ j) (h2 : j ≤ F.emax) {k : ℤ} (h3 : F.emin ≤ k) (h4 : k ≤ F.emax) (h : F.emax + 1 ≤ j + k) :
    fmul F (insExp F j) (insExp F k) = .plusInf := by
  rw [insExp_eq he h1 h2, insExp_eq he h3 h4, fmul_pos_num F (Float.zp _).le (Float.zp _).le, ← Float.zadd]
  apply rnd_overflow he
  rw [r2cast]; exact_mod_cast Float.zle h

/-- C78, wrong.  In every format, for every seed and every number of iterations, the quotient of `2^(emax-1)` by `3/8`, which is
`4/3 * 2^emax` and has two neighbours in the format, is not faithful: the product of the scaling factors overflows. -/
theorem C78_div_overflow_wrong (F : Fmt) (hf : 10 ≤ F.f) (hm : (F.f : ℤ) + 2 ≤ F.emax) (seed : Val → Val) (n : ℕ) (sub : Val) :
    IsReal F (.num ((2 : ℚ) ^ (F.emax - 1))) ((2 : ℝ) ^ (F.emax - 1)) ∧ IsReal F (.num (3 / 8)) (3 / 8) ∧
    (2 : ℝ) ^ (F.emax - 1) / (3 / 8) < (((2 : ℚ) ^ F.emax * (2 - (2 : ℚ) ^ (-(F.f : ℤ))) : ℚ) : ℝ) ∧
    F.Finite ((2 : ℚ) ^ F.emax * (2 - (2 : ℚ) ^ (-(F.f : ℤ)))) ∧
    ¬ Faithful F ((2 : ℝ) ^ (F.emax - 1) / (3 / 8)) (divModel F seed n sub (.num ((2 : ℚ) ^ (F.emax - 1))) (.num (3 / 8))) := by
  have B : Big F := ⟨hf, hm⟩
  have he := B.he2
  have hemin : F.emin = 1 - F.emax := rfl
  have hpx : (0 : ℚ) < (2 : ℚ) ^ (F.emax - 1) := Float.zp _
  have hx : IsReal F (.num ((2 : ℚ) ^ (F.emax - 1))) ((2 : ℝ) ^ (F.emax - 1)) := by
    refine ⟨⟨(finite_iff he).2 ⟨unb_pow (by omega), ?_⟩, hpx.ne'⟩, by rw [r2cast]; rfl⟩
    rw [abs_of_pos hpx]; exact le_trans (Float.zle (by omega)) (omega_ge he)
  have hy : IsReal F (.num (3 / 8)) (3 / 8) := by
    have hu : Unbounded F (3 / 8) := by
      have := unb_of (F := F) (n := 3) (q := -3) (by
        have : (2 : ℤ) ^ 2 ≤ 2 ^ (F.f + 1) := pow_le_pow_right₀ (by norm_num) (by omega)
        norm_num at this ⊢; omega) (by omega)
      norm_num at this; exact this
    refine ⟨⟨(finite_iff he).2 ⟨hu, abs_le_omega_of he ?_⟩, by norm_num⟩, by simp [value]⟩
    rw [abs_of_pos (by norm_num)]
    exact le_trans (by norm_num) (one_le_zpow₀ (by norm_num : (1 : ℚ) ≤ 2) (by omega : (0 : ℤ) ≤ F.emax))
  have hlt : (2 : ℝ) ^ (F.emax - 1) / (3 / 8) < (((2 : ℚ) ^ F.emax * (2 - (2 : ℚ) ^ (-(F.f : ℤ))) : ℚ) : ℝ) := by
    push_cast
    have h1 : (2 : ℝ) ^ F.emax = 2 * (2 : ℝ) ^ (F.emax - 1) := by rw [show F.emax = 1 + (F.emax - 1) by ring, r2add, zpow_one]; ring_nf
    have h2 : (2 : ℝ) ^ (-(F.f : ℤ)) ≤ (2 : ℝ) ^ (-10 : ℤ) := r2le (by omega)
    have h3 := r2 (F.emax - 1)
    rw [h1]; norm_num at h2 ⊢; nlinarith
  have hfo : F.Finite ((2 : ℚ) ^ F.emax * (2 - (2 : ℚ) ^ (-(F.f : ℤ)))) := by
    rw [← omega_val he]; exact (Float.C02_omega_is_greatest F he).1
  refine ⟨hx, hy, hlt, hfo, ?_⟩
  -- the exponents
  have ex : clampE F (expExtract F (.num ((2 : ℚ) ^ (F.emax - 1)))) = F.emax - 1 := by
    have : expExtract F (.num ((2 : ℚ) ^ (F.emax - 1))) = F.emax - 1 := by
      simp only [expExtract]
      rw [abs_of_pos hpx, if_neg (not_lt.2 (Float.zle (by omega)))]
      exact Int.log_zpow (by norm_num) _
    rw [this]; unfold clampE; omega
  have ey : clampE F (expExtract F (.num (3 / 8))) = -2 := by
    have : expExtract F (.num (3 / 8)) = -2 := by
      simp only [expExtract]
      have h38 : (2 : ℚ) ^ F.emin ≤ 3 / 8 := le_trans (Float.zle (show F.emin ≤ -2 by omega)) (by norm_num)
      rw [abs_of_pos (by norm_num), if_neg (not_lt.2 h38)]
      apply le_antisymm
      · have : Int.log 2 (3 / 8 : ℚ) < -1 := (Int.lt_zpow_iff_log_lt (by norm_num) (by norm_num)).1 (by norm_num)
        omega
      · exact (Int.zpow_le_iff_le_log (by norm_num) (by norm_num)).1 (by norm_num)
    rw [this]; unfold clampE; omega
  have hsc : fmul F (insExp F (F.emax - 1)) (insExp F (-(-2))) = .plusInf := scale_over he (by omega) (by omega) (by omega) (by omega) (by omega)
  have hun : divUnscaled F seed n (.num ((2 : ℚ) ^ (F.emax - 1))) (.num (3 / 8)) =
      fmul F (divReduced F seed n (.num ((2 : ℚ) ^ (F.emax - 1))) (.num (3 / 8))) .plusInf := by
    unfold divUnscaled; rw [ex, ey, hsc]
  have hmod : divModel F seed n sub (.num ((2 : ℚ) ^ (F.emax - 1))) (.num (3 / 8)) =
      fmul F (divReduced F seed n (.num ((2 : ℚ) ^ (F.emax - 1))) (.num (3 / 8))) .plusInf := by
    obtain ⟨hx', -⟩ := isReal_rv.1 hx
    obtain ⟨hy', -⟩ := isReal_rv.1 hy
    obtain ⟨s1, s2⟩ := fin_not_special hx' (by unfold rv numOf; exact_mod_cast hpx.ne')
    obtain ⟨s3, s4⟩ := fin_not_special hy' (by norm_num [rv, numOf])
    unfold divModel
    rw [hun]
    simp only [s1, s2, s3, s4, Bool.false_eq_true, if_false]
    rw [if_neg]
    generalize divReduced F seed n (.num ((2 : ℚ) ^ (F.emax - 1))) (.num (3 / 8)) = q
    unfold fmul
    cases q <;> simp [isNaN, isInf, isZero, isSubnormal, infS, sgn, neg]
    split_ifs <;> simp
  rw [hmod]
  generalize divReduced F seed n (.num ((2 : ℚ) ^ (F.emax - 1))) (.num (3 / 8)) = q
  have hcases : fmul F q .plusInf = .qNaN ∨ fmul F q .plusInf = .plusInf ∨ fmul F q .plusInf = .minusInf := by
    unfold fmul
    cases q <;> simp [isNaN, isInf, isZero, infS, sgn, neg]
    split_ifs <;> simp_all
  rintro ⟨p, hp, h | h⟩
  · rcases hcases with e | e | e <;> rw [e] at hp <;> simp [value] at hp
    · rw [← hp] at h; exact absurd h.1 (by simp)
    · rw [← hp] at h
      have := h.2 (.num (3 / 8)) ((3 / 8 : ℝ) : EReal) hy.1 hy.2 (by
        rw [EReal.coe_le_coe_iff]
        rw [le_div_iff₀ (by norm_num)]
        have : (1 : ℝ) ≤ (2 : ℝ) ^ (F.emax - 1) := one_le_zpow₀ (by norm_num) (by omega)
        linarith)
      exact absurd this (by simp)
  · rcases hcases with e | e | e <;> rw [e] at hp <;> simp [value] at hp
    · rw [← hp] at h
      have := h.2 (.num ((2 : ℚ) ^ F.emax * (2 - (2 : ℚ) ^ (-(F.f : ℤ))))) _ ⟨hfo, by rw [← omega_val he]; exact (lt_of_lt_of_le (Float.zp _) (omega_ge he)).ne'⟩ rfl (by
        rw [EReal.coe_le_coe_iff]; exact hlt.le)
      exact absurd this (not_le.2 (EReal.coe_lt_top _))
    · rw [← hp] at h; exact absurd h.1 (by simp)

/-- a rational between two consecutive powers of two rounds to the given integer multiple of the last place -/
theorem rnd_num {F : Fmt} (he : 2 ≤ F.e) (s : Bool) {z : ℚ} {E n : ℤ} (hE : F.emin ≤ E) (hE2 : E + 1 ≤ F.emax) (h1 : (2 : ℚ) ^ E ≤ |z|)
    (h2 : |z| < (2 : ℚ) ^ (E + 1)) (h : |z - n * (2 : ℚ) ^ (E - F.f)| < (2 : ℚ) ^ (E - F.f - 1)) {v : ℚ} (hv : v = n * (2 : ℚ) ^ (E - F.f)) (h0 : v ≠ 0) :
    rnd F s (z : ℝ) = .num v := by
  have h1R : (2 : ℝ) ^ E ≤ |(z : ℝ)| := by rw [r2cast, ← Rat.cast_abs]; exact_mod_cast h1
  have h2R : |(z : ℝ)| < (2 : ℝ) ^ (E + 1) := by rw [r2cast, ← Rat.cast_abs]; exact_mod_cast h2
  have hR : |(z : ℝ) - n * (2 : ℝ) ^ (E - F.f)| < (2 : ℝ) ^ (E - F.f - 1) := by
    have : ((|z - n * (2 : ℚ) ^ (E - F.f)| : ℚ) : ℝ) < (((2 : ℚ) ^ (E - F.f - 1) : ℚ) : ℝ) := by exact_mod_cast h
    push_cast at this; exact this
  have e := ru_eq hE h1R h2R hR
  obtain ⟨r1, r2'⟩ := rnd_fin he s (x := (z : ℝ)) (ru_no_over he (le_trans h2R.le (r2le hE2)))
  rw [e, ← hv] at r2'
  have := fin_num_ne r1 (by rw [r2']; exact h0)
  rw [this, r2']

theorem fma_num {F : Fmt} (he : 2 ≤ F.e) {a b c : ℚ} {E n : ℤ} (hE : F.emin ≤ E) (hE2 : E + 1 ≤ F.emax) (h1 : (2 : ℚ) ^ E ≤ |a * b + c|)
    (h2 : |a * b + c| < (2 : ℚ) ^ (E + 1)) (h : |a * b + c - n * (2 : ℚ) ^ (E - F.f)| < (2 : ℚ) ^ (E - F.f - 1)) {v : ℚ}
    (hv : v = n * (2 : ℚ) ^ (E - F.f)) (h0 : v ≠ 0) : ffma F (.num a) (.num b) (.num c) = .num v := by
  unfold ffma
  simp only [isNaN, isInf, Bool.or_self, Bool.false_eq_true, if_false]
  exact rnd_num he _ hE hE2 h1 h2 h hv h0

theorem mul_num {F : Fmt} (he : 2 ≤ F.e) {a b : ℚ} {E n : ℤ} (hE : F.emin ≤ E) (hE2 : E + 1 ≤ F.emax) (h1 : (2 : ℚ) ^ E ≤ |a * b|)
    (h2 : |a * b| < (2 : ℚ) ^ (E + 1)) (h : |a * b - n * (2 : ℚ) ^ (E - F.f)| < (2 : ℚ) ^ (E - F.f - 1)) {v : ℚ}
    (hv : v = n * (2 : ℚ) ^ (E - F.f)) (h0 : v ≠ 0) : fmul F (.num a) (.num b) = .num v := by
  unfold fmul
  simp only [isNaN, isInf, Bool.or_self, Bool.false_eq_true, if_false]
  exact rnd_num he _ hE hE2 h1 h2 h hv h0

/-- C78, wrong.  In binary32 with two iterations there is a seed with the accuracy `2^-8`, with which the quotient is faithful by the theorem
above, but the quotient of two numbers in `[1, 2)` is not their correctly rounded quotient. -/
theorem C78_div_rounding_wrong : ∃ seed : Val → Val,
    (∀ a y, IsReal ⟨8, 23⟩ a y → 1 ≤ |y| → |y| < 4 → ∃ r, IsReal ⟨8, 23⟩ (seed a) r ∧ |y * r - 1| ≤ 1 / 256) ∧
    ∀ sub, IsReal ⟨8, 23⟩ (.num (9954437 / 8388608)) (9954437 / 8388608) ∧ IsReal ⟨8, 23⟩ (.num (16777141 / 8388608)) (16777141 / 8388608) ∧
      ¬ RoundsTo ⟨8, 23⟩ (9954437 / 8388608 / (16777141 / 8388608))
        (divModel ⟨8, 23⟩ seed 2 sub (.num (9954437 / 8388608)) (.num (16777141 / 8388608))) := by
  have B : Big ⟨8, 23⟩ := ⟨by norm_num, by norm_num [Fmt.emax]⟩
  have he : 2 ≤ Fmt.e ⟨8, 23⟩ := by norm_num
  have emx : Fmt.emax ⟨8, 23⟩ = 127 := by norm_num [Fmt.emax]
  have emn : Fmt.emin ⟨8, 23⟩ = -126 := by norm_num [Fmt.emin, Fmt.emax]
  have ff : (Fmt.f ⟨8, 23⟩ : ℤ) = 23 := rfl
  have hx : IsReal ⟨8, 23⟩ (.num (9954437 / 8388608)) (9954437 / 8388608) :=
    ⟨⟨⟨9954437, 0, by norm_num, by rw [emn]; norm_num, by rw [emx]; norm_num, by norm_num⟩, by norm_num⟩, by simp [value]⟩
  have hy : IsReal ⟨8, 23⟩ (.num (16777141 / 8388608)) (16777141 / 8388608) :=
    ⟨⟨⟨16777141, 0, by norm_num, by rw [emn]; norm_num, by rw [emx]; norm_num, by norm_num⟩, by norm_num⟩, by simp [value]⟩
  have hs : IsReal ⟨8, 23⟩ (.num (16723659 / 33554432)) (16723659 / 33554432) :=
    ⟨⟨⟨16723659, -2, by norm_num, by rw [emn]; norm_num, by rw [emx]; norm_num, by norm_num⟩, by norm_num⟩, by simp [value]⟩
  refine ⟨fun a => if a = .num (16777141 / 8388608) then .num (16723659 / 33554432) else bestSeed ⟨8, 23⟩ a, ?_, fun sub => ⟨hx, hy, ?_⟩⟩
  · intro a y ha h1 h2
    by_cases hc : a = .num (16777141 / 8388608)
    · simp only [if_pos hc]
      subst hc
      have : y = 16777141 / 8388608 := by
        have := (isReal_rv.1 ha).2; rw [← this, (isReal_rv.1 hy).2]
      subst this
      exact ⟨_, hs, by rw [abs_le]; norm_num⟩
    · simp only [if_neg hc]
      obtain ⟨r, hr1, hr2⟩ := bestSeed_ok B a y ha h1 h2
      exact ⟨r, hr1, le_trans hr2 (by have := B.u_small; linarith)⟩
  · set X : Val := .num (9954437 / 8388608) with hX
    set Y : Val := .num (16777141 / 8388608) with hY
    have ex : clampE ⟨8, 23⟩ (expExtract ⟨8, 23⟩ X) = 0 := by
      have : expExtract ⟨8, 23⟩ X = 0 := by
        simp only [hX, expExtract]
        rw [emn, abs_of_pos (by norm_num), if_neg (by norm_num)]
        apply le_antisymm
        · have : Int.log 2 (9954437 / 8388608 : ℚ) < 1 := (Int.lt_zpow_iff_log_lt (by norm_num) (by norm_num)).1 (by norm_num)
          omega
        · exact (Int.zpow_le_iff_le_log (by norm_num) (by norm_num)).1 (by norm_num)
      rw [this]; unfold clampE; rw [emx]; norm_num
    have ey : clampE ⟨8, 23⟩ (expExtract ⟨8, 23⟩ Y) = 0 := by
      have : expExtract ⟨8, 23⟩ Y = 0 := by
        simp only [hY, expExtract]
        rw [emn, abs_of_pos (by norm_num), if_neg (by norm_num)]
        apply le_antisymm
        · have : Int.log 2 (16777141 / 8388608 : ℚ) < 1 := (Int.lt_zpow_iff_log_lt (by norm_num) (by norm_num)).1 (by norm_num)
          omega
        · exact (Int.zpow_le_iff_le_log (by norm_num) (by norm_num)).1 (by norm_num)
      rw [this]; unfold clampE; rw [emx]; norm_num
    have hone : insExp ⟨8, 23⟩ 0 = .num 1 := by rw [insExp_eq he (by rw [emn]; norm_num) (by rw [emx]; norm_num)]; norm_num
    have sx : fmul ⟨8, 23⟩ X (.num 1) = X :=
      mul_num he (E := 0) (n := 9954437) (by rw [emn]; norm_num) (by rw [emx]; norm_num) (by norm_num [abs_of_pos]) (by norm_num [abs_of_pos]) (by norm_num) (by norm_num) (by norm_num)
    have sy : fmul ⟨8, 23⟩ Y (.num 1) = Y :=
      mul_num he (E := 0) (n := 16777141) (by rw [emn]; norm_num) (by rw [emx]; norm_num) (by norm_num [abs_of_pos]) (by norm_num [abs_of_pos]) (by norm_num) (by norm_num) (by norm_num)
    have h11 : fmul ⟨8, 23⟩ (.num 1) (.num 1) = .num 1 :=
      mul_num he (E := 0) (n := 8388608) (by rw [emn]; norm_num) (by rw [emx]; norm_num) (by norm_num) (by norm_num) (by norm_num) (by norm_num) (by norm_num)
    have t1 : ffma ⟨8, 23⟩ (.num (-(16777141 / 8388608))) (.num (16723659 / 33554432)) (.num 1) = .num (13729731 / 4294967296) :=
      fma_num he (E := -9) (n := 13729731) (by rw [emn]; norm_num) (by rw [emx]; norm_num) (by norm_num [abs_of_pos]) (by norm_num [abs_of_pos])
        (by norm_num [abs_lt]) (by norm_num) (by norm_num)
    have t2 : ffma ⟨8, 23⟩ (.num (13729731 / 4294967296)) (.num (16723659 / 33554432)) (.num (16723659 / 33554432)) = .num (524285 / 1048576) :=
      fma_num he (E := -2) (n := 16777120) (by rw [emn]; norm_num) (by rw [emx]; norm_num) (by norm_num [abs_of_pos]) (by norm_num [abs_of_pos])
        (by norm_num [abs_lt]) (by norm_num) (by norm_num)
    have t3 : ffma ⟨8, 23⟩ (.num (-(16777141 / 8388608))) (.num (524285 / 1048576)) (.num 1) = .num (2801657 / 274877906944) :=
      fma_num he (E := -17) (n := 11206628) (by rw [emn]; norm_num) (by rw [emx]; norm_num) (by norm_num [abs_of_pos]) (by norm_num [abs_of_pos])
        (by norm_num [abs_lt]) (by norm_num) (by norm_num)
    have t4 : ffma ⟨8, 23⟩ (.num (2801657 / 274877906944)) (.num (524285 / 1048576)) (.num (524285 / 1048576)) = .num (8388645 / 16777216) :=
      fma_num he (E := -1) (n := 8388645) (by rw [emn]; norm_num) (by rw [emx]; norm_num) (by norm_num [abs_of_pos]) (by norm_num [abs_of_pos])
        (by norm_num [abs_lt]) (by norm_num) (by norm_num)
    have t5 : fmul ⟨8, 23⟩ (.num (9954437 / 8388608)) (.num (8388645 / 16777216)) = .num (9954481 / 16777216) :=
      mul_num he (E := -1) (n := 9954481) (by rw [emn]; norm_num) (by rw [emx]; norm_num) (by norm_num [abs_of_pos]) (by norm_num [abs_of_pos])
        (by norm_num [abs_lt]) (by norm_num) (by norm_num)
    have t6 : ffma ⟨8, 23⟩ (.num (-(9954481 / 16777216))) (.num (16777141 / 8388608)) (.num (9954437 / 8388608)) = .num (8388571 / 140737488355328) :=
      fma_num he (E := -25) (n := 16777142) (by rw [emn]; norm_num) (by rw [emx]; norm_num) (by norm_num [abs_of_pos]) (by norm_num [abs_of_pos])
        (by norm_num [abs_lt]) (by norm_num) (by norm_num)
    have t7 : ffma ⟨8, 23⟩ (.num (8388571 / 140737488355328)) (.num (8388645 / 16777216)) (.num (9954481 / 16777216)) = .num (9954481 / 16777216) :=
      fma_num he (E := -1) (n := 9954481) (by rw [emn]; norm_num) (by rw [emx]; norm_num) (by norm_num [abs_of_pos]) (by norm_num [abs_of_pos])
        (by norm_num [abs_lt]) (by norm_num) (by norm_num)
    have t8 : fmul ⟨8, 23⟩ (.num (9954481 / 16777216)) (.num 1) = .num (9954481 / 16777216) :=
      mul_num he (E := -1) (n := 9954481) (by rw [emn]; norm_num) (by rw [emx]; norm_num) (by norm_num [abs_of_pos]) (by norm_num [abs_of_pos])
        (by norm_num) (by norm_num) (by norm_num)
    set seed : Val → Val := fun a => if a = .num (16777141 / 8388608) then .num (16723659 / 33554432) else bestSeed ⟨8, 23⟩ a with hseed
    have hsY : seed Y = .num (16723659 / 33554432) := by rw [hseed]; simp only [hY, if_true]
    have hun : divUnscaled ⟨8, 23⟩ seed 2 X Y = .num (9954481 / 16777216) := by
      unfold divUnscaled divReduced
      rw [ex, ey, neg_zero, hone, h11]
      simp only [sx, sy, hsY]
      simp only [recpIter, nrStep, fmsn, reducedDiv, dividendMult, hX, hY, fneg]
      rw [t1, t2, t3, t4, t5]
      simp only [fneg]
      rw [t6, t7, t8]
    have hmod : divModel ⟨8, 23⟩ seed 2 sub X Y = .num (9954481 / 16777216) := by
      obtain ⟨s1, s2⟩ := fin_not_special (isReal_rv.1 hx).1 (by norm_num [rv, numOf])
      obtain ⟨s3, s4⟩ := fin_not_special (isReal_rv.1 hy).1 (by norm_num [rv, numOf])
      unfold divModel
      rw [hun]
      simp only [s1, s2, s3, s4, Bool.false_eq_true, if_false]
      rw [if_neg]
      simp only [isSubnormal, decide_eq_true_eq, not_lt, emn]
      norm_num [abs_of_pos]
    rw [hmod]
    rintro ⟨v, ⟨hv1, hv2, hv3⟩, h | h | h⟩
    · obtain ⟨-, -, h⟩ := h
      obtain rfl : v = 9954481 / 16777216 := by injection h with h; exact h.symm
      have := hv2 (9954482 / 16777216) ⟨9954482, -1, by norm_num, by rw [emn]; norm_num, by norm_num⟩
      push_cast at this
      norm_num [abs_of_pos, abs_of_neg] at this
    · exact absurd h.2 (by split_ifs <;> simp)
    · exact absurd h.2 (by split_ifs <;> simp)

end Verif.Elem
