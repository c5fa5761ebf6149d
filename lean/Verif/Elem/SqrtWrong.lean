import Verif.Elem.SqrtThms

/-! # Roots that are not rounded as they should (property C79) -/

namespace Verif.Elem

open Verif.Float (Fmt Val)
open Verif.Check

/-- the nearest integer, or the even one of the two nearest ones -/
theorem toInt_eqe {y : ℝ} {n : ℤ} (h : |y - n| < 1 / 2 ∨ (|y - n| = 1 / 2 ∧ Even n)) : toInt .RN y = n := by
  rcases h with h | ⟨h, he⟩
  · have h0 := toInt_near y
    set m := toInt .RN y with hm
    have a : |((m - n : ℤ) : ℝ)| < 1 := by
      push_cast
      have := abs_sub_le (m : ℝ) y n
      rw [abs_sub_comm (m : ℝ) y] at this
      linarith
    have : |m - n| < 1 := by exact_mod_cast a
    rw [abs_lt] at this; omega
  · have h0 := toInt_near y
    rcases lt_or_eq_of_le h0 with h1 | h1
    · exfalso
      set m := toInt .RN y with hm
      have a : |((m - n : ℤ) : ℝ)| < 1 := by
        push_cast
        have := abs_sub_le (m : ℝ) y n
        rw [abs_sub_comm (m : ℝ) y] at this
        linarith
      have : |m - n| < 1 := by exact_mod_cast a
      have : m = n := by rw [abs_lt] at this; omega
      rw [this] at h1
      linarith
    · have ht := toInt_tie h1
      set m := toInt .RN y with hm
      have a : |((m - n : ℤ) : ℝ)| ≤ 1 := by
        push_cast
        have := abs_sub_le (m : ℝ) y n
        rw [abs_sub_comm (m : ℝ) y] at this
        linarith
      have : |m - n| ≤ 1 := by exact_mod_cast a
      rw [abs_le] at this
      obtain ⟨i, hi⟩ := ht
      obtain ⟨j, hj⟩ := he
      omega

theorem ru_eqe {F : Fmt} {z : ℚ} {E M n : ℤ} (hM : M = max E F.emin) (h1 : (2 : ℚ) ^ E ≤ |z|) (h2 : |z| < (2 : ℚ) ^ (E + 1))
    (h : |z - n * (2 : ℚ) ^ (M - F.f)| < (2 : ℚ) ^ (M - F.f - 1) ∨ (|z - n * (2 : ℚ) ^ (M - F.f)| = (2 : ℚ) ^ (M - F.f - 1) ∧ Even n)) :
    roundUnb F .RN (z : ℝ) = n * (2 : ℚ) ^ (M - F.f) := by
  have h1R : (2 : ℝ) ^ E ≤ |(z : ℝ)| := by rw [r2cast, ← Rat.cast_abs]; exact_mod_cast h1
  have h2R : |(z : ℝ)| < (2 : ℝ) ^ (E + 1) := by rw [r2cast, ← Rat.cast_abs]; exact_mod_cast h2
  have hz : (z : ℝ) ≠ 0 := by
    intro h0; rw [h0, abs_zero] at h1R; exact absurd h1R (not_le.2 (r2 _))
  have hlog : Int.log 2 |(z : ℝ)| = E := log_eqR h1R h2R
  have hlp : lastPlace F (z : ℝ) = M - F.f := by unfold lastPlace; rw [hlog, ← hM]
  unfold roundUnb
  rw [if_neg hz, hlp]
  congr 2
  have hq := r2 (M - F.f)
  have hhalf : (2 : ℝ) ^ (M - F.f - 1) = (2 : ℝ) ^ (M - F.f) / 2 := by
    rw [show M - (F.f : ℤ) - 1 = (M - F.f) + -1 by ring, r2add]; norm_num; ring
  have key : |(z : ℝ) / (2 : ℝ) ^ (M - F.f) - n| = |(z : ℝ) - n * (2 : ℝ) ^ (M - F.f)| / (2 : ℝ) ^ (M - F.f) := by
    rw [← abs_of_pos hq, ← abs_div, abs_of_pos hq]; congr 1; field_simp
  apply toInt_eqe
  rw [key]
  rcases h with h | ⟨h, he⟩
  · left
    have : ((|z - n * (2 : ℚ) ^ (M - F.f)| : ℚ) : ℝ) < (((2 : ℚ) ^ (M - F.f - 1) : ℚ) : ℝ) := by exact_mod_cast h
    push_cast at this
    rw [div_lt_iff₀ hq]; rw [hhalf] at this; linarith
  · right
    refine ⟨?_, he⟩
    have : ((|z - n * (2 : ℚ) ^ (M - F.f)| : ℚ) : ℝ) = (((2 : ℚ) ^ (M - F.f - 1) : ℚ) : ℝ) := by exact_mod_cast h
    push_cast at this
    rw [this, hhalf]; field_simp

theorem rnd_e {F : Fmt} (he : 2 ≤ F.e) (s : Bool) {z : ℚ} {E M n : ℤ} (hM : M = max E F.emin) (hE2 : E + 1 ≤ F.emax) (h1 : (2 : ℚ) ^ E ≤ |z|)
    (h2 : |z| < (2 : ℚ) ^ (E + 1))
    (h : |z - n * (2 : ℚ) ^ (M - F.f)| < (2 : ℚ) ^ (M - F.f - 1) ∨ (|z - n * (2 : ℚ) ^ (M - F.f)| = (2 : ℚ) ^ (M - F.f - 1) ∧ Even n))
    {v : ℚ} (hv : v = n * (2 : ℚ) ^ (M - F.f)) (h0 : v ≠ 0) : rnd F s (z : ℝ) = .num v := by
  have h2R : |(z : ℝ)| < (2 : ℝ) ^ (E + 1) := by rw [r2cast, ← Rat.cast_abs]; exact_mod_cast h2
  have e := ru_eqe hM h1 h2 h
  obtain ⟨r1, r2'⟩ := rnd_fin he s (x := (z : ℝ)) (ru_no_over he (le_trans h2R.le (r2le hE2)))
  rw [e, ← hv] at r2'
  have := fin_num_ne r1 (by rw [r2']; exact h0)
  rw [this, r2']

theorem fma_e {F : Fmt} (he : 2 ≤ F.e) {a b c : ℚ} {E M n : ℤ} (hM : M = max E F.emin) (hE2 : E + 1 ≤ F.emax) (h1 : (2 : ℚ) ^ E ≤ |a * b + c|)
    (h2 : |a * b + c| < (2 : ℚ) ^ (E + 1))
    (h : |a * b + c - n * (2 : ℚ) ^ (M - F.f)| < (2 : ℚ) ^ (M - F.f - 1) ∨ (|a * b + c - n * (2 : ℚ) ^ (M - F.f)| = (2 : ℚ) ^ (M - F.f - 1) ∧ Even n)) {v : ℚ}
    (hv : v = n * (2 : ℚ) ^ (M - F.f)) (h0 : v ≠ 0) : ffma F (.num a) (.num b) (.num c) = .num v := by
  unfold ffma
  simp only [isNaN, isInf, Bool.or_self, Bool.false_eq_true, if_false]
  exact rnd_e he _ hM hE2 h1 h2 h hv h0

theorem mul_e {F : Fmt} (he : 2 ≤ F.e) {a b : ℚ} {E M n : ℤ} (hM : M = max E F.emin) (hE2 : E + 1 ≤ F.emax) (h1 : (2 : ℚ) ^ E ≤ |a * b|)
    (h2 : |a * b| < (2 : ℚ) ^ (E + 1))
    (h : |a * b - n * (2 : ℚ) ^ (M - F.f)| < (2 : ℚ) ^ (M - F.f - 1) ∨ (|a * b - n * (2 : ℚ) ^ (M - F.f)| = (2 : ℚ) ^ (M - F.f - 1) ∧ Even n)) {v : ℚ}
    (hv : v = n * (2 : ℚ) ^ (M - F.f)) (h0 : v ≠ 0) : fmul F (.num a) (.num b) = .num v := by
  unfold fmul
  simp only [isNaN, isInf, Bool.or_self, Bool.false_eq_true, if_false]
  exact rnd_e he _ hM hE2 h1 h2 h hv h0

theorem iter_fix {F : Fmt} {h a : Val} (hf : nrSqrt F h a = a) (n : ℕ) : rsqrtIter F h n a = a := by
  induction n with
  | zero => rfl
  | succ n ih => rw [rsqrtIter, hf, ih]

section
local notation "F32" => (⟨8, 23⟩ : Fmt)

theorem emx32 : Fmt.emax F32 = 127 := by norm_num [Fmt.emax]
theorem emn32 : Fmt.emin F32 = -126 := by norm_num [Fmt.emin, Fmt.emax]
theorem ff32 : (Fmt.f F32 : ℤ) = 23 := rfl

theorem f32 {a b c v : ℚ} (E M n : ℤ) (hM : M = max E (-126)) (hE2 : E ≤ 126) (h1 : (2 : ℚ) ^ E ≤ |a * b + c|) (h2 : |a * b + c| < (2 : ℚ) ^ (E + 1))
    (h : |a * b + c - n * (2 : ℚ) ^ (M - 23)| < (2 : ℚ) ^ (M - 24) ∨ (|a * b + c - n * (2 : ℚ) ^ (M - 23)| = (2 : ℚ) ^ (M - 24) ∧ Even n))
    (hv : v = n * (2 : ℚ) ^ (M - 23)) (h0 : v ≠ 0) : ffma F32 (.num a) (.num b) (.num c) = .num v := by
  refine fma_e (by norm_num) (E := E) (M := M) (n := n) (by rw [emn32]; exact hM) (by rw [emx32]; omega) h1 h2 ?_ hv h0
  rw [ff32, show M - 23 - 1 = M - 24 by ring]; exact h

theorem m32 {a b v : ℚ} (E M n : ℤ) (hM : M = max E (-126)) (hE2 : E ≤ 126) (h1 : (2 : ℚ) ^ E ≤ |a * b|) (h2 : |a * b| < (2 : ℚ) ^ (E + 1))
    (h : |a * b - n * (2 : ℚ) ^ (M - 23)| < (2 : ℚ) ^ (M - 24) ∨ (|a * b - n * (2 : ℚ) ^ (M - 23)| = (2 : ℚ) ^ (M - 24) ∧ Even n))
    (hv : v = n * (2 : ℚ) ^ (M - 23)) (h0 : v ≠ 0) : fmul F32 (.num a) (.num b) = .num v := by
  refine mul_e (by norm_num) (E := E) (M := M) (n := n) (by rw [emn32]; exact hM) (by rw [emx32]; omega) h1 h2 ?_ hv h0
  rw [ff32, show M - 23 - 1 = M - 24 by ring]; exact h

/-- C79, wrong.  In binary32, close to the subnormal numbers, there are a number and a seed accurate to the last place with which the square root is
not the correctly rounded one, whatever the number of iterations: the seed is a fixed point of the iteration and the residual is not exact. -/
theorem C79_sqrt_rounding_wrong : ∃ seed : Val → Val,
    (∀ a y, IsReal F32 a y → (2 : ℝ) ^ (-124 : ℤ) ≤ y → ∃ r, IsReal F32 (seed a) r ∧ |r * √y - 1| ≤ (2 : ℝ) ^ (-24 : ℤ)) ∧
    ∀ n, IsReal F32 (.num (16777215 / 2 ^ 126)) (16777215 / 2 ^ 126) ∧
      ¬ RoundsTo F32 (√(16777215 / 2 ^ 126)) (sqrtModel F32 seed n (.num (16777215 / 2 ^ 126))) := by
  have B : Big F32 := ⟨by norm_num, by norm_num [Fmt.emax]⟩
  have hx : IsReal F32 (.num (16777215 / 2 ^ 126)) (16777215 / 2 ^ 126) :=
    ⟨⟨⟨16777215, -103, by norm_num, by rw [emn32]; norm_num, by rw [emx32]; norm_num, by norm_num⟩, by norm_num⟩, by simp [value]⟩
  have hs : IsReal F32 (.num (2 ^ 51)) (2 ^ 51) :=
    ⟨⟨⟨2 ^ 23, 51, by norm_num, by rw [emn32]; norm_num, by rw [emx32]; norm_num, by norm_num⟩, by norm_num⟩, by simp [value]⟩
  have hr1 : √(16777215 / 2 ^ 126) ≤ (1 / 2 ^ 51 - 1 / 2 ^ 76 : ℝ) := by
    rw [Real.sqrt_le_left (by norm_num)]; norm_num
  have hr1' : √(16777215 / 2 ^ 126) < (1 / 2 ^ 51 - 1 / 2 ^ 76 : ℝ) := by
    rw [Real.sqrt_lt' (by norm_num)]; norm_num
  have hr2 : (1 / 2 ^ 51 - 1 / 2 ^ 75 : ℝ) ≤ √(16777215 / 2 ^ 126) := Real.le_sqrt_of_sq_le (by norm_num)
  refine ⟨fun a => if a = .num (16777215 / 2 ^ 126) then .num (2 ^ 51) else bestRsqrt F32 a, ?_, fun n => ⟨hx, ?_⟩⟩
  · intro a y ha h1
    by_cases hc : a = .num (16777215 / 2 ^ 126)
    · simp only [if_pos hc]
      subst hc
      have : y = 16777215 / 2 ^ 126 := by
        have := (isReal_rv.1 ha).2; rw [← this, (isReal_rv.1 hx).2]
      subst this
      refine ⟨_, hs, ?_⟩
      rw [abs_le]; norm_num at hr1 hr2 ⊢; constructor <;> linarith
    · simp only [if_neg hc]
      obtain ⟨r, q1, q2⟩ := bestRsqrt_ok B a y ha (by rw [emn32]; norm_num at h1 ⊢; exact h1)
      refine ⟨r, q1, le_trans q2 (le_of_eq ?_)⟩
      unfold uu; rw [ff32]; norm_num
  · obtain ⟨hxf, hxv⟩ := isReal_rv.1 hx
    rw [sqrt_std hxf (by rw [hxv]; norm_num)]
    unfold sqrtStd
    simp only [if_true]
    have e0 : fmul F32 (.num (1 / 2)) (.num (16777215 / 2 ^ 126)) = .num (16777215 / 2 ^ 127) :=
      m32 (-104) (-104) 16777215 (by norm_num) (by norm_num) (by norm_num) (by norm_num) (by norm_num) (by norm_num) (by norm_num)
    have g1 : fmul F32 (.num (2 ^ 51)) (.num (2 ^ 51)) = .num (2 ^ 102) :=
      m32 102 102 (2 ^ 23) (by norm_num) (by norm_num) (by norm_num) (by norm_num) (by norm_num) (by norm_num) (by norm_num)
    have g2 : ffma F32 (.num (-(16777215 / 2 ^ 127))) (.num (2 ^ 102)) (.num (1 / 2)) = .num (1 / 2 ^ 25) :=
      f32 (-25) (-25) (2 ^ 23) (by norm_num) (by norm_num) (by norm_num) (by norm_num) (by norm_num) (by norm_num) (by norm_num)
    have g3 : ffma F32 (.num (2 ^ 51)) (.num (1 / 2 ^ 25)) (.num (2 ^ 51)) = .num (2 ^ 51) :=
      f32 51 51 (2 ^ 23) (by norm_num) (by norm_num) (by norm_num) (by norm_num) (by norm_num) (by norm_num) (by norm_num)
    have hfix : nrSqrt F32 (.num (16777215 / 2 ^ 127)) (.num (2 ^ 51)) = .num (2 ^ 51) := by
      unfold nrSqrt fmsn; simp only [g1, fneg, g2, g3]
    rw [e0, iter_fix hfix]
    have k1 : fmul F32 (.num (16777215 / 2 ^ 126)) (.num (2 ^ 51)) = .num (16777215 / 2 ^ 75) :=
      m32 (-52) (-52) 16777215 (by norm_num) (by norm_num) (by norm_num) (by norm_num) (by norm_num) (by norm_num) (by norm_num)
    have k2 : fmul F32 (.num (2 ^ 51)) (.num (16777215 / 2 ^ 127)) = .num (16777215 / 2 ^ 76) :=
      m32 (-53) (-53) 16777215 (by norm_num) (by norm_num) (by norm_num) (by norm_num) (by norm_num) (by norm_num) (by norm_num)
    have k3 : fmul F32 (.num (1 / 2)) (.num (2 ^ 51)) = .num (2 ^ 50) :=
      m32 50 50 (2 ^ 23) (by norm_num) (by norm_num) (by norm_num) (by norm_num) (by norm_num) (by norm_num) (by norm_num)
    have k4 : ffma F32 (.num (-(16777215 / 2 ^ 75))) (.num (16777215 / 2 ^ 75)) (.num (16777215 / 2 ^ 126)) = .num (1 / 2 ^ 126) :=
      f32 (-127) (-126) (2 ^ 23) (by norm_num) (by norm_num) (by norm_num) (by norm_num) (by right; exact ⟨by norm_num, 2 ^ 22, by norm_num⟩) (by norm_num) (by norm_num)
    have k5 : ffma F32 (.num (-(16777215 / 2 ^ 76))) (.num (2 ^ 51)) (.num (1 / 2)) = .num (1 / 2 ^ 25) :=
      f32 (-25) (-25) (2 ^ 23) (by norm_num) (by norm_num) (by norm_num) (by norm_num) (by norm_num) (by norm_num) (by norm_num)
    have k6 : ffma F32 (.num (1 / 2 ^ 126)) (.num (2 ^ 50)) (.num (16777215 / 2 ^ 75)) = .num (1 / 2 ^ 51) :=
      f32 (-52) (-52) (2 ^ 24) (by norm_num) (by norm_num) (by norm_num) (by norm_num) (by right; exact ⟨by norm_num, 2 ^ 23, by norm_num⟩) (by norm_num) (by norm_num)
    have k7 : ffma F32 (.num (1 / 2 ^ 25)) (.num (2 ^ 50)) (.num (2 ^ 50)) = .num (2 ^ 50) :=
      f32 50 50 (2 ^ 23) (by norm_num) (by norm_num) (by norm_num) (by norm_num) (by norm_num) (by norm_num) (by norm_num)
    have k8 : ffma F32 (.num (-(1 / 2 ^ 51))) (.num (1 / 2 ^ 51)) (.num (16777215 / 2 ^ 126)) = .num (-(1 / 2 ^ 126)) :=
      f32 (-126) (-126) (-2 ^ 23) (by norm_num) (by norm_num) (by norm_num [abs_of_neg]) (by norm_num) (by norm_num) (by norm_num) (by norm_num)
    have k9 : ffma F32 (.num (-(1 / 2 ^ 126))) (.num (2 ^ 50)) (.num (1 / 2 ^ 51)) = .num (1 / 2 ^ 51) :=
      f32 (-52) (-52) (2 ^ 24) (by norm_num) (by norm_num) (by norm_num) (by norm_num) (by right; exact ⟨by norm_num, 2 ^ 23, by norm_num⟩) (by norm_num) (by norm_num)
    have hR : sqrtCorrect F32 (.num (16777215 / 2 ^ 126)) (.num (16777215 / 2 ^ 127)) (.num (2 ^ 51)) = .num (1 / 2 ^ 51) := by
      unfold sqrtCorrect fmsn
      simp only [k1, k2, k3, fneg, k4, k5, k6, k7, k8, k9]
    rw [hR]
    rintro ⟨v, ⟨hv1, hv2, _⟩, h | h | h⟩
    · have hv : v = 1 / 2 ^ 51 := by have := h.2.2; injection this with this; exact this.symm
      have := hv2 (16777215 / 2 ^ 75) ⟨16777215, -52, by norm_num, by rw [emn32]; norm_num, by norm_num⟩
      rw [hv] at this; push_cast at this
      rw [abs_of_nonpos (by linarith), abs_of_nonneg (by norm_num at hr2 ⊢; linarith)] at this
      norm_num at this hr1'; linarith
    · exact absurd h.2 (by split_ifs <;> simp)
    · exact absurd h.2 (by split_ifs <;> simp)

/-- C79, wrong.  In binary32, close to the largest number, there are a number and a seed accurate to two last places with which the reciprocal square
root is not faithful, whatever the number of iterations: the square of the seed is subnormal. -/
theorem C79_rsqrt_faithful_wrong : ∃ seed : Val → Val,
    (∀ a y, IsReal F32 a y → (2 : ℝ) ^ (-124 : ℤ) ≤ y → ∃ r, IsReal F32 (seed a) r ∧ |r * √y - 1| ≤ 3 * (2 : ℝ) ^ (-24 : ℤ)) ∧
    ∀ n, IsReal F32 (.num (8377031 * 2 ^ 105)) (8377031 * 2 ^ 105) ∧
      ¬ Faithful F32 (1 / √(8377031 * 2 ^ 105)) (rsqrtModel F32 seed n (.num (8377031 * 2 ^ 105))) := by
  have B : Big F32 := ⟨by norm_num, by norm_num [Fmt.emax]⟩
  have hx : IsReal F32 (.num (8377031 * 2 ^ 105)) (8377031 * 2 ^ 105) :=
    ⟨⟨⟨16754062, 127, by norm_num, by rw [emn32]; norm_num, by rw [emx32], by norm_num⟩, by norm_num⟩, by simp [value]⟩
  have hs : IsReal F32 (.num (8394401 / 2 ^ 87)) (8394401 / 2 ^ 87) :=
    ⟨⟨⟨8394401, -64, by norm_num, by rw [emn32]; norm_num, by rw [emx32]; norm_num, by norm_num⟩, by norm_num⟩, by simp [value]⟩
  have hw : IsReal F32 (.num (8394402 / 2 ^ 87)) (8394402 / 2 ^ 87) :=
    ⟨⟨⟨8394402, -64, by norm_num, by rw [emn32]; norm_num, by rw [emx32]; norm_num, by norm_num⟩, by norm_num⟩, by simp [value]⟩
  have hs0 : (0 : ℝ) < √(8377031 * 2 ^ 105) := Real.sqrt_pos.2 (by norm_num)
  have hr1 : √(8377031 * 2 ^ 105) < (2 ^ 87 / 8394402 : ℝ) := by
    rw [Real.sqrt_lt' (by norm_num)]; norm_num
  have hr2 : (2 ^ 87 / 8394403 : ℝ) ≤ √(8377031 * 2 ^ 105) := Real.le_sqrt_of_sq_le (by norm_num)
  refine ⟨fun a => if a = .num (8377031 * 2 ^ 105) then .num (8394401 / 2 ^ 87) else bestRsqrt F32 a, ?_, fun n => ⟨hx, ?_⟩⟩
  · intro a y ha h1
    by_cases hc : a = .num (8377031 * 2 ^ 105)
    · simp only [if_pos hc]
      subst hc
      have : y = 8377031 * 2 ^ 105 := by
        have := (isReal_rv.1 ha).2; rw [← this, (isReal_rv.1 hx).2]
      subst this
      refine ⟨_, hs, ?_⟩
      have hr3 : (2 ^ 87 / (8394401 * (1 + 2.999 / 2 ^ 24)) : ℝ) ≤ √(8377031 * 2 ^ 105) := Real.le_sqrt_of_sq_le (by norm_num)
      rw [abs_le]; norm_num at hr1 hr3 ⊢; constructor <;> linarith
    · simp only [if_neg hc]
      obtain ⟨r, q1, q2⟩ := bestRsqrt_ok B a y ha (by rw [emn32]; norm_num at h1 ⊢; exact h1)
      refine ⟨r, q1, le_trans q2 ?_⟩
      unfold uu; rw [ff32]; norm_num
  · obtain ⟨hxf, hxv⟩ := isReal_rv.1 hx
    rw [rsqrt_std hxf (by rw [hxv]; norm_num)]
    simp only [if_true]
    have e0 : fmul F32 (.num (1 / 2)) (.num (8377031 * 2 ^ 105)) = .num (8377031 * 2 ^ 104) :=
      m32 126 126 16754062 (by norm_num) (by norm_num) (by norm_num) (by norm_num) (by norm_num) (by norm_num) (by norm_num)
    have g1 : fmul F32 (.num (8394401 / 2 ^ 87)) (.num (8394401 / 2 ^ 87)) = .num (1050025 / 2 ^ 148) :=
      m32 (-128) (-126) 2100050 (by norm_num) (by norm_num) (by norm_num) (by norm_num) (by norm_num) (by norm_num) (by norm_num)
    have g2 : ffma F32 (.num (-(8377031 * 2 ^ 104))) (.num (1050025 / 2 ^ 148)) (.num (1 / 2)) = .num (1046433 / 2 ^ 44) :=
      f32 (-25) (-25) 16742928 (by norm_num) (by norm_num) (by norm_num) (by norm_num) (by norm_num) (by norm_num) (by norm_num)
    have g3 : ffma F32 (.num (8394401 / 2 ^ 87)) (.num (1046433 / 2 ^ 44)) (.num (8394401 / 2 ^ 87)) = .num (8394401 / 2 ^ 87) :=
      f32 (-64) (-64) 8394401 (by norm_num) (by norm_num) (by norm_num) (by norm_num) (by norm_num) (by norm_num) (by norm_num)
    have hfix : nrSqrt F32 (.num (8377031 * 2 ^ 104)) (.num (8394401 / 2 ^ 87)) = .num (8394401 / 2 ^ 87) := by
      unfold nrSqrt fmsn; simp only [g1, fneg, g2, g3]
    rw [e0, iter_fix hfix]
    have hlt : (8394402 / 2 ^ 87 : ℝ) < 1 / √(8377031 * 2 ^ 105) := by
      rw [lt_div_iff₀ hs0]
      norm_num at hr1 ⊢; linarith
    rintro ⟨p, hp, h | h⟩
    · have e : p = ((8394401 / 2 ^ 87 : ℝ) : EReal) := by rw [hs.2] at hp; injection hp with hp; exact hp.symm
      have := h.2 _ _ hw.1 hw.2 (by rw [EReal.coe_le_coe_iff]; exact hlt.le)
      rw [e, EReal.coe_le_coe_iff] at this
      norm_num at this
    · have e : p = ((8394401 / 2 ^ 87 : ℝ) : EReal) := by rw [hs.2] at hp; injection hp with hp; exact hp.symm
      have := h.1
      rw [e, EReal.coe_le_coe_iff] at this
      have h3 : (8394401 / 2 ^ 87 : ℝ) < 8394402 / 2 ^ 87 := by norm_num
      linarith

end

end Verif.Elem
