import Verif.Rem.FmodLemmas
import Verif.Rem.Theorems

/-! # The loop of `fmod` -/

namespace Verif.Rem

open Verif.Float (Fmt Val)
open Verif.Elem
open Verif.Check

/-- one step of the reduction of `A` by `Y`, with the integer `q` -/
structure Step (F : Fmt) (A Y : ℚ) (q : ℤ) : Prop where
  tr : truncQ (rr F (A / Y)) = q
  unb : Unbounded F (q : ℚ)
  le : |(q : ℚ)| ≤ |rr F (A / Y)|
  grid : q = 0 ∨ ∃ n : ℤ, A - q * Y = n * (2 : ℚ) ^ up F Y
  runb : Unbounded F (A - q * Y)
  small : |q| ≤ 2 ^ (F.f + 1) → |A - q * Y| < |Y|
  big : 2 ^ (F.f + 1) < |q| → |A - q * Y| ≤ |A| / 2

theorem truncQ_neg (v : ℚ) : truncQ (-v) = -truncQ v := by
  unfold truncQ
  rcases lt_trichotomy v 0 with h | h | h
  · rw [if_neg (by linarith), if_pos h, Int.floor_neg]
  · subst h; simp
  · rw [if_pos (by linarith), if_neg (by linarith), Int.ceil_neg]

theorem up_neg (F : Fmt) (Y : ℚ) : up F (-Y) = up F Y := by unfold up; rw [abs_neg]

theorem Step.negA {F : Fmt} {A Y : ℚ} {q : ℤ} (h : Step F A Y q) : Step F (-A) Y (-q) := by
  have e : -A - ((-q : ℤ) : ℚ) * Y = -(A - q * Y) := by push_cast; ring
  refine ⟨by rw [neg_div, rr_neg, truncQ_neg, h.tr], by push_cast; exact unb_neg h.unb, by push_cast; rw [neg_div, rr_neg, abs_neg, abs_neg]; exact h.le, ?_,
    by rw [e]; exact unb_neg h.runb, by rw [e, abs_neg, abs_neg]; exact h.small, by rw [e, abs_neg, abs_neg, abs_neg]; exact h.big⟩
  rcases h.grid with g | ⟨n, g⟩
  · left; rw [g]; rfl
  · right; exact ⟨-n, by rw [e, g]; push_cast; ring⟩

theorem Step.negY {F : Fmt} {A Y : ℚ} {q : ℤ} (h : Step F A Y q) : Step F A (-Y) (-q) := by
  have e : A - ((-q : ℤ) : ℚ) * -Y = A - q * Y := by push_cast; ring
  refine ⟨by rw [div_neg, rr_neg, truncQ_neg, h.tr], by push_cast; exact unb_neg h.unb, by push_cast; rw [div_neg, rr_neg, abs_neg, abs_neg]; exact h.le, ?_,
    by rw [e]; exact h.runb, by rw [e, abs_neg, abs_neg]; exact h.small, by rw [e, abs_neg]; exact h.big⟩
  rcases h.grid with g | ⟨n, g⟩
  · left; rw [g]; rfl
  · right; exact ⟨n, by rw [e, g, up_neg]⟩

theorem rr_zero (F : Fmt) : rr F 0 = 0 := rr_exact (unb_zero F)

theorem step_all {F : Fmt} (he : 3 ≤ F.e) {A Y : ℚ} (hA : Unbounded F A) (hY : Unbounded F Y) (hY0 : Y ≠ 0) : ∃ q, Step F A Y q := by
  have pos : ∀ {A Y : ℚ}, Unbounded F A → Unbounded F Y → 0 < A → 0 < Y → ∃ q, Step F A Y q := by
    intro A Y hA hY hA0 hY0
    obtain ⟨q, h1, h2, h3, h4, h5, h6, h7, h8⟩ := step_pos he hA hY hA0 hY0
    have hq : (0 : ℚ) ≤ q := by exact_mod_cast h2
    have h0 : 0 ≤ rr F (A / Y) := le_trans hq h4
    refine ⟨q, by unfold truncQ; rw [if_neg (not_lt.2 h0), h1], h3, by rw [abs_of_nonneg hq, abs_of_nonneg h0]; exact h4, h5, h6, ?_, ?_⟩
    · rw [abs_of_nonneg h2, abs_of_pos hY0]; exact h7
    · rw [abs_of_nonneg h2, abs_of_pos hA0]; exact h8
  have posY : ∀ {Y : ℚ}, Unbounded F Y → 0 < Y → ∃ q, Step F A Y q := by
    intro Y hY hY0
    rcases lt_trichotomy A 0 with h | h | h
    · obtain ⟨q, hq⟩ := pos (unb_neg hA) hY (neg_pos.2 h) hY0
      exact ⟨-q, by simpa using hq.negA⟩
    · subst h
      refine ⟨0, ?_, by simpa using unb_zero F, by simp, Or.inl rfl, by simpa using unb_zero F, fun _ => by simpa using hY0.ne', fun _ => by simp⟩
      rw [zero_div, rr_zero]; simp [truncQ]
    · exact pos hA hY h hY0
  rcases lt_or_gt_of_ne hY0 with h | h
  · obtain ⟨q, hq⟩ := posY (unb_neg hY) (neg_pos.2 h)
    exact ⟨-q, by simpa using hq.negY⟩
  · exact posY hY h

theorem omega_unb {F : Fmt} (he : 2 ≤ F.e) : Unbounded F (Float.omega F) := ((finite_iff he).1 (Float.C02_omega_is_greatest F he).1).1

theorem rr_abs_le {F : Fmt} {z w : ℚ} (hw : Unbounded F w) (h : |z| ≤ w) : |rr F z| ≤ w := by
  rw [abs_le] at h ⊢
  exact ⟨rr_ge (unb_neg hw) h.1, rr_le hw h.2⟩

theorem fdiv_fin {F : Fmt} (he : 2 ≤ F.e) {a b : Val} (ha : Fin' F a) (hb : Fin' F b) (hb0 : numOf b ≠ 0) (h : |rr F (numOf a / numOf b)| ≤ Float.omega F) :
    Fin' F (fdiv F a b) ∧ numOf (fdiv F a b) = rr F (numOf a / numOf b) := by
  have hbz : isZero b = false := by
    obtain ⟨_, b2, b3⟩ := hb
    cases b <;> simp_all [isZero, numOf]
  unfold fdiv
  simp only [ha.2.1, hb.2.1, ha.2.2, hb.2.2, hbz, Bool.or_self, Bool.false_eq_true, if_false]
  exact rnd_fin he _ h

theorem ftrunc_fin {F : Fmt} (he : 2 ≤ F.e) {a : Val} (ha : Fin' F a) {q : ℤ} (hq : truncQ (numOf a) = q) (hu : Unbounded F (q : ℚ)) (hle : |(q : ℚ)| ≤ |numOf a|) :
    Fin' F (ftrunc a) ∧ numOf (ftrunc a) = q := by
  unfold ftrunc
  simp only [ha.2.1, ha.2.2, Bool.false_eq_true, if_false, hq]
  by_cases h : q = 0
  · rw [if_pos h, h]; cases sgn a <;> simp [zeroS, Fin', Fmt.Datum, isNaN, isInf, numOf]
  · rw [if_neg h]
    exact ⟨⟨⟨(finite_iff he).2 ⟨hu, le_trans hle (fin_unb he ha).2⟩, by exact_mod_cast h⟩, rfl, rfl⟩, rfl⟩

theorem ffma_exact {F : Fmt} (he : 2 ≤ F.e) {a b c : Val} (ha : Fin' F a) (hb : Fin' F b) (hc : Fin' F c) {v : ℚ} (hv : numOf a * numOf b + numOf c = v)
    (hu : Unbounded F v) (ho : |v| ≤ Float.omega F) : Fin' F (ffma F a b c) ∧ numOf (ffma F a b c) = v := by
  unfold ffma
  simp only [ha.2.1, hb.2.1, hc.2.1, ha.2.2, hb.2.2, hc.2.2, Bool.or_self, Bool.false_eq_true, if_false, hv]
  have h : roundUnb F .RN (v : ℝ) = v := ru_exact hu
  obtain ⟨h1, h2⟩ := rnd_fin he (xor (sgn a) (sgn b) && sgn c) (x := (v : ℝ)) (by rw [h]; exact ho)
  exact ⟨h1, by rw [h2, h]⟩

/-- one step of the generated code -/
theorem step_val {F : Fmt} (he : 3 ≤ F.e) {a y : Val} (ha : Fin' F a) (hy : Fin' F y) (hy0 : numOf y ≠ 0) (hov : |numOf a / numOf y| ≤ Float.omega F) :
    ∃ q : ℤ, Step F (numOf a) (numOf y) q ∧ Fin' F (ftrunc (fdiv F a y)) ∧ numOf (ftrunc (fdiv F a y)) = q ∧
      Fin' F (ffma F (fneg (ftrunc (fdiv F a y))) y a) ∧ numOf (ffma F (fneg (ftrunc (fdiv F a y))) y a) = numOf a - q * numOf y := by
  have he2 : 2 ≤ F.e := by omega
  obtain ⟨ua, oa⟩ := fin_unb he2 ha
  obtain ⟨uy, oy⟩ := fin_unb he2 hy
  obtain ⟨q, hq⟩ := step_all he ua uy hy0
  obtain ⟨d1, d2⟩ := fdiv_fin he2 ha hy hy0 (rr_abs_le (omega_unb he2) hov)
  obtain ⟨t1, t2⟩ := ftrunc_fin he2 d1 (q := q) (by rw [d2]; exact hq.tr) hq.unb (by rw [d2]; exact hq.le)
  obtain ⟨n1, n2⟩ := fneg_fin t1
  obtain ⟨f1, f2⟩ := ffma_exact he2 n1 hy ha (v := numOf a - q * numOf y) (by rw [n2, t2]; ring) hq.runb (by
    rcases le_or_gt |q| (2 ^ (F.f + 1)) with h | h
    · exact le_trans (hq.small h).le oy
    · have := hq.big h
      have := abs_nonneg (numOf a)
      linarith)
  exact ⟨q, hq, t1, t2, f1, f2⟩

theorem test_eq {F : Fmt} {qi : Val} (h : Fin' F qi) {q : ℤ} (hq : numOf qi = q) : fgt (fabs qi) (qiBound F) = decide ((2 : ℤ) ^ (F.f + 1) < |q|) := by
  have hb : qiBound F = nn ((2 : ℚ) ^ (F.f + 1)) := by unfold qiBound; rw [nn_num (by positivity)]
  have ha : fabs qi = nn |(q : ℚ)| := by
    by_cases h0 : numOf qi = 0
    · have hz : (q : ℚ) = 0 := by rw [← hq]; exact h0
      rw [hz, abs_zero, nn_zero]
      obtain ⟨h1, h2, h3⟩ := h
      cases qi <;> simp_all [fabs, sgn, Special.neg, fneg, isNaN, isInf, numOf, Fmt.Datum]
    · rw [fin_num_ne h h0, fabs_num h0, hq]
  rw [hb, ha, fgt_nn]
  congr 1
  rw [← Int.cast_abs]
  apply propext
  constructor
  · intro h; exact_mod_cast h
  · intro h; exact_mod_cast h

/-- the loop ends, with the remainder of the division truncated or rounded up -/
theorem loop_spec {F : Fmt} (he : 3 ≤ F.e) {y : Val} (hy : Fin' F y) (hy0 : numOf y ≠ 0) (N : ℕ) : ∀ (r qi : Val) (q : ℤ), Fin' F r → Fin' F qi → numOf qi = q →
    (|q| ≤ 2 ^ (F.f + 1) → |numOf r| < |numOf y|) → |numOf r| < 2 ^ N * |numOf y| → |numOf r / numOf y| ≤ Float.omega F →
    ∃ (m : ℕ) (r' : Val), fmodLoop F y m r qi = some r' ∧ Fin' F r' ∧ |numOf r'| < |numOf y| ∧ (∃ n : ℤ, numOf r' = numOf r - n * numOf y) ∧
      (numOf r' = numOf r ∨ ∃ k : ℤ, numOf r' = k * (2 : ℚ) ^ up F (numOf y)) := by
  have hya := abs_pos.2 hy0
  have he2 : 2 ≤ F.e := by omega
  have out : ∀ (r qi : Val) (q : ℤ), Fin' F r → Fin' F qi → numOf qi = q → |q| ≤ 2 ^ (F.f + 1) → |numOf r| < |numOf y| →
      ∃ (m : ℕ) (r' : Val), fmodLoop F y m r qi = some r' ∧ Fin' F r' ∧ |numOf r'| < |numOf y| ∧ (∃ n : ℤ, numOf r' = numOf r - n * numOf y) ∧
        (numOf r' = numOf r ∨ ∃ k : ℤ, numOf r' = k * (2 : ℚ) ^ up F (numOf y)) := by
    intro r qi q hr hqi hq h1 h2
    refine ⟨0, r, ?_, hr, h2, ⟨0, by simp⟩, Or.inl rfl⟩
    unfold fmodLoop
    rw [test_eq hqi hq, decide_eq_false (by omega), if_neg (by simp)]
  induction N with
  | zero =>
    intro r qi q hr hqi hq h1 h2 h3
    have h2' : |numOf r| < |numOf y| := by simpa using h2
    rcases le_or_gt |q| (2 ^ (F.f + 1)) with h | h
    · exact out r qi q hr hqi hq h h2'
    · obtain ⟨q', s, d1, d2, f1, f2⟩ := step_val he hr hy hy0 h3
      have hP : (1 : ℤ) ≤ 2 ^ (F.f + 1) := one_le_pow₀ (by norm_num)
      have hq1 : |q'| ≤ 2 ^ (F.f + 1) := by
        have h4 : |numOf r / numOf y| ≤ ((1 : ℤ) : ℚ) := by rw [abs_div, div_le_iff₀ hya]; push_cast; linarith
        have h5 := le_trans s.le (rr_abs_le (unb_int he2 (by rw [abs_one]; exact hP)) h4)
        have h6 : |q'| ≤ 1 := by rw [← Int.cast_abs] at h5; exact_mod_cast h5
        omega
      obtain ⟨m, r', g1, g2, g3, ⟨n, g4⟩, g5⟩ := out _ _ q' f1 d1 d2 hq1 (by rw [f2]; exact s.small hq1)
      refine ⟨m + 1, r', ?_, g2, g3, ⟨n + q', by rw [g4, f2]; push_cast; ring⟩, ?_⟩
      · rw [fmodLoop, test_eq hqi hq, decide_eq_true h, if_pos rfl]; exact g1
      · rcases g5 with g | g
        · rcases s.grid with e | ⟨k, e⟩
          · left; rw [g, f2, e]; simp
          · right; exact ⟨k, by rw [g, f2, e]⟩
        · exact Or.inr g
  | succ N ih =>
    intro r qi q hr hqi hq h1 h2 h3
    rcases le_or_gt |q| (2 ^ (F.f + 1)) with h | h
    · exact out r qi q hr hqi hq h (h1 h)
    · obtain ⟨q', s, d1, d2, f1, f2⟩ := step_val he hr hy hy0 h3
      have hlt : |numOf r - q' * numOf y| < 2 ^ N * |numOf y| := by
        rcases le_or_gt |q'| (2 ^ (F.f + 1)) with h4 | h4
        · have h5 : (1 : ℚ) ≤ 2 ^ N := one_le_pow₀ (by norm_num)
          have := s.small h4
          nlinarith
        · have := s.big h4
          rw [pow_succ] at h2; linarith
      obtain ⟨m, r', g1, g2, g3, ⟨n, g4⟩, g5⟩ := ih _ _ q' f1 d1 d2 (by rw [f2]; exact s.small) (by rw [f2]; exact hlt) (by
        rw [f2]
        rcases le_or_gt |q'| (2 ^ (F.f + 1)) with h4 | h4
        · have h5 : |(numOf r - q' * numOf y) / numOf y| ≤ ((1 : ℤ) : ℚ) := by rw [abs_div, div_le_iff₀ hya]; push_cast; linarith [s.small h4]
          have hem := emax_pos he2
          have : (2 : ℚ) ^ (0 : ℤ) ≤ (2 : ℚ) ^ F.emax := Float.zle (by omega)
          rw [zpow_zero] at this
          push_cast at h5
          linarith [omega_ge he2]
        · have h5 := s.big h4
          have := abs_nonneg (numOf r)
          refine le_trans ?_ h3
          rw [abs_div, abs_div]
          exact div_le_div_of_nonneg_right (by linarith) hya.le)
      refine ⟨m + 1, r', ?_, g2, g3, ⟨n + q', by rw [g4, f2]; push_cast; ring⟩, ?_⟩
      · rw [fmodLoop, test_eq hqi hq, decide_eq_true h, if_pos rfl]; exact g1
      · rcases g5 with g | g
        · rcases s.grid with e | ⟨k, e⟩
          · left; rw [g, f2, e]; simp
          · right; exact ⟨k, by rw [g, f2, e]⟩
        · exact Or.inr g

/-- more steps do not change the result -/
theorem fmodLoop_mono {F : Fmt} {y r : Val} (n : ℕ) : ∀ (a q : Val) (m : ℕ), n ≤ m → fmodLoop F y n a q = some r → fmodLoop F y m a q = some r := by
  induction n with
  | zero =>
    intro a q m _ h
    unfold fmodLoop at h
    by_cases ht : fgt (fabs q) (qiBound F) = true
    · rw [if_pos ht] at h; exact absurd h (by simp)
    · rw [if_neg ht] at h
      cases m <;> (unfold fmodLoop; rw [if_neg ht, h])
  | succ n ih =>
    intro a q m hm h
    obtain ⟨m, rfl⟩ : ∃ k, m = k + 1 := ⟨m - 1, by omega⟩
    unfold fmodLoop at h ⊢
    by_cases ht : fgt (fabs q) (qiBound F) = true
    · rw [if_pos ht] at h ⊢
      exact ih _ _ m (by omega) h
    · rw [if_neg ht] at h ⊢; exact h

theorem fmod_mono {F : Fmt} {x y r : Val} {n m : ℕ} (h : n ≤ m) (hr : fmod F n x y = some r) : fmod F m x y = some r := by
  unfold fmod at hr ⊢
  simp only at hr ⊢
  cases hl : fmodLoop F y n (ffma F (fneg (ftrunc (fdiv F x y))) y x) (ftrunc (fdiv F x y)) with
  | none => rw [hl] at hr; simp at hr
  | some v => rw [hl] at hr; rw [fmodLoop_mono n _ _ m h hl]; exact hr

theorem returns_iff {F : Fmt} {x y r : Val} {n : ℕ} (h : fmod F n x y = some r) (r' : Val) : FmodReturns F x y r' ↔ r' = r := by
  constructor
  · rintro ⟨m, hm⟩
    have h1 := fmod_mono (le_max_left n m) h
    rw [fmod_mono (le_max_right n m) hm] at h1
    exact Option.some.inj h1
  · rintro rfl; exact ⟨n, h⟩

/-- the remainder before the last test -/
theorem fmod_spec {F : Fmt} (he : 3 ≤ F.e) {x y : Val} (hx : Fin' F x) (hy : Fin' F y) (hy0 : numOf y ≠ 0) (hov : |numOf x / numOf y| ≤ Float.omega F) :
    ∃ (m : ℕ) (r : Val), fmod F m x y = some (if flt (fmul F r x) .plusZero then fadd F r y else r) ∧ Fin' F r ∧ |numOf r| < |numOf y| ∧
      (∃ n : ℤ, numOf r = numOf x - n * numOf y) ∧ (numOf r = numOf x ∨ ∃ k : ℤ, numOf r = k * (2 : ℚ) ^ up F (numOf y)) := by
  have hya := abs_pos.2 hy0
  obtain ⟨q, s, d1, d2, f1, f2⟩ := step_val he hx hy hy0 hov
  obtain ⟨N, hN⟩ := pow_unbounded_of_one_lt (|numOf x - q * numOf y| / |numOf y|) (show (1 : ℚ) < 2 by norm_num)
  rw [div_lt_iff₀ hya] at hN
  have he2 : 2 ≤ F.e := by omega
  obtain ⟨m, r, g1, g2, g3, ⟨n, g4⟩, g5⟩ := loop_spec he hy hy0 N _ _ q f1 d1 d2 (by rw [f2]; exact s.small) (by rw [f2]; exact hN) (by
    rw [f2]
    rcases le_or_gt |q| (2 ^ (F.f + 1)) with h4 | h4
    · have h5 : |(numOf x - q * numOf y) / numOf y| ≤ 1 := by rw [abs_div, div_le_iff₀ hya]; linarith [s.small h4]
      have hem := emax_pos he2
      have : (2 : ℚ) ^ (0 : ℤ) ≤ (2 : ℚ) ^ F.emax := Float.zle (by omega)
      rw [zpow_zero] at this
      linarith [omega_ge he2]
    · have h5 := s.big h4
      have := abs_nonneg (numOf x)
      refine le_trans ?_ hov
      rw [abs_div, abs_div]
      exact div_le_div_of_nonneg_right (by linarith) hya.le)
  refine ⟨m, r, ?_, g2, g3, ⟨n + q, by rw [g4, f2]; push_cast; ring⟩, ?_⟩
  · unfold fmod; simp only; rw [g1]
  · rcases g5 with g | g
    · rcases s.grid with e | ⟨k, e⟩
      · left; rw [g, f2, e]; simp
      · right; exact ⟨k, by rw [g, f2, e]⟩
    · exact Or.inr g

theorem rr_tiny {F : Fmt} {w : ℚ} (h : |w| < (2 : ℚ) ^ (F.emin - F.f - 1)) : rr F w = 0 := by
  have h1 := rn_min (F := F) (x := (w : ℝ)) (unb_zero F)
  have h2 : |w - rr F w| ≤ |w| := by unfold rr; push_cast at h1; rw [sub_zero] at h1; exact_mod_cast h1
  obtain ⟨n, hn⟩ := unb_min_grid (rr_unb F w)
  have hp := Float.zp (F.emin - F.f)
  have e : (2 : ℚ) ^ (F.emin - F.f) = (2 : ℚ) ^ (F.emin - F.f - 1) * 2 := by
    conv_lhs => rw [show F.emin - F.f = (F.emin - F.f - 1) + 1 by ring, Float.zadd, zpow_one]
  have h3 : |rr F w| < (2 : ℚ) ^ (F.emin - F.f) := by
    have := abs_sub_abs_le_abs_sub (rr F w) w
    rw [abs_sub_comm] at this
    linarith
  rw [hn, abs_mul, abs_of_pos hp] at h3
  have h4 : |(n : ℚ)| < 1 := by by_contra hc; nlinarith [not_lt.1 hc]
  have h5 : |n| < 1 := by rw [← Int.cast_abs] at h4; exact_mod_cast h4
  have h6 : n = 0 := Int.abs_lt_one_iff.1 h5
  rw [hn, h6]; simp

theorem rr_not_tiny {F : Fmt} {w : ℚ} (h : w < -(2 : ℚ) ^ (F.emin - F.f - 1)) : rr F w < 0 := by
  have e : (2 : ℚ) ^ (F.emin - F.f) = (2 : ℚ) ^ (F.emin - F.f - 1) * 2 := by
    conv_lhs => rw [show F.emin - F.f = (F.emin - F.f - 1) + 1 by ring, Float.zadd, zpow_one]
  have hp := Float.zp (F.emin - F.f - 1)
  have hu : Unbounded F (-(2 : ℚ) ^ (F.emin - F.f)) := unb_neg (unb_pow le_rfl)
  rcases le_or_gt w (-(2 : ℚ) ^ (F.emin - F.f)) with h1 | h1
  · have := rr_le hu h1; linarith
  · have h2 := rn_min (F := F) (x := (w : ℝ)) hu
    have h3 : |w - rr F w| ≤ |w - -(2 : ℚ) ^ (F.emin - F.f)| := by unfold rr; exact_mod_cast h2
    by_contra hc
    rw [abs_of_neg (by linarith [not_lt.1 hc]), abs_of_pos (by linarith)] at h3
    linarith [not_lt.1 hc]

/-- the test of the sign -/
theorem sign_test {F : Fmt} {a b : Val} (ha : Fin' F a) (hb : Fin' F b) : flt (fmul F a b) .plusZero = decide (rr F (numOf a * numOf b) < 0) := by
  unfold fmul
  simp only [ha.2.1, hb.2.1, ha.2.2, hb.2.2, Bool.or_self, Bool.false_eq_true, if_false]
  generalize hw : numOf a * numOf b = w
  unfold rnd
  by_cases h0 : ((w : ℚ) : ℝ) = 0
  · have h0' : w = 0 := by exact_mod_cast h0
    rw [if_pos h0, h0', rr_zero]
    cases (xor (sgn a) (sgn b)) <;> simp [zeroS, flt, cLe, numOf]
  · rw [if_neg h0]
    by_cases h1 : roundUnb F .RN ((w : ℚ) : ℝ) = 0
    · rw [if_pos h1]
      have : rr F w = 0 := h1
      rw [this]
      cases (decide ((w : ℝ) < 0)) <;> simp [zeroS, flt, cLe, numOf]
    · rw [if_neg h1]
      by_cases h2 : |roundUnb F .RN ((w : ℚ) : ℝ)| ≤ Float.omega F
      · rw [if_pos h2, flt_zero]; rfl
      · rw [if_neg h2]
        by_cases h3 : (w : ℝ) < 0
        · have h4 : rr F w < 0 := lt_of_le_of_ne (by have := ru_neg_sign (F := F) h3; unfold rr; exact_mod_cast this) h1
          rw [decide_eq_true h3, decide_eq_true h4]; simp [infS, flt, cLe]
        · have h4 : 0 ≤ rr F w := rr_ge (unb_zero F) (by have := not_lt.1 h3; exact_mod_cast this)
          rw [decide_eq_false h3, decide_eq_false (not_lt.2 h4)]; simp [infS, flt, cLe]

end Verif.Rem
