import Verif.Rem.Core

/-! # The rounding of the quotient and the result of `remquo` -/

namespace Verif.Rem

open Verif.Float (Fmt Val)
open Verif.Elem
open Verif.Check

theorem double_fin {F : Fmt} (he : 3 ≤ F.e) {v : ℚ} (hv : F.Finite v) (h : |v| ≤ (2 : ℚ) ^ F.emin) : F.Finite (v * 2) := by
  have he2 : 2 ≤ F.e := by omega
  have hem := emax_ge3 he
  obtain ⟨n, hn⟩ := unb_min_grid ((finite_iff he2).1 hv).1
  have hp := Float.zp (F.emin - F.f)
  have hb : |n| ≤ 2 ^ F.f := by
    have h1 := h
    rw [hn, abs_mul, abs_of_pos hp, show F.emin = (F.f : ℤ) + (F.emin - F.f) by ring, add_sub_cancel_left, Float.zadd, mul_le_mul_iff_left₀ hp, Float.znat] at h1
    exact_mod_cast h1
  refine fin_of he2 (c := n) (j := F.emin - F.f + 1) (le_trans hb (pow_le_pow_right₀ (by norm_num) (by omega))) (by omega) ?_ ?_
  · rw [hn, Float.zadd, zpow_one]; ring
  · rw [abs_mul, abs_two]
    have h2 : (2 : ℚ) ^ (F.emin + 1) ≤ (2 : ℚ) ^ F.emax := Float.zle (by unfold Fmt.emin; omega)
    have h3 : (2 : ℚ) ^ F.emax < (2 : ℚ) ^ (F.emax + 1) := Float.zlt (by omega)
    rw [Float.zadd, zpow_one] at h2
    linarith

/-- the two scaled operands of the comparison with half the divisor -/
theorem half_cmp {F : Fmt} (he : 3 ≤ F.e) {Y : ℚ} (hY : F.Finite Y) (hY0 : Y ≠ 0) (hh : |Y| < (2 : ℚ) ^ F.emin ∨ F.Finite (Y / 2)) {m : ℚ}
    (hm : F.Finite m) (hmY : |m| ≤ |Y|) : ∃ u v : ℚ,
      fmul F (nn m) (if isSubnormal F (.num Y) then .num 2 else .num 1) = (if m = 0 then fmul F .plusZero (.num 1) else nn u) ∧
      fabs (fmul F (.num Y) (if isSubnormal F (.num Y) then .num 1 else .num (1 / 2))) = nn v ∧ (m ≠ 0 → (v < u ↔ |Y| < 2 * m) ∧ (u = v ↔ 2 * m = |Y|)) ∧ 0 < v := by
  have he2 : 2 ≤ F.e := by omega
  have hYp : 0 < |Y| := abs_pos.2 hY0
  have hz : fmul F .plusZero (.num 1) = .plusZero ∧ fmul F .plusZero (.num 2) = .plusZero := by
    constructor <;> (unfold fmul; simp [isNaN, isInf, sgn, Special.neg, numOf, rnd, zeroS]; try norm_num)
  rw [isSub_num]
  by_cases hs : |Y| < (2 : ℚ) ^ F.emin
  · rw [decide_eq_true hs]
    simp only [if_true]
    refine ⟨m * 2, |Y|, ?_, ?_, fun _ => ⟨by constructor <;> intro h <;> linarith, by constructor <;> intro h <;> linarith⟩, hYp⟩
    · by_cases h0 : m = 0
      · rw [if_pos h0, h0, nn_zero, hz.1, hz.2]
      · rw [if_neg h0, nn_num h0, fmul_num he2 h0 (by norm_num) (double_fin he hm (by linarith)), nn_num (mul_ne_zero h0 (by norm_num))]
    · rw [fmul_num he2 hY0 (by norm_num) (by rwa [mul_one]), mul_one, fabs_num hY0]
  · have hf := hh.resolve_left hs
    rw [decide_eq_false hs]
    simp only [Bool.false_eq_true, if_false]
    refine ⟨m, |Y| / 2, ?_, ?_, fun _ => ⟨by constructor <;> intro h <;> linarith, by constructor <;> intro h <;> linarith⟩, by linarith⟩
    · by_cases h0 : m = 0
      · rw [if_pos h0, h0, nn_zero]
      · rw [if_neg h0, nn_num h0, fmul_num he2 h0 (by norm_num) (by rwa [mul_one]), mul_one]
    · have e : Y * (1 / 2) = Y / 2 := by ring
      rw [fmul_num he2 hY0 (by norm_num) (by rwa [e]), e, fabs_num (by simpa using hY0), abs_div, abs_two]

theorem plusZero_one (F : Fmt) : fmul F .plusZero (.num 1) = nn 0 := by
  unfold fmul nn; simp [isNaN, isInf, sgn, Special.neg, numOf, rnd, zeroS]

theorem half_phase {F : Fmt} (he : 3 ≤ F.e) {Y : ℚ} (hY : F.Finite Y) (hY0 : Y ≠ 0) (hh : |Y| < (2 : ℚ) ^ F.emin ∨ F.Finite (Y / 2)) {m : ℚ}
    (hm : F.Finite m) (hm0 : 0 ≤ m) (hmY : m < |Y|) (hlast : |Y| ≤ 2 * m → F.Finite (m - |Y|)) {Q : ℤ} (hQ0 : 0 ≤ Q) (htie : 2 * m = |Y| → Q < 2 ^ F.f) :
    ∃ (Q' : ℤ) (m' : ℚ), atHalf F (.num Y) (overHalf F (.num Y) (wrap F Q, nn m)) = (wrap F Q', nn m') ∧ F.Finite m' ∧ 0 ≤ Q' ∧
      Q' * |Y| + m' = Q * |Y| + m ∧ 2 * |m'| ≤ |Y| ∧ (2 * |m'| = |Y| → Even Q') := by
  have he2 : 2 ≤ F.e := by omega
  have hYp : 0 < |Y| := abs_pos.2 hY0
  obtain ⟨u, v, c1, c2, c3, c4⟩ := half_cmp he hY hY0 hh hm (by rw [abs_of_nonneg hm0]; exact hmY.le)
  by_cases h0 : m = 0
  · refine ⟨Q, 0, ?_, ⟨0, 0, by simp, emin_le he2, by have := emax_pos he2; omega, by simp⟩, hQ0, by rw [h0], by simpa using hYp.le, fun h => by simp at h; linarith⟩
    have hg : fgt (fmul F (nn m) (if isSubnormal F (.num Y) then .num 2 else .num 1)) (fabs (fmul F (.num Y) (if isSubnormal F (.num Y) then .num 1 else .num (1 / 2)))) = false := by
      rw [c1, if_pos h0, plusZero_one, c2, fgt_nn]; exact decide_eq_false (by linarith)
    have hq : cEq (fmul F (nn m) (if isSubnormal F (.num Y) then .num 2 else .num 1)) (fabs (fmul F (.num Y) (if isSubnormal F (.num Y) then .num 1 else .num (1 / 2)))) = false := by
      rw [c1, if_pos h0, plusZero_one, c2, cEq_nn]; exact decide_eq_false (by linarith)
    have : overHalf F (.num Y) (wrap F Q, nn m) = (wrap F Q, nn m) := by unfold overHalf; rw [hg]; rfl
    rw [this]
    unfold atHalf
    rw [hq, h0]; rfl
  · obtain ⟨c5, c6⟩ := c3 h0
    have hg : fgt (fmul F (nn m) (if isSubnormal F (.num Y) then .num 2 else .num 1)) (fabs (fmul F (.num Y) (if isSubnormal F (.num Y) then .num 1 else .num (1 / 2)))) =
        decide (|Y| < 2 * m) := by
      rw [c1, if_neg h0, c2, fgt_nn]; exact decide_eq_decide.2 c5
    have hq : cEq (fmul F (nn m) (if isSubnormal F (.num Y) then .num 2 else .num 1)) (fabs (fmul F (.num Y) (if isSubnormal F (.num Y) then .num 1 else .num (1 / 2)))) =
        decide (2 * m = |Y|) := by
      rw [c1, if_neg h0, c2, cEq_nn]; exact decide_eq_decide.2 c6
    by_cases hgt : |Y| < 2 * m
    · -- above half
      have hd := hlast hgt.le
      have hdn : m - |Y| < 0 := by linarith
      obtain ⟨u', v', d1, d2, d3, d4⟩ := half_cmp he hY hY0 hh hd (by rw [abs_of_neg hdn]; linarith)
      obtain ⟨_, d6⟩ := d3 hdn.ne
      refine ⟨Q + 1, m - |Y|, ?_, hd, by omega, by push_cast; ring, by rw [abs_of_neg hdn]; linarith, fun h => by rw [abs_of_neg hdn] at h; linarith⟩
      have h1 : overHalf F (.num Y) (wrap F Q, nn m) = (wrap F (Q + 1), nn (m - |Y|)) := by
        unfold overHalf; rw [hg, decide_eq_true hgt, if_pos rfl, wrap_add, fabs_num hY0, fsub_nn' he2 hm0 hd]
      rw [h1]
      unfold atHalf
      have h2 : cEq (fmul F (nn (m - |Y|)) (if isSubnormal F (.num Y) then .num 2 else .num 1)) (fabs (fmul F (.num Y) (if isSubnormal F (.num Y) then .num 1 else .num (1 / 2)))) = false := by
        rw [d1, if_neg hdn.ne, d2, cEq_nn]; exact decide_eq_false (by rw [d6]; intro h; linarith)
      rw [h2]; rfl
    · have h1 : overHalf F (.num Y) (wrap F Q, nn m) = (wrap F Q, nn m) := by unfold overHalf; rw [hg, decide_eq_false hgt]; rfl
      rw [h1]
      unfold atHalf
      rw [hq]
      by_cases htv : 2 * m = |Y|
      · have hQs := htie htv
        have hw : wrap F Q = Q := wrap_small hQ0 hQs
        rw [decide_eq_true htv, Bool.true_and]
        have ht : (wrap F Q).tmod 2 = Q % 2 := by rw [hw, Int.tmod_eq_emod_of_nonneg hQ0]
        simp only [ht]
        by_cases hodd : Q % 2 = 1
        · have hd := hlast htv.ge
          rw [decide_eq_true hodd, if_pos rfl, wrap_add, fabs_num hY0, fsub_nn' he2 hm0 hd]
          refine ⟨Q + 1, m - |Y|, rfl, hd, by omega, by push_cast; ring, ?_, fun _ => by rw [Int.even_iff]; omega⟩
          rw [abs_of_neg (by linarith)]; linarith
        · rw [decide_eq_false hodd, if_neg (by simp)]
          exact ⟨Q, m, rfl, hm, hQ0, rfl, by rw [abs_of_nonneg hm0]; exact htv.le, fun _ => by rw [Int.even_iff]; omega⟩
      · rw [decide_eq_false htv, Bool.false_and, if_neg (by simp)]
        refine ⟨Q, m, rfl, hm, hQ0, rfl, by rw [abs_of_nonneg hm0]; exact not_lt.1 hgt, fun h => ?_⟩
        rw [abs_of_nonneg hm0] at h; exact absurd h htv

/-- a quotient at a tie is smaller than the significands -/
theorem tie_small {F : Fmt} (he : 2 ≤ F.e) {X Y m : ℚ} (hX : F.Finite X) (hY : F.Finite Y) (hY0 : Y ≠ 0) {Q : ℤ} (hQ : 0 ≤ Q) (h : Q * |Y| + m = |X|) (ht : 2 * m = |Y|) :
    Q < 2 ^ F.f := by
  obtain ⟨n, E, hn, hE, _, rfl⟩ := hX
  obtain ⟨b, hb⟩ := unb_min_grid ((finite_iff he).1 hY).1
  have hg := Float.zp (F.emin - F.f)
  obtain ⟨t, ht'⟩ : ∃ t : ℕ, (t : ℤ) = E - F.emin := ⟨(E - F.emin).toNat, by omega⟩
  have hXi : |(n : ℚ) * (2 : ℚ) ^ (E - F.f)| = (|n| * 2 ^ t : ℤ) * (2 : ℚ) ^ (F.emin - F.f) := by
    rw [abs_mul, abs_of_pos (Float.zp (E - F.f)), show E - F.f = (t : ℤ) + (F.emin - F.f) by omega, Float.zadd, Float.znat]; push_cast; ring
  have hYi : |Y| = |b| * (2 : ℚ) ^ (F.emin - F.f) := by rw [hb, abs_mul, abs_of_pos hg]; push_cast; rfl
  have h1 : (2 * Q + 1) * |b| = 2 * (|n| * 2 ^ t) := by
    have h2 : (2 * Q + 1) * |Y| = 2 * |(n : ℚ) * (2 : ℚ) ^ (E - F.f)| := by rw [← h]; linarith
    rw [hXi, hYi, ← mul_assoc, ← mul_assoc, mul_left_inj' hg.ne'] at h2
    exact_mod_cast h2
  have hb0 : b ≠ 0 := by rintro rfl; apply hY0; rw [hb]; simp
  have hdvd : (2 * Q + 1) ∣ |n| := by
    have h3 : (2 * Q + 1) ∣ |n| * 2 ^ (t + 1) := ⟨|b|, by rw [h1, pow_succ]; ring⟩
    refine IsCoprime.dvd_of_dvd_mul_right ?_ h3
    apply IsCoprime.pow_right
    exact ⟨1, -Q, by ring⟩
  have hn0 : 0 < |n| := by
    rcases (abs_nonneg n).lt_or_eq with h4 | h4
    · exact h4
    · rw [← h4] at h1
      have : 0 < (2 * Q + 1) * |b| := mul_pos (by omega) (abs_pos.2 hb0)
      omega
  have := Int.le_of_dvd hn0 hdvd
  rw [pow_succ] at hn
  omega

theorem flt_zero (X : ℚ) : flt (.num X) .plusZero = decide (X < 0) := by
  change (decide (X ≤ 0) && !decide (0 ≤ X)) = decide (X < 0)
  by_cases h : X < 0
  · rw [decide_eq_true h.le, decide_eq_false (not_le.2 h), decide_eq_true h]; rfl
  · rw [decide_eq_true (not_lt.1 h), decide_eq_false h]; simp

theorem signs_fst {F : Fmt} (he : 2 ≤ F.e) {X Y m : ℚ} (hm : F.Finite m) (k : ℕ) (q : ℤ) :
    (signs F k (.num X) (.num Y) (q, nn m)).1 = if m = 0 then zeroS (decide (X < 0)) else .num (if X < 0 then -m else m) := by
  unfold signs
  have hx := flt_zero X
  simp only [hx]
  by_cases h : X < 0
  · simp only [h, decide_true, if_true]
    by_cases h0 : m = 0
    · rw [if_pos h0, h0, nn_zero]; unfold fmul; simp [isNaN, isInf, sgn, Special.neg, numOf, rnd, zeroS]
    · rw [if_neg h0, nn_num h0, fmul_num he (by norm_num) h0 (by rw [neg_one_mul]; exact finite_neg hm), neg_one_mul]
  · simp only [h, decide_false, Bool.false_eq_true, if_false]
    by_cases h0 : m = 0
    · rw [if_pos h0, h0, nn_zero]; unfold fmul; simp [isNaN, isInf, sgn, Special.neg, numOf, rnd, zeroS]
    · rw [if_neg h0, nn_num h0, fmul_num he (by norm_num) h0 (by rwa [one_mul]), one_mul]

theorem signs_snd {F : Fmt} {X Y : ℚ} {k : ℕ} (hk : k ≤ intSize F) (Q : ℤ) (mx : Val) :
    (signs F k (.num X) (.num Y) (wrap F Q, mx)).2 = (if xor (decide (X < 0)) (decide (Y < 0)) then -1 else 1) * (Q % 2 ^ k) := by
  have hx := flt_zero
  unfold signs
  simp only [hx, wrap_mod]
  rw [Int.emod_emod_of_dvd _ (pow_dvd_pow 2 hk)]

/-- the loop of `remquo` -/
theorem remLoop_spec {F : Fmt} (he : 3 ≤ F.e) (hfe : (F.f : ℤ) ≤ F.emax) (hwd : 2 * F.emax + F.f + 1 ≤ 5000) {X Y : ℚ} (hX : F.Finite X) (hX0 : X ≠ 0)
    (hY : F.Finite Y) (hY0 : Y ≠ 0) (hh : |Y| < (2 : ℚ) ^ F.emin ∨ F.Finite (Y / 2)) {k : ℕ} (hk : k ≤ intSize F) : ∃ (Q : ℤ) (m : ℚ),
      remLoop F k (.num X) (.num Y) = some (if m = 0 then zeroS (decide (X < 0)) else .num (if X < 0 then -m else m),
        (if xor (decide (X < 0)) (decide (Y < 0)) then -1 else 1) * (Q % 2 ^ k)) ∧
      F.Finite m ∧ 0 ≤ Q ∧ Q * |Y| + m = |X| ∧ 2 * |m| ≤ |Y| ∧ (2 * |m| = |Y| → Even Q) := by
  have he2 : 2 ≤ F.e := by omega
  obtain ⟨Q, m, w, st, hw, heq⟩ := to_stage he hfe hwd hX hX0 hY hY0 k
  obtain ⟨q, mx, w', l1, Q1, m1, l2, l3, l4, l5, l6, l7, l8, l9⟩ :=
    loop3_spec he2 (abs_pos.2 hY0) (fabs_num hY0) st.m0 st.lt st.fin st.sub hw Q
  have hQ1 : 0 ≤ Q1 := le_trans st.q0 l6
  have heq1 : Q1 * |Y| + m1 = |X| := l5.trans st.eq
  obtain ⟨Q2, m2, p1, p2, p3, p4, p5, p6⟩ := half_phase he hY hY0 hh l7 l3 l4
    (st.last m1 (by rcases lt_or_ge m |Y| with h | h; exacts [Or.inl ⟨h, l8 h⟩, Or.inr ⟨h, l9 h⟩])) hQ1
    (tie_small he2 hX hY hY0 hQ1 heq1)
  refine ⟨Q2, m2, ?_, p2, p3, p4.trans heq1, p5, p6⟩
  rw [heq, l1]
  simp only
  rw [l2, p1, ← signs_fst he2 p2 k (wrap F Q2), ← signs_snd hk Q2 (nn m2)]

end Verif.Rem
