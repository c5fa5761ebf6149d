import Verif.Rem.Loops

/-! # The scalings of the operands -/

namespace Verif.Rem

open Verif.Float (Fmt Val)
open Verif.Elem
open Verif.Check

theorem emax_ge3 {F : Fmt} (he : 3 ≤ F.e) : 3 ≤ F.emax := by
  have : (2 : ℤ) ^ 2 ≤ 2 ^ (F.e - 1) := pow_le_pow_right₀ (by norm_num) (by omega)
  unfold Fmt.emax; omega

theorem halves {F : Fmt} (he : 3 ≤ F.e) {s : ℤ} (h1 : F.emin - 1 ≤ s) (h2 : s ≤ F.emax) :
    F.emin ≤ s.tdiv 2 ∧ s.tdiv 2 + 1 ≤ F.emax ∧ s.tdiv 2 ≤ -F.emin ∧ F.emin ≤ s - s.tdiv 2 ∧ s - s.tdiv 2 + 1 ≤ F.emax ∧ s - s.tdiv 2 ≤ -F.emin := by
  have := emax_ge3 he
  unfold Fmt.emin at *
  rw [Int.tdiv_eq_ediv]
  split_ifs with h
  · omega
  · have : Int.sign 2 = 1 := rfl
    omega

/-- an operand, its exponent field and its significand -/
theorem split {F : Fmt} (he : 3 ≤ F.e) {X : ℚ} (hX : F.Finite X) (h0 : X ≠ 0) : ∃ a : ℤ, 0 < a ∧ a < 2 ^ (F.f + 1) ∧
    |X| = a * (2 : ℚ) ^ (expExtract F (.num X) - F.f) ∧ F.emin - 1 ≤ expExtract F (.num X) ∧ expExtract F (.num X) ≤ F.emax ∧
    (F.emin ≤ expExtract F (.num X) → 2 ^ F.f ≤ a ∧ (2 : ℚ) ^ F.emin ≤ |X|) ∧ (expExtract F (.num X) = F.emin - 1 → Even a ∧ |X| < (2 : ℚ) ^ F.emin) := by
  obtain ⟨hu, ho⟩ := (finite_iff (by omega)).1 hX
  have hp : 0 < |X| := abs_pos.2 h0
  have hem := emax_ge3 he
  by_cases hs : |X| < (2 : ℚ) ^ F.emin
  · have hE : expExtract F (.num X) = F.emin - 1 := if_pos hs
    obtain ⟨n, hn⟩ := unb_min_grid hu
    have hn' : |X| = |n| * (2 : ℚ) ^ (F.emin - F.f) := by rw [hn, abs_mul, abs_of_pos (Float.zp (F.emin - F.f))]; push_cast; ring
    have hn0 : n ≠ 0 := by rintro rfl; apply h0; rw [hn]; simp
    have hlt : |n| < 2 ^ F.f := by
      rw [hn', show F.emin = (F.f : ℤ) + (F.emin - F.f) by ring, add_sub_cancel_left, Float.zadd, mul_lt_mul_iff_of_pos_right (Float.zp _), Float.znat] at hs
      exact_mod_cast hs
    rw [hE]
    refine ⟨2 * |n|, by positivity, by rw [pow_succ]; omega, ?_, le_refl _, by unfold Fmt.emin; omega, by omega, fun _ => ⟨even_two_mul _, hs⟩⟩
    rw [hn', show F.emin - F.f = 1 + (F.emin - 1 - F.f) by ring, Float.zadd, zpow_one]; push_cast; ring
  · have hE : expExtract F (.num X) = Int.log 2 |X| := if_neg hs
    have h1 := Float.pow_log_le hp
    have h2 := Float.lt_pow_log (a := |X|)
    have h3 : F.emin ≤ Int.log 2 |X| := Float.le_log hp (not_lt.1 hs)
    have h4 : Int.log 2 |X| < F.emax + 1 := Float.log_lt hp (lt_of_le_of_lt ho (omega_lt (by omega)))
    obtain ⟨n, hn⟩ := unb_grid hu h1
    have hq := Float.zp (Int.log 2 |X| - F.f)
    have hn' : |X| = |n| * (2 : ℚ) ^ (Int.log 2 |X| - F.f) := by
      conv_lhs => rw [hn]
      rw [abs_mul, abs_of_pos hq]; push_cast; ring
    have hb1 : (2 : ℤ) ^ F.f ≤ |n| := by
      have h5 := h1
      conv_rhs at h5 => rw [hn']
      conv_lhs at h5 => rw [show Int.log 2 |X| = (F.f : ℤ) + (Int.log 2 |X| - F.f) by ring, Float.zadd]
      rw [mul_le_mul_iff_left₀ hq, Float.znat] at h5
      exact_mod_cast h5
    have hb2 : |n| < (2 : ℤ) ^ (F.f + 1) := by
      have h5 := h2
      conv_lhs at h5 => rw [hn']
      conv_rhs at h5 => rw [show Int.log 2 |X| + 1 = ((F.f + 1 : ℕ) : ℤ) + (Int.log 2 |X| - F.f) by push_cast; ring, Float.zadd]
      rw [mul_lt_mul_iff_of_pos_right hq, Float.znat] at h5
      exact_mod_cast h5
    rw [hE]
    refine ⟨|n|, lt_of_lt_of_le (by positivity) hb1, hb2, ?_, by omega, by omega, fun _ => ⟨hb1, not_lt.1 hs⟩, by omega⟩
    conv_lhs => rw [hn']

theorem scaleDown_eq {F : Fmt} (he : 3 ≤ F.e) {X : ℚ} (h0 : X ≠ 0) {a : ℤ} (ha0 : 0 < a) (ha : a < 2 ^ (F.f + 1))
    (hX : |X| = a * (2 : ℚ) ^ (expExtract F (.num X) - F.f)) (h1 : F.emin - 1 ≤ expExtract F (.num X)) (h2 : expExtract F (.num X) ≤ F.emax) :
    scaleDown F (.num X) = nn (a * (2 : ℚ) ^ (-(F.f : ℤ))) := by
  obtain ⟨k1, k2, k3, k4, k5, k6⟩ := halves he h1 h2
  have he2 : 2 ≤ F.e := by omega
  unfold scaleDown
  simp only
  set E := expExtract F (.num X)
  set p := E.tdiv 2
  rw [insExp_eq he2 (k := -p) (by omega) (by unfold Fmt.emin at *; omega), insExp_eq he2 (k := -(E - p)) (by omega) (by unfold Fmt.emin at *; omega)]
  have hX' : ∃ c : ℤ, |c| = a ∧ X = c * (2 : ℚ) ^ (E - F.f) := by
    rcases abs_choice X with h | h
    · exact ⟨a, abs_of_pos ha0, by rw [← hX, h]⟩
    · exact ⟨-a, by rw [abs_neg, abs_of_pos ha0], by push_cast; rw [neg_mul, ← hX, h]; ring⟩
  obtain ⟨c, hc, hXc⟩ := hX'
  have fin : ∀ j : ℤ, F.emin ≤ j → j ≤ F.emax → F.Finite (c * (2 : ℚ) ^ (j - F.f)) := by
    intro j hj1 hj2
    refine fin_of he2 (c := c) (j := j - F.f) (by rw [hc]; exact ha.le) (by omega) rfl ?_
    rw [abs_mul, abs_of_pos (Float.zp (j - F.f)), ← Int.cast_abs, hc]
    have h3 : ((a : ℤ) : ℚ) < 2 ^ (F.f + 1) := by exact_mod_cast ha
    have h4 := mul_lt_mul_of_pos_right h3 (Float.zp (j - F.f))
    rw [← Float.znat, ← Float.zadd] at h4
    exact lt_of_lt_of_le h4 (Float.zle (by push_cast; omega))
  have e1 : X * (2 : ℚ) ^ (-p) = c * (2 : ℚ) ^ ((E - p) - F.f) := by
    rw [hXc, mul_assoc, ← Float.zadd]; congr 2; ring
  have e2 : X * (2 : ℚ) ^ (-p) * (2 : ℚ) ^ (-(E - p)) = c * (2 : ℚ) ^ (0 - (F.f : ℤ)) := by
    rw [e1, mul_assoc, ← Float.zadd]; congr 2; ring
  have hem := emin_le he2
  have hem' := emax_pos he2
  rw [fmul_num he2 h0 (Float.zp _).ne' (by rw [e1]; exact fin _ k4 (by omega)),
    fmul_num he2 (mul_ne_zero h0 (Float.zp _).ne') (Float.zp _).ne' (by rw [e2]; exact fin 0 hem (by omega)), e2,
    fabs_num (by rw [← e2]; exact mul_ne_zero (mul_ne_zero h0 (Float.zp _).ne') (Float.zp _).ne')]
  rw [abs_mul, abs_of_pos (Float.zp (0 - (F.f : ℤ))), ← Int.cast_abs, hc, zero_sub]

theorem isSub_num {F : Fmt} (v : ℚ) : isSubnormal F (.num v) = decide (|v| < (2 : ℚ) ^ F.emin) := rfl

/-- the divisor: `my` in `[1, 2)`, and how far below the exponent field it is -/
theorem initMy_eq {F : Fmt} (he : 3 ≤ F.e) (hfe : (F.f : ℤ) ≤ F.emax) {Y : ℚ} (hY : F.Finite Y) (h0 : Y ≠ 0) : ∃ (B : ℤ) (s : ℕ),
    2 ^ F.f ≤ B ∧ B < 2 ^ (F.f + 1) ∧ initMy F (.num Y) = nn (B * (2 : ℚ) ^ (-(F.f : ℤ))) ∧ |Y| = B * (2 : ℚ) ^ (expExtract F (.num Y) - s - F.f) ∧
    (F.emin ≤ expExtract F (.num Y) → s = 0) ∧
    (expExtract F (.num Y) = F.emin - 1 → s < F.f ∧ |Y| < (2 : ℚ) ^ F.emin ∧ ∃ C : ℤ, 0 < C ∧ B = C * 2 ^ (s + 1) ∧ |Y| = C * (2 : ℚ) ^ (F.emin - F.f)) := by
  have he2 : 2 ≤ F.e := by omega
  obtain ⟨a, ha0, ha, hYa, h1, h2, h3, h4⟩ := split he hY h0
  unfold initMy
  rw [isSub_num]
  by_cases hn : F.emin ≤ expExtract F (.num Y)
  · obtain ⟨h5, h6⟩ := h3 hn
    rw [decide_eq_false (not_lt.2 h6), if_neg (by simp)]
    refine ⟨a, 0, h5, ha, scaleDown_eq he h0 ha0 ha hYa h1 h2, by rw [hYa]; norm_num, fun _ => rfl, by omega⟩
  · have hE : expExtract F (.num Y) = F.emin - 1 := by omega
    obtain ⟨hev, hlt⟩ := h4 hE
    obtain ⟨C, hC⟩ := hev
    have hC0 : 0 < C := by omega
    have hYC : |Y| = C * (2 : ℚ) ^ (F.emin - F.f) := by
      rw [hYa, hE, hC, show F.emin - F.f = 1 + (F.emin - 1 - F.f) by ring, Float.zadd, zpow_one]; push_cast; ring
    have hClt : C < 2 ^ F.f := by rw [pow_succ] at ha; omega
    rw [decide_eq_true hlt, if_pos rfl]
    have hCq : (0 : ℚ) < C := by exact_mod_cast hC0
    set l := Int.log 2 (C : ℚ) with hl
    have l1 := Float.pow_log_le hCq
    have l2 := Float.lt_pow_log (a := (C : ℚ))
    have l3 : 0 ≤ l := Float.le_log hCq (by simpa using (by exact_mod_cast hC0 : (1 : ℚ) ≤ C))
    have l4 : l < F.f := Float.log_lt hCq (by rw [Float.znat]; exact_mod_cast hClt)
    obtain ⟨s, hs⟩ : ∃ s : ℕ, (s : ℤ) = F.f - 1 - l := ⟨(F.f - 1 - l).toNat, by omega⟩
    have hB : (2 : ℚ) ^ (s + 1) = (2 : ℚ) ^ ((F.f : ℤ) - l) := by rw [← Float.znat]; congr 1; push_cast; omega
    have habs : |Y * (2 : ℚ) ^ (F.f + 1)| = C * (2 : ℚ) ^ (F.emin + 1) := by
      rw [abs_mul, hYC, abs_of_pos (by positivity), ← Float.znat, mul_assoc, ← Float.zadd]; congr 2; push_cast; ring
    have hem := emax_ge3 he
    have hmul : fmul F (.num Y) (.num ((2 : ℚ) ^ (F.f + 1))) = .num (Y * (2 : ℚ) ^ (F.f + 1)) := by
      refine fmul_num he2 h0 (by positivity) ?_
      have hY' : ∃ c : ℤ, |c| = C ∧ Y = c * (2 : ℚ) ^ (F.emin - F.f) := by
        rcases abs_choice Y with h | h
        · exact ⟨C, abs_of_pos hC0, by rw [← hYC, h]⟩
        · exact ⟨-C, by rw [abs_neg, abs_of_pos hC0], by push_cast; rw [neg_mul, ← hYC, h]; ring⟩
      obtain ⟨c, hc, hYc⟩ := hY'
      refine fin_of he2 (c := c) (j := F.emin + 1) (by rw [hc, pow_succ]; omega) (by omega) ?_ ?_
      · rw [hYc, ← Float.znat, mul_assoc, ← Float.zadd]; congr 2; push_cast; ring
      · rw [habs]
        have : (C : ℚ) < (2 : ℚ) ^ (F.f : ℤ) := by rw [Float.znat]; exact_mod_cast hClt
        have h5 := mul_lt_mul_of_pos_right this (Float.zp (F.emin + 1))
        rw [← Float.zadd] at h5
        have hsu : (C : ℚ) * (2 : ℚ) ^ (F.emin + 1) < (2 : ℚ) ^ (F.emax + 1) := by
          -- the scaled divisor is below `2^(emin + f + 1)`
          have hle : (2 : ℚ) ^ ((F.f : ℤ) + (F.emin + 1)) ≤ (2 : ℚ) ^ (F.emax + 1) := Float.zle (by unfold Fmt.emin; omega)
          linarith
        exact hsu
    have hlog : Int.log 2 |Y * (2 : ℚ) ^ (F.f + 1)| = l + (F.emin + 1) := by
      rw [habs]; apply Float.log_eq
      · rw [Float.zadd]; exact mul_le_mul_of_nonneg_right l1 (Float.zp _).le
      · rw [show l + (F.emin + 1) + 1 = (l + 1) + (F.emin + 1) by ring, Float.zadd (l + 1)]; exact mul_lt_mul_of_pos_right l2 (Float.zp _)
    have hnsub : ¬ |Y * (2 : ℚ) ^ (F.f + 1)| < (2 : ℚ) ^ F.emin := by
      rw [habs, not_lt]
      have h5 : (1 : ℚ) ≤ C := by exact_mod_cast hC0
      have h6 : (2 : ℚ) ^ F.emin ≤ (2 : ℚ) ^ (F.emin + 1) := Float.zle (by omega)
      nlinarith [Float.zp (F.emin + 1)]
    refine ⟨C * 2 ^ (s + 1), s, ?_, ?_, ?_, ?_, by omega, fun _ => ⟨by omega, hlt, C, hC0, rfl, hYC⟩⟩
    · have : (2 : ℚ) ^ F.f ≤ C * (2 : ℚ) ^ (s + 1) := by
        rw [hB, ← Float.znat, show ((F.f : ℕ) : ℤ) = l + (F.f - l) by ring, Float.zadd]
        simp only [add_sub_cancel]
        exact mul_le_mul_of_nonneg_right l1 (Float.zp _).le
      exact_mod_cast this
    · have : C * (2 : ℚ) ^ (s + 1) < (2 : ℚ) ^ (F.f + 1) := by
        rw [hB, ← Float.znat, show ((F.f + 1 : ℕ) : ℤ) = (l + 1) + (F.f - l) by push_cast; ring, Float.zadd]
        exact mul_lt_mul_of_pos_right l2 (Float.zp _)
      exact_mod_cast this
    · rw [hmul, mantExtract, if_neg hnsub, hlog, fabs_num (mul_ne_zero (mul_ne_zero h0 (by positivity)) (Float.zp _).ne'), abs_mul, habs, abs_of_pos (Float.zp _)]
      congr 1
      push_cast
      rw [hB, mul_assoc, mul_assoc, ← Float.zadd, ← Float.zadd]; congr 2; ring
    · rw [hYC, hE]; push_cast
      rw [hB, mul_assoc, ← Float.zadd]; congr 2; omega

end Verif.Rem
