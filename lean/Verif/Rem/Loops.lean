import Verif.Rem.Lemmas

/-! # The three loops -/

namespace Verif.Rem

open Verif.Float (Fmt Val)
open Verif.Elem
open Verif.Check

theorem emin_le {F : Fmt} (he : 2 ≤ F.e) : F.emin ≤ 0 := by
  have := emax_pos he; unfold Fmt.emin; omega

theorem loop1_done (F : Fmt) (my : Val) {n : ℤ} (w : ℕ) {i : ℤ} (q : ℤ) (mx : Val) (h : ¬ i < n) : loop1 F my n w i q mx = some (q, mx, w) := by
  cases w <;> simp [loop1, h]

theorem loop1_spec {F : Fmt} (he : 2 ≤ F.e) {B : ℤ} (hB2 : B < 2 ^ (F.f + 1)) (n : ℤ) (m : ℕ) : ∀ (w : ℕ) (i Q a : ℤ), n - i = m → m ≤ w →
    0 ≤ a → a < 2 * B → 0 ≤ Q → ∃ Q' a' : ℤ,
      loop1 F (nn (B * (2 : ℚ) ^ (-(F.f : ℤ)))) n w i (wrap F Q) (nn (a * (2 : ℚ) ^ (-(F.f : ℤ)))) =
        some (wrap F Q', nn (a' * (2 : ℚ) ^ (-(F.f : ℤ))), w - m) ∧
      2 * Q' * B + a' = 2 ^ m * (2 * Q * B + a) ∧ 0 ≤ a' ∧ a' < 2 * B ∧ 0 ≤ Q' ∧ (0 < m → Even a') ∧ (m = 0 → a' = a) := by
  have hp := Float.zp (-(F.f : ℤ))
  have h2B : ((2 : ℚ) ^ (F.f + 1)) * (2 : ℚ) ^ (-(F.f : ℤ)) = 2 := by
    rw [← Float.znat, ← Float.zadd, show ((F.f + 1 : ℕ) : ℤ) + -(F.f : ℤ) = 1 by push_cast; ring, zpow_one]
  have hem := emax_pos he
  induction m with
  | zero =>
    intro w i Q a hn _ h0 h1 hQ
    refine ⟨Q, a, ?_, by ring, h0, h1, hQ, by omega, fun _ => rfl⟩
    rw [loop1_done _ _ _ _ _ (by push_cast at hn; omega)]; rfl
  | succ m ih =>
    intro w i Q a hn hw h0 h1 hQ
    obtain ⟨w, rfl⟩ : ∃ w', w = w' + 1 := ⟨w - 1, by omega⟩
    have hlt : i < n := by push_cast at hn; omega
    rw [loop1, if_pos hlt]
    have hge : fge (nn (a * (2 : ℚ) ^ (-(F.f : ℤ)))) (nn (B * (2 : ℚ) ^ (-(F.f : ℤ)))) = decide (B ≤ a) := by
      rw [fge_nn]; congr 1
      rw [mul_le_mul_iff_left₀ hp]; simp
    rw [hge]
    set b : ℤ := if B ≤ a then 1 else 0 with hb
    have hs : fsub F (nn (a * (2 : ℚ) ^ (-(F.f : ℤ)))) (if decide (B ≤ a) = true then nn (B * (2 : ℚ) ^ (-(F.f : ℤ))) else .plusZero) =
        nn ((a - b * B : ℤ) * (2 : ℚ) ^ (-(F.f : ℤ))) := by
      have hbd : 0 ≤ a - b * B ∧ a - b * B < B := by
        by_cases hc : B ≤ a
        · rw [hb, if_pos hc]; omega
        · rw [hb, if_neg hc]; omega
      have hfin : F.Finite ((a - b * B : ℤ) * (2 : ℚ) ^ (-(F.f : ℤ))) := by
        refine fin_of he (c := a - b * B) (j := -(F.f : ℤ)) ?_ (by have := emin_le he; omega) rfl ?_
        · rw [abs_of_nonneg hbd.1]; omega
        · rw [abs_of_nonneg (mul_nonneg (by exact_mod_cast hbd.1) hp.le)]
          have : ((a - b * B : ℤ) : ℚ) < 2 ^ (F.f + 1) := by exact_mod_cast lt_trans hbd.2 hB2
          have h3 := mul_lt_mul_of_pos_right this hp
          rw [h2B] at h3
          have h4 : (2 : ℚ) ^ (1 : ℤ) ≤ (2 : ℚ) ^ (F.emax + 1) := Float.zle (by omega)
          rw [zpow_one] at h4
          linarith
      have ha0 : 0 ≤ (a : ℚ) * (2 : ℚ) ^ (-(F.f : ℤ)) := mul_nonneg (by exact_mod_cast h0) hp.le
      by_cases hc : B ≤ a
      · have e : (a : ℚ) * (2 : ℚ) ^ (-(F.f : ℤ)) - B * (2 : ℚ) ^ (-(F.f : ℤ)) = (a - b * B : ℤ) * (2 : ℚ) ^ (-(F.f : ℤ)) := by
          rw [hb, if_pos hc]; push_cast; ring
        rw [decide_eq_true hc, if_pos rfl, fsub_nn' he ha0 (by rw [e]; exact hfin), e]
      · have e : (a : ℚ) * (2 : ℚ) ^ (-(F.f : ℤ)) - 0 = (a - b * B : ℤ) * (2 : ℚ) ^ (-(F.f : ℤ)) := by
          rw [hb, if_neg hc]; push_cast; ring
        rw [decide_eq_false hc, if_neg (by simp), ← nn_zero, fsub_nn' he ha0 (by rw [e]; exact hfin), e]
    have hbd : 0 ≤ a - b * B ∧ a - b * B < B := by
      by_cases hc : B ≤ a
      · rw [hb, if_pos hc]; omega
      · rw [hb, if_neg hc]; omega
    have hmul : fmul F (.num 2) (nn ((a - b * B : ℤ) * (2 : ℚ) ^ (-(F.f : ℤ)))) = nn ((2 * (a - b * B) : ℤ) * (2 : ℚ) ^ (-(F.f : ℤ))) := by
      have e : (2 : ℚ) * ((a - b * B : ℤ) * (2 : ℚ) ^ (-(F.f : ℤ))) = (2 * (a - b * B) : ℤ) * (2 : ℚ) ^ (-(F.f : ℤ)) := by push_cast; ring
      rw [← nn_num (show (2 : ℚ) ≠ 0 by norm_num), fmul_nn he (by norm_num) (mul_nonneg (by exact_mod_cast hbd.1) hp.le) ?_, e]
      rw [e]
      refine fin_of he (c := a - b * B) (j := 1 - (F.f : ℤ)) ?_ (by have := emin_le he; omega) ?_ ?_
      · rw [abs_of_nonneg hbd.1]; omega
      · rw [show (1 - (F.f : ℤ)) = 1 + -(F.f : ℤ) by ring, Float.zadd, zpow_one]; push_cast; ring
      · rw [abs_of_nonneg (mul_nonneg (by have := hbd.1; exact_mod_cast (by omega : 0 ≤ 2 * (a - b * B))) hp.le)]
        have : ((a - b * B : ℤ) : ℚ) < 2 ^ (F.f + 1) := by exact_mod_cast lt_trans hbd.2 hB2
        have h3 := mul_lt_mul_of_pos_right this hp
        rw [h2B] at h3
        have h4 : (2 : ℚ) ^ (2 : ℤ) ≤ (2 : ℚ) ^ (F.emax + 1) := Float.zle (by omega)
        norm_num at h4
        push_cast at h3 ⊢
        linarith
    have hq : wrap F (wrap F (wrap F Q * 2) + if decide (B ≤ a) = true then 1 else 0) = wrap F (2 * Q + b) := by
      rw [wrap_mul, wrap_add, mul_comm]
      congr 2
      rw [hb]; simp
    rw [hs, hmul, hq]
    obtain ⟨Q', a', g1, g2, g3, g4, g5, g6, g7⟩ := ih w (i + 1) (2 * Q + b) (2 * (a - b * B)) (by push_cast at hn; omega) (by omega) (by omega) (by omega)
      (by rw [hb]; split_ifs <;> omega)
    refine ⟨Q', a', ?_, ?_, g3, g4, g5, fun _ => ?_, by omega⟩
    · rw [g1, show w + 1 - (m + 1) = w - m by omega]
    · rw [g2, pow_succ]; ring
    · rcases Nat.eq_zero_or_pos m with h | h
      · rw [g7 h]; exact even_two_mul _
      · exact g6 h

/-- the second loop: `my` is `2^s` times the divisor -/
theorem loop2_spec {F : Fmt} (he : 2 ≤ F.e) {y : Val} {C j : ℤ} (hC : 0 < C) (hy : fabs y = nn (C * (2 : ℚ) ^ j)) (hj : F.emin - F.f ≤ j) (s : ℕ) :
    ∀ (w : ℕ) (Q a : ℤ), s ≤ w → 0 ≤ a → a < 2 * (C * 2 ^ s) → 0 ≤ Q → (0 < s → C * 2 ^ s ≤ 2 ^ (F.f + 1) ∧ j + F.f + 1 ≤ F.emax) → ∃ Q' a' : ℤ,
      loop2 F y w (wrap F Q) (nn (a * (2 : ℚ) ^ j)) (nn ((C * 2 ^ s : ℤ) * (2 : ℚ) ^ j)) = some (wrap F Q', nn (a' * (2 : ℚ) ^ j), w - s) ∧
      2 * Q' * C + a' = 2 * Q * (C * 2 ^ s) + a ∧ 0 ≤ a' ∧ a' < 2 * C ∧ 0 ≤ Q' ∧ (s = 0 → a' = a) ∧ (Even a → Even C → Even a') := by
  have hp := Float.zp j
  induction s with
  | zero =>
    intro w Q a _ h0 h1 hQ _
    refine ⟨Q, a, ?_, by ring, h0, by linarith, hQ, fun _ => rfl, fun h _ => h⟩
    have hgt : fgt (nn ((C * 2 ^ 0 : ℤ) * (2 : ℚ) ^ j)) (fabs y) = false := by
      rw [hy, fgt_nn]; simp
    cases w <;> rw [loop2, hgt] <;> rfl
  | succ s ih =>
    intro w Q a hw h0 h1 hQ hb'
    obtain ⟨hb1, hb2⟩ := hb' (by omega)
    obtain ⟨w, rfl⟩ : ∃ w', w = w' + 1 := ⟨w - 1, by omega⟩
    have h2s : (1 : ℤ) ≤ 2 ^ s := one_le_pow₀ (by norm_num)
    have hCs : C ≤ C * 2 ^ s := le_mul_of_one_le_right hC.le h2s
    have hM : C * 2 ^ (s + 1) = 2 * (C * 2 ^ s) := by rw [pow_succ]; ring
    have hgt : fgt (nn ((C * 2 ^ (s + 1) : ℤ) * (2 : ℚ) ^ j)) (fabs y) = true := by
      rw [hy, fgt_nn]; apply decide_eq_true
      apply mul_lt_mul_of_pos_right _ hp
      have : C < C * 2 ^ (s + 1) := by rw [hM]; omega
      exact_mod_cast this
    rw [loop2, if_pos hgt]
    set M : ℤ := C * 2 ^ (s + 1) with hMd
    have hM0 : 0 < M := by rw [hM]; omega
    have hMp : (0 : ℚ) ≤ (M : ℤ) * (2 : ℚ) ^ j := mul_nonneg (by exact_mod_cast hM0.le) hp.le
    rw [fabs_nn hMp]
    have hge : fge (nn (a * (2 : ℚ) ^ j)) (nn (M * (2 : ℚ) ^ j)) = decide (M ≤ a) := by
      rw [fge_nn]; congr 1
      rw [mul_le_mul_iff_left₀ hp]; simp
    rw [hge]
    set b : ℤ := if M ≤ a then 1 else 0 with hb
    have hbd : 0 ≤ a - b * M ∧ a - b * M < M := by
      by_cases hc : M ≤ a
      · rw [hb, if_pos hc]; omega
      · rw [hb, if_neg hc]; omega
    have hbig : (2 : ℚ) ^ (F.f + 1) * (2 : ℚ) ^ j < (2 : ℚ) ^ (F.emax + 1) := by
      rw [← Float.znat, ← Float.zadd]; apply Float.zlt; push_cast; omega
    have hfin : F.Finite ((a - b * M : ℤ) * (2 : ℚ) ^ j) := by
      refine fin_of he (c := a - b * M) (j := j) ?_ hj rfl ?_
      · rw [abs_of_nonneg hbd.1]; omega
      · rw [abs_of_nonneg (mul_nonneg (by exact_mod_cast hbd.1) hp.le)]
        have : ((a - b * M : ℤ) : ℚ) ≤ 2 ^ (F.f + 1) := by exact_mod_cast le_trans hbd.2.le hb1
        exact lt_of_le_of_lt (mul_le_mul_of_nonneg_right this hp.le) hbig
    have hs : fsub F (nn (a * (2 : ℚ) ^ j)) (if decide (M ≤ a) = true then nn (M * (2 : ℚ) ^ j) else .plusZero) = nn ((a - b * M : ℤ) * (2 : ℚ) ^ j) := by
      have ha0 : 0 ≤ (a : ℚ) * (2 : ℚ) ^ j := mul_nonneg (by exact_mod_cast h0) hp.le
      by_cases hc : M ≤ a
      · have e : (a : ℚ) * (2 : ℚ) ^ j - M * (2 : ℚ) ^ j = (a - b * M : ℤ) * (2 : ℚ) ^ j := by
          rw [hb, if_pos hc]; push_cast; ring
        rw [decide_eq_true hc, if_pos rfl, fsub_nn' he ha0 (by rw [e]; exact hfin), e]
      · have e : (a : ℚ) * (2 : ℚ) ^ j - 0 = (a - b * M : ℤ) * (2 : ℚ) ^ j := by
          rw [hb, if_neg hc]; push_cast; ring
        rw [decide_eq_false hc, if_neg (by simp), ← nn_zero, fsub_nn' he ha0 (by rw [e]; exact hfin), e]
    have hq : wrap F (wrap F (wrap F Q * 2) + if decide (M ≤ a) = true then 1 else 0) = wrap F (2 * Q + b) := by
      rw [wrap_mul, wrap_add, mul_comm]
      congr 2
      rw [hb]; simp
    have hhalf : fmul F (nn (M * (2 : ℚ) ^ j)) (.num (1 / 2)) = nn ((C * 2 ^ s : ℤ) * (2 : ℚ) ^ j) := by
      have e : ((M : ℤ) : ℚ) * (2 : ℚ) ^ j * (1 / 2) = (C * 2 ^ s : ℤ) * (2 : ℚ) ^ j := by rw [hM]; push_cast; ring
      rw [← nn_num (show (1 / 2 : ℚ) ≠ 0 by norm_num), fmul_nn he hMp (by norm_num) ?_, e]
      rw [e]
      refine fin_of he (c := C * 2 ^ s) (j := j) ?_ hj rfl ?_
      · rw [abs_of_nonneg (by omega)]; omega
      · rw [abs_of_nonneg (mul_nonneg (by exact_mod_cast (by omega : 0 ≤ C * 2 ^ s)) hp.le)]
        have : ((C * 2 ^ s : ℤ) : ℚ) ≤ 2 ^ (F.f + 1) := by exact_mod_cast (by omega : C * 2 ^ s ≤ 2 ^ (F.f + 1))
        exact lt_of_le_of_lt (mul_le_mul_of_nonneg_right this hp.le) hbig
    rw [hs, hq, hhalf]
    obtain ⟨Q', a', g1, g2, g3, g4, g5, g6, g7⟩ := ih w (2 * Q + b) (a - b * M) (by omega) hbd.1 (by omega) (by rw [hb]; split_ifs <;> omega)
      (fun _ => ⟨by omega, hb2⟩)
    refine ⟨Q', a', ?_, ?_, g3, g4, g5, by omega, fun h1 h2 => ?_⟩
    · rw [g1, show w + 1 - (s + 1) = w - s by omega]
    · rw [g2, hM]; ring
    · refine g7 ?_ h2
      have : Even M := by rw [hM]; exact even_two_mul _
      exact h1.sub (this.mul_left b)

theorem loop3_done (F : Fmt) {y : Val} (w : ℕ) (q : ℤ) {mx : Val} (h : fgt mx (fabs y) = false) : loop3 F y w q mx = some (q, mx, w) := by
  cases w <;> rw [loop3, h] <;> rfl

/-- the third loop and the reduction that follows -/
theorem loop3_spec {F : Fmt} (he : 2 ≤ F.e) {y : Val} {Y m : ℚ} (hY : 0 < Y) (hy : fabs y = nn Y) (hm0 : 0 ≤ m) (hm : m < 2 * Y)
    (hm1 : F.Finite m) (hfin : Y ≤ m → F.Finite (m - Y)) {w : ℕ} (hw : 1 ≤ w) (Q : ℤ) : ∃ q mx w', loop3 F y w (wrap F Q) (nn m) = some (q, mx, w') ∧
      ∃ Q' : ℤ, ∃ m', reduce F y q mx = (wrap F Q', nn m') ∧ 0 ≤ m' ∧ m' < Y ∧ Q' * Y + m' = Q * Y + m ∧ Q ≤ Q' ∧ F.Finite m' ∧ (m < Y → m' = m) ∧
        (Y ≤ m → m' = m - Y) := by
  have hz : F.Finite (0 : ℚ) := ⟨0, 0, by simp, emin_le he, by have := emax_pos he; omega, by simp⟩
  have red : ∀ (Q : ℤ) (m : ℚ), 0 ≤ m → F.Finite m → m ≤ Y → reduce F y (wrap F Q) (nn m) =
      if m = Y then (wrap F (Q + 1), nn 0) else (wrap F Q, nn m) := by
    intro Q m h0 hf h1
    unfold reduce
    rw [hy, fge_nn]
    by_cases h : m = Y
    · rw [if_pos h, decide_eq_true h.ge]
      simp only [if_true]
      rw [wrap_add, fsub_nn' he h0 (by rw [h, sub_self]; exact hz), h, sub_self]
    · rw [if_neg h, decide_eq_false (by intro h2; exact h (le_antisymm h1 h2))]
      simp only [Bool.false_eq_true, if_false]
      rw [wrap_add, add_zero, ← nn_zero, fsub_nn' he h0 (by rwa [sub_zero]), sub_zero]
  by_cases hgt : Y < m
  · obtain ⟨w, rfl⟩ : ∃ w', w = w' + 1 := ⟨w - 1, by omega⟩
    have hg : fgt (nn m) (fabs y) = true := by rw [hy, fgt_nn]; exact decide_eq_true hgt
    have hr : fsub F (nn m) (fabs y) = nn (m - Y) := by rw [hy]; exact fsub_nn' he hm0 (hfin hgt.le)
    have hg2 : fgt (nn (m - Y)) (fabs y) = false := by rw [hy, fgt_nn]; exact decide_eq_false (by linarith)
    refine ⟨wrap F (Q + 1), nn (m - Y), w, ?_, Q + 1, m - Y, ?_, by linarith, by linarith, by push_cast; ring, by omega, hfin hgt.le, fun h => by linarith, fun _ => rfl⟩
    · rw [loop3, if_pos hg, if_pos hg, if_pos hg, wrap_add, hr, loop3_done _ _ _ hg2]
    · rw [red _ _ (by linarith) (hfin hgt.le) (by linarith), if_neg (by linarith)]
  · have hg : fgt (nn m) (fabs y) = false := by rw [hy, fgt_nn]; exact decide_eq_false hgt
    refine ⟨wrap F Q, nn m, w, loop3_done _ _ _ hg, ?_⟩
    rw [red _ _ hm0 hm1 (not_lt.1 hgt)]
    by_cases h : m = Y
    · rw [if_pos h]
      exact ⟨Q + 1, 0, rfl, le_refl _, hY, by rw [h]; push_cast; ring, by omega, hz, fun h2 => by linarith, fun _ => by rw [h, sub_self]⟩
    · rw [if_neg h]
      have : m < Y := lt_of_le_of_ne (not_lt.1 hgt) h
      exact ⟨Q, m, rfl, hm0, this, rfl, le_refl _, hm1, fun _ => rfl, fun h2 => by linarith⟩

end Verif.Rem
