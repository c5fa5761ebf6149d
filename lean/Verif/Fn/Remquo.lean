import Verif.Fn.RemquoLemmas
import Verif.Blocks.Exist
import Verif.Blocks.Limbs
import Mathlib.RingTheory.Coprime.Lemmas
import Mathlib.Tactic.LinearCombination

namespace Verif.Fn

open Verif.Blocks (Rep zpow2_pos)

/-! ### the last steps -/

theorem odd_quot {p : ℕ} {q : ℤ} {x y : ℚ} {Q : ℤ} (hx : Rep p (q : ℤ) x) (hy : Rep p (q : ℤ) y)
    (hx0 : x ≠ 0) (hQ : 0 ≤ Q) (h : 2 * |x| = (2 * Q + 1) * |y|) : 2 * Q + 1 < 2 ^ p := by
  obtain ⟨m, f, hm, -, rfl⟩ := hx
  obtain ⟨m', f', hm', -, rfl⟩ := hy
  have hm0 : m ≠ 0 := by rintro rfl; simp at hx0
  have hodd : IsCoprime (2 * Q + 1) (2:ℤ) := ⟨1, -Q, by ring⟩
  rw [abs_mul, abs_mul, abs_of_pos (zpow2_pos _), abs_of_pos (zpow2_pos _)] at h
  have hdvd : 2 * Q + 1 ∣ |m| := by
    rcases le_total f' (f + 1) with hf | hf
    · obtain ⟨k, hk⟩ : ∃ k : ℕ, f + 1 = f' + k := ⟨(f + 1 - f').toNat, by omega⟩
      have h1 : |(m:ℚ)| * 2 ^ k = (2 * Q + 1) * |(m':ℚ)| := by
        have : (2:ℚ) ^ (f + 1) = 2 ^ f' * 2 ^ k := by rw [hk, z2, zpow_natCast]
        rw [z2, zpow_one] at this
        have hp := zpow2_pos f'
        have e : (|(m:ℚ)| * 2 ^ k - (2 * Q + 1) * |(m':ℚ)|) * 2 ^ f' = 0 := by
          linear_combination h - |(m:ℚ)| * this
        rcases mul_eq_zero.1 e with e | e
        · linarith
        · exact absurd e hp.ne'
      have h2 : |m| * 2 ^ k = (2 * Q + 1) * |m'| := by exact_mod_cast h1
      exact (hodd.pow_right (n := k)).dvd_of_dvd_mul_right ⟨_, h2⟩
    · obtain ⟨k, hk⟩ : ∃ k : ℕ, f' = f + 1 + k := ⟨(f' - (f + 1)).toNat, by omega⟩
      have h1 : |(m:ℚ)| = (2 * Q + 1) * (|(m':ℚ)| * 2 ^ k) := by
        have : (2:ℚ) ^ f' = 2 ^ f * 2 * 2 ^ k := by rw [hk, z2, z2, zpow_natCast, zpow_one]
        rw [this] at h
        have hp := zpow2_pos f
        have e : (|(m:ℚ)| - (2 * Q + 1) * (|(m':ℚ)| * 2 ^ k)) * (2 * 2 ^ f) = 0 := by
          linear_combination h
        rcases mul_eq_zero.1 e with e | e
        · linarith
        · exact absurd e (by positivity)
      have h2 : |m| = (2 * Q + 1) * (|m'| * 2 ^ k) := by exact_mod_cast h1
      exact ⟨_, h2⟩
  exact lt_of_le_of_lt (Int.le_of_dvd (abs_pos.2 hm0) hdvd) hm

theorem isRemquo_of {k : ℕ} {x y r : ℚ} {N : ℤ} (hx : x ≠ 0) (hy : y ≠ 0) (hN : 0 ≤ N)
    (h : |x| = r + N * |y|) (hr : |r| ≤ |y| / 2) (ht : |r| = |y| / 2 → Even N) :
    IsRemquo k x y ((if (x < 0 ∧ ¬ y < 0) ∨ (¬ x < 0 ∧ y < 0) then -1 else 1) * (N % 2 ^ k),
      (if x < 0 then -1 else 1) * r) := by
  have key : ∀ (s : ℚ) (n : ℤ), |s| = 1 → x / y - n = s * (r / |y|) → (Even N → Even n) →
      NearestEven (x / y) n := by
    intro s n hs e hev
    have hy' : 0 < |y| := abs_pos.2 hy
    have : |x / y - n| = |r| / |y| := by rw [e, abs_mul, hs, one_mul, abs_div, abs_abs]
    unfold NearestEven
    rw [this]
    constructor
    · rw [div_le_iff₀ hy']; linarith
    · intro e2
      rw [div_eq_iff hy'.ne'] at e2
      exact hev (ht (by linarith))
  rcases lt_or_gt_of_ne hx with hx' | hx' <;> rcases lt_or_gt_of_ne hy with hy' | hy'
  · have e1 : ¬ x / y < 0 := not_lt.2 (div_nonneg_of_nonpos hx'.le hy'.le)
    rw [abs_of_neg hx', abs_of_neg hy'] at h
    refine ⟨N, key 1 N (by norm_num) ?_ id, ?_, ?_⟩
    · rw [abs_of_neg hy']; field_simp; linarith
    · dsimp only; rw [if_pos hx']; linarith
    · dsimp only; rw [if_neg e1, abs_of_nonneg hN, if_neg (by simp [hx', hy'])]
  · have e1 : x / y < 0 := div_neg_of_neg_of_pos hx' hy'
    rw [abs_of_neg hx', abs_of_pos hy'] at h
    refine ⟨-N, key (-1) (-N) (by norm_num) ?_ Even.neg, ?_, ?_⟩
    · rw [abs_of_pos hy']; push_cast; field_simp; linarith
    · dsimp only; rw [if_pos hx']; push_cast; linarith
    · dsimp only; rw [if_pos e1, abs_neg, abs_of_nonneg hN, if_pos (by simp [hx', hy'.le])]
  · have e1 : x / y < 0 := div_neg_of_pos_of_neg hx' hy'
    rw [abs_of_pos hx', abs_of_neg hy'] at h
    refine ⟨-N, key (-1) (-N) (by norm_num) ?_ Even.neg, ?_, ?_⟩
    · rw [abs_of_neg hy']; push_cast; field_simp; linarith
    · dsimp only; rw [if_neg (not_lt.2 hx'.le)]; push_cast; linarith
    · dsimp only; rw [if_pos e1, abs_neg, abs_of_nonneg hN, if_pos (by simp [hx'.le, hy'])]
  · have e1 : ¬ x / y < 0 := not_lt.2 (div_nonneg hx'.le hy'.le)
    rw [abs_of_pos hx', abs_of_pos hy'] at h
    refine ⟨N, key 1 N (by norm_num) ?_ id, ?_, ?_⟩
    · rw [abs_of_pos hy']; field_simp; linarith
    · dsimp only; rw [if_neg (not_lt.2 hx'.le)]; linarith
    · dsimp only
      rw [if_neg e1, abs_of_nonneg hN, if_neg (by simp [hx'.le, hy'.le])]

theorem finish_spec {p : ℕ} {q u : ℤ} {rnd : ℚ → ℚ} (hr : IsRounding p q rnd) {w k : ℕ}
    (hw : p ≤ w) (hw1 : 1 ≤ w) (hk : k < w) {sub : Bool} {x y : ℚ} (hx : Rep p (q : ℤ) x)
    (hy : Rep p (q : ℤ) y) (hx0 : x ≠ 0) (hy0 : y ≠ 0)
    (hsub : sub = true ∨ rnd (y / 2) = y / 2) {Q : ℤ} {mx : ℚ} (hQ : 0 ≤ Q) (hqu : q ≤ u)
    (hM : Mult u mx) (hMy : Mult u y) (h0 : 0 ≤ mx) (h1 : mx ≤ |y|) (h2 : mx < 2 ^ ((p:ℤ) + u))
    (h : |x| = mx + Q * |y|) :
    IsRemquo k x y (finish rnd w k sub x y (wrapS w Q) mx) := by
  have hypos : 0 < |y| := abs_pos.2 hy0
  have fine : ∀ v, Mult u v → |v| ≤ mx → Fine p u v := fun v a b => ⟨a, b.trans_lt h2⟩
  -- after the last full subtraction
  obtain ⟨b1, d, e1, e2, hQ1, hd0, hd1, hd2, hdm, hd⟩ : ∃ (b : ℤ) (d : ℚ),
      (if mx ≥ |y| then (1:ℤ) else 0) = b ∧ rnd (mx - if mx ≥ |y| then |y| else 0) = d ∧ 0 ≤ b ∧
      0 ≤ d ∧ d < |y| ∧ d ≤ mx ∧ Mult u d ∧ d = mx - b * |y| := by
    by_cases hc : mx ≥ |y|
    · have he : mx = |y| := le_antisymm h1 hc
      refine ⟨1, 0, by rw [if_pos hc], ?_, by norm_num, le_refl _, hypos, h0, Mult.zero u, ?_⟩
      · rw [if_pos hc, he, sub_self]
        exact (fine 0 (Mult.zero u) (by simpa using h0)).exact hr hqu
      · push_cast; linarith
    · refine ⟨0, mx, by rw [if_neg hc], ?_, le_refl _, h0, not_le.1 hc, le_refl _, hM, ?_⟩
      · rw [if_neg hc, sub_zero]
        exact (fine mx hM (by rw [abs_of_nonneg h0])).exact hr hqu
      · push_cast; ring
  set Q1 := Q + b1 with hQ1d
  have hQ1' : 0 ≤ Q1 := by omega
  have hx1 : |x| = d + Q1 * |y| := by rw [h, hd, hQ1d]; push_cast; ring
  -- the two comparisons with half of the divisor
  set half := |rnd (y * if sub then (1:ℚ) else 1 / 2)| with hhalf
  set vxs : ℚ := if sub then 2 else 1 with hvxs
  have hcmp : ∀ v, Mult u v → |v| ≤ mx →
      (rnd (v * vxs) > half ↔ v > |y| / 2) ∧ (rnd (v * vxs) = half ↔ v = |y| / 2) := by
    intro v hv hv2
    cases hs : sub with
    | true =>
      rw [hs, if_pos rfl] at hhalf hvxs
      rw [hhalf, hvxs, mul_one, hr.2 y hy]
      have : Fine p (u + 1) (v * 2) := by
        have := (fine v hv hv2).scale 1
        rwa [zpow_one] at this
      rw [this.exact hr (by omega)]
      constructor
      · constructor <;> intro h <;> linarith
      · constructor <;> intro h <;> linarith
    | false =>
      rw [hs] at hhalf hvxs
      have hy2 := hsub.resolve_left (by rw [hs]; simp)
      rw [hhalf, hvxs]
      simp only [Bool.false_eq_true, if_false]
      rw [mul_one, (fine v hv hv2).exact hr hqu, show y * (1 / 2) = y / 2 by ring, hy2,
        abs_div, abs_of_pos (by norm_num : (0:ℚ) < 2)]
      exact ⟨Iff.rfl, Iff.rfl⟩
  have hdd : Mult u (d - |y|) := hdm.sub hMy.abs
  have hcd := hcmp d hdm (by rw [abs_of_nonneg hd0]; exact hd2)
  -- the state after the two last corrections
  obtain ⟨N, r, hs3, hN, hNx, hr1, hr2, hrF⟩ : ∃ (N : ℤ) (r : ℚ),
      (let s2 := if rnd (d * vxs) > half then (wrapS w (wrapS w Q1 + 1), rnd (d - |y|))
          else (wrapS w Q1, d)
       if rnd (s2.2 * vxs) = half ∧ Int.tmod s2.1 2 = 1
          then (wrapS w (s2.1 + 1), rnd (s2.2 - |y|)) else s2) = (wrapS w N, r) ∧ 0 ≤ N ∧
      |x| = r + N * |y| ∧ |r| ≤ |y| / 2 ∧ (|r| = |y| / 2 → Even N) ∧ Fine p u r := by
    dsimp only
    by_cases c1 : d > |y| / 2
    · have hF : Fine p u (d - |y|) := fine _ hdd (by rw [abs_of_nonpos (by linarith)]; linarith)
      have hr' : rnd (d - |y|) = d - |y| := hF.exact hr hqu
      have hne : ¬ rnd ((d - |y|) * vxs) = half := by
        rw [(hcmp (d - |y|) hdd (by rw [abs_of_nonpos (by linarith)]; linarith)).2]
        intro e; linarith
      refine ⟨Q1 + 1, d - |y|, ?_, by omega, ?_, ?_, ?_, hF⟩
      · rw [if_pos (hcd.1.2 c1)]
        dsimp only
        rw [hr', if_neg (fun e => hne e.1), wrapS_add]
      · rw [hx1]; push_cast; ring
      · rw [abs_of_nonpos (by linarith)]; linarith
      · intro e; rw [abs_of_nonpos (by linarith)] at e; linarith
    · have c1' : ¬ rnd (d * vxs) > half := fun e => c1 (hcd.1.1 e)
      rw [if_neg c1']
      dsimp only
      have hFd : Fine p u d := fine d hdm (by rw [abs_of_nonneg hd0]; exact hd2)
      by_cases c2 : d = |y| / 2
      · have hsmall : 2 * Q1 + 1 < 2 ^ p := odd_quot hx hy hx0 hQ1' (by rw [hx1, c2]; ring)
        have hpw : (2:ℤ) ^ p ≤ 2 ^ w := pow_le_pow_right₀ (by norm_num) hw
        have hww : (2:ℤ) ^ w = 2 * 2 ^ (w - 1) := by
          rw [← pow_succ']; congr 1; omega
        have hid : wrapS w Q1 = Q1 := by
          have : (0:ℤ) < 2 ^ (w - 1) := by positivity
          exact wrapS_id hw1 (by linarith) (by omega)
        have htm : Int.tmod Q1 2 = Q1 % 2 := Int.tmod_eq_emod_of_nonneg hQ1'
        by_cases c3 : Q1 % 2 = 1
        · have hF : Fine p u (d - |y|) := fine _ hdd (by rw [abs_of_nonpos (by linarith)]; linarith)
          refine ⟨Q1 + 1, d - |y|, ?_, by omega, ?_, ?_, ?_, hF⟩
          · rw [if_pos ⟨hcd.2.2 c2, by rw [hid, htm]; exact c3⟩, wrapS_add, hF.exact hr hqu]
          · rw [hx1]; push_cast; ring
          · rw [abs_of_nonpos (by linarith)]; linarith
          · intro _; rw [Int.even_iff]; omega
        · refine ⟨Q1, d, ?_, hQ1', hx1, ?_, ?_, hFd⟩
          · rw [if_neg (fun e => c3 (by rw [← htm, ← hid]; exact e.2))]
          · rw [abs_of_nonneg hd0]; linarith
          · intro _; rw [Int.even_iff]; omega
      · refine ⟨Q1, d, ?_, hQ1', hx1, ?_, ?_, hFd⟩
        · rw [if_neg (fun e => c2 (hcd.2.1 e.1))]
        · rw [abs_of_nonneg hd0]; exact not_lt.1 c1
        · intro e; rw [abs_of_nonneg hd0] at e; exact absurd e c2
  have hfin : finish rnd w k sub x y (wrapS w Q) mx =
      ((if (x < 0 ∧ ¬ y < 0) ∨ (¬ x < 0 ∧ y < 0) then -1 else 1) * (N % 2 ^ k),
        (if x < 0 then -1 else 1) * r) := by
    unfold finish
    dsimp only at hs3 ⊢
    rw [e1, e2, wrapS_add Q b1, ← hQ1d, ← hvxs, ← hhalf, hs3]
    dsimp only
    have hmod : wrapS w N % 2 ^ w % 2 ^ k = N % 2 ^ k := by
      rw [show wrapS w N % 2 ^ w = N % 2 ^ w from wrapS_mod N]
      exact Int.emod_emod_of_dvd N (pow_dvd_pow 2 hk.le)
    have hpk : (0:ℤ) < 2 ^ k := by positivity
    have hkw : (2:ℤ) ^ k ≤ 2 ^ (w - 1) := pow_le_pow_right₀ (by norm_num) (by omega)
    have m0 := Int.emod_nonneg N hpk.ne'
    have m1 := Int.emod_lt_of_pos N hpk
    rw [hmod]
    refine Prod.ext ?_ ?_
    · dsimp only
      refine wrapS_id hw1 ?_ ?_
      · split <;> linarith
      · split <;> linarith
    · dsimp only
      split
      · rw [neg_one_mul]
        exact Fine.exact (u := u) hr ⟨hrF.1.neg, by rw [abs_neg]; exact hrF.2⟩ hqu
      · rw [one_mul]
        exact hrF.exact hr hqu
  rw [hfin]
  exact isRemquo_of hx0 hy0 hN hNx hr1 hr2

/-- the end of the algorithm, from the third loop on -/
theorem tail_spec {p : ℕ} {q u : ℤ} {rnd : ℚ → ℚ} (hr : IsRounding p q rnd) {w k : ℕ}
    (hw : p ≤ w) (hw1 : 1 ≤ w) (hk : k < w) {sub : Bool} {x y : ℚ} (hx : Rep p (q : ℤ) x)
    (hy : Rep p (q : ℤ) y) (hx0 : x ≠ 0) (hy0 : y ≠ 0)
    (hsub : sub = true ∨ rnd (y / 2) = y / 2) {Q : ℤ} {mx : ℚ} (hQ : 0 ≤ Q) (hqu : q ≤ u)
    (hM : Mult u mx) (hMy : Mult u y) (h0 : 0 ≤ mx) (h1 : mx < 2 * |y|)
    (h2 : |y| < 2 ^ ((p:ℤ) + u) ∨ (mx < |y| ∧ mx < 2 ^ ((p:ℤ) + u)))
    (h : |x| = mx + 2 * Q * |y|) {wd : ℕ} (hwd : 1 ≤ wd) :
    ∃ r, (match loop3 rnd w |y| wd (wrapS w (2 * wrapS w Q)) mx with
      | none => none
      | some (q, mx) => some (finish rnd w k sub x y q mx)) = some r ∧ IsRemquo k x y r := by
  have hlin : wrapS w (2 * wrapS w Q) = wrapS w (2 * Q) := by
    have := wrapS_lin (w := w) 2 Q 0
    simpa using this
  rw [hlin]
  obtain ⟨wd, rfl⟩ : ∃ v, wd = v + 1 := ⟨wd - 1, by omega⟩
  by_cases hc : mx > |y|
  · have hb : |y| < 2 ^ ((p:ℤ) + u) := by
      rcases h2 with h2 | h2
      · exact h2
      · linarith [h2.1]
    have hm' : Mult u (mx - |y|) := hM.sub hMy.abs
    have hex : rnd (mx - |y|) = mx - |y| :=
      Fine.exact (u := u) hr ⟨hm', by rw [abs_of_nonneg (by linarith)]; linarith⟩ hqu
    have hl : loop3 rnd w |y| (wd + 1) (wrapS w (2 * Q)) mx =
        some (wrapS w (2 * Q + 1), mx - |y|) := by
      rw [loop3, if_pos hc, if_pos hc, if_pos hc, hex, wrapS_add]
      cases wd with
      | zero => rw [loop3, if_neg (by linarith)]
      | succ wd => rw [loop3, if_neg (by linarith)]
    rw [hl]
    refine ⟨_, rfl, finish_spec hr hw hw1 hk hx hy hx0 hy0 hsub (by omega) hqu hm' hMy (by linarith)
      (by linarith) (by linarith) ?_⟩
    rw [h]; push_cast; ring
  · have hl : loop3 rnd w |y| (wd + 1) (wrapS w (2 * Q)) mx = some (wrapS w (2 * Q), mx) := by
      rw [loop3, if_neg hc]
    rw [hl]
    refine ⟨_, rfl, finish_spec hr hw hw1 hk hx hy hx0 hy0 hsub (by omega) hqu hM hMy h0
      (not_lt.1 hc) ?_ ?_⟩
    · rcases h2 with h2 | h2
      · exact lt_of_le_of_lt (not_lt.1 hc) h2
      · exact h2.2
    · rw [h]; push_cast; ring

theorem mainLoop_spec {p : ℕ} (hp : 2 ≤ p) {emin emax : ℤ} (he : emin ≤ 0) (hee : emin ≤ emax)
    (hwdog : emax - emin + p ≤ 5000) {rnd : ℚ → ℚ} (hr : IsRounding p (emin - p + 1) rnd) {w k : ℕ}
    (hw : p ≤ w) (hk : k < w) {x y : ℚ} (hx : Rep p (emin - p + 1 : ℤ) x)
    (hxmax : |x| < (2:ℚ) ^ (emax + 1)) (hy : Rep p (emin - p + 1 : ℤ) y) (hx0 : x ≠ 0) (hy0 : y ≠ 0)
    (hhalf : |y| < (2:ℚ) ^ emin ∨ rnd (y / 2) = y / 2) :
    ∃ r, mainLoop rnd p emin w k x y = some r ∧ IsRemquo k x y r := by
  have hsub : decide (|y| < (2:ℚ) ^ emin) = true ∨ rnd (y / 2) = y / 2 := by
    rcases hhalf with h | h
    · exact Or.inl (decide_eq_true h)
    · exact Or.inr h
  obtain ⟨⟨fx1, fx1'⟩, fx2, fx3, fx4⟩ := rep_facts hx hx0
  obtain ⟨⟨fy1, fy1'⟩, fy2, fy3, fy4⟩ := rep_facts hy hy0
  obtain ⟨j, my1, my2, my3, my4, my5, my6, my7⟩ := my_facts hp he hr hy hy0
  have hux1 : emin - p + 1 ≤ ulpE p emin x := le_max_left _ _
  have hux2 : expo emin x - p + 1 ≤ ulpE p emin x := le_max_right _ _
  have huxd : ulpE p emin x = max (emin - p + 1) (expo emin x - p + 1) := rfl
  have huyd : ulpE p emin y = max (emin - p + 1) (expo emin y - p + 1) := rfl
  have hypos : 0 < |y| := abs_pos.2 hy0
  have hxpos : 0 < |x| := abs_pos.2 hx0
  have hxsub : |x| < (2:ℚ) ^ emin → expo emin x = emin - 1 := by
    intro h; unfold expo; rw [if_pos h]
  have hysub : |y| < (2:ℚ) ^ emin → expo emin y = emin - 1 := by
    intro h; unfold expo; rw [if_pos h]
  have hexmax : expo emin x ≤ emax ∨ expo emin x = emin - 1 := by
    by_cases hs : |x| < (2:ℚ) ^ emin
    · exact Or.inr (hxsub hs)
    · left
      have := z2_lt ((fx3 hs).1.trans_lt hxmax)
      omega
  unfold mainLoop
  dsimp only
  rw [unscale_exact he hr hx hx0, abs_mul, abs_of_pos (zpow2_pos (-expo emin x))]
  generalize hmyv : myOf rnd p emin y = my at *
  generalize hexv : expo emin x = ex at *
  generalize heyv : expo emin y = ey at *
  set ux := ulpE p emin x with hux
  set uy := ulpE p emin y with huy
  have hmx0 : Mult (1 - p) (|x| * 2 ^ (-ex)) := (fx1.abs.scale (-ex)).mono (by omega)
  have hmx2 : |x| * (2:ℚ) ^ (-ex) < 2 := by
    have := mul_lt_mul_of_pos_right fx2 (zpow2_pos (-ex))
    rwa [← z2, show ex + 1 + -ex = 1 by ring, zpow_one] at this
  have hn : (ex - ey).toNat + j + 1 ≤ 5000 := by omega
  obtain ⟨Q1, mx1, l1, l2, l3, l4, l5, l6, l7⟩ := loop1_spec (w := w) hp (by omega) hr my3 my4
    (ex - ey).toNat 0 (|x| * 2 ^ (-ex)) 5000 (by omega) (le_refl _) hmx0 (by positivity)
    (by linarith)
  have hw0 : wrapS w 0 = 0 := by
    refine wrapS_id (by omega) ?_ (by positivity)
    have : (0:ℤ) < 2 ^ (w - 1) := by positivity
    linarith
  rw [hw0] at l1
  rw [l1]
  dsimp only
  have tb1 := (tdiv_bounds ex).1
  have tb2 := (tdiv_bounds ey).1
  have tc : ∀ e : ℤ, e < 0 → e + 1 ≤ Int.tdiv e 2 := by
    intro e h
    obtain ⟨f, rfl⟩ : ∃ f : ℤ, e = -f := ⟨-e, by omega⟩
    rw [Int.neg_tdiv, Int.tdiv_eq_ediv_of_nonneg (by omega)]
    omega
  have hm : (if ey < ex then ey else ex) = min ey ex := by
    split <;> omega
  rw [hm]
  have sc : ∀ (a : ℤ) (v : ℚ), Fine p a v → ∀ m : ℤ, emin - 1 ≤ m → emin - p + 1 ≤ a + m →
      1 - p ≤ a → scale2 rnd v m = v * 2 ^ m := by
    intro a v hv m hm1 hm2 hm3
    unfold scale2
    rw [scale_exact hr hv]
    · congr 2; ring
    · rcases lt_or_ge m 0 with h | h
      · have := tc m h; omega
      · have := (tdiv_bounds m).1 h; omega
    · omega
  have hmyF : Fine p (1 - p) my := by
    refine ⟨my4, ?_⟩
    rw [abs_of_nonneg (by linarith), show (p:ℤ) + (1 - p) = 1 by ring, zpow_one]
    exact my3
  by_cases hs : |y| < (2:ℚ) ^ emin
  · -- subnormal divisor: the second loop halves the divisor back
    have hey := hysub hs
    have hmin : min ey ex = ey := by omega
    rw [hmin]
    have hmyF2 : Fine p (2 - p) my := by
      refine ⟨my6 hs, ?_⟩
      rw [abs_of_nonneg (by linarith), show (p:ℤ) + (2 - p) = 2 by ring]
      norm_num
      linarith
    have hsy : scale2 rnd my ey = |y| * 2 ^ j := by
      rw [sc _ _ hmyF2 ey (by omega) (by omega) (by omega), my1, mul_assoc, ← z2,
        show -(ey - (j:ℤ)) + ey = j by ring, zpow_natCast]
    have hqy : Mult (emin - p + 1) |y| := (fy1.mono (by omega)).abs
    have hmyv2 : |y| * (2:ℚ) ^ j = my * 2 ^ ey := by
      rw [my1, mul_assoc, ← z2, show -(ey - (j:ℤ)) + ey = j by ring, zpow_natCast]
    have hsx : scale2 rnd mx1 ey = mx1 * 2 ^ ey ∧ Mult (emin - p + 1) (mx1 * 2 ^ ey) ∧
        |x| = mx1 * 2 ^ ey + 2 * Q1 * (|y| * 2 ^ j) := by
      rcases Nat.eq_zero_or_pos (ex - ey).toNat with hz | hz
      · obtain ⟨hmx, hQ⟩ := l6 hz
        have hexe : ex = ey := by omega
        have hback : |x| * (2:ℚ) ^ (-ex) * 2 ^ ey = |x| := by
          rw [mul_assoc, ← z2, hexe, neg_add_cancel, zpow_zero, mul_one]
        have hF : Fine p (ux + -ex) (|x| * 2 ^ (-ex)) :=
          Fine.scale ⟨fx1.abs, by rw [abs_abs]; exact fx1'⟩ _
        rw [hmx, hQ]
        refine ⟨sc _ _ hF ey (by omega) (by omega) (by omega), ?_, ?_⟩
        · rw [hback]; exact fx1.abs.mono (by omega)
        · rw [hback]; push_cast; ring
      · have hF : Fine p (2 - p) mx1 := by
          refine ⟨l7 hz, ?_⟩
          rw [abs_of_nonneg l3, show (p:ℤ) + (2 - p) = 2 by ring]
          norm_num
          linarith
        refine ⟨sc _ _ hF ey (by omega) (by omega) (by omega), ?_, ?_⟩
        · exact (hF.1.scale ey).mono (by omega)
        · rw [hmyv2]
          have e2 : |x| = 2 ^ (ex - ey).toNat * (|x| * 2 ^ (-ex)) * 2 ^ ey := by
            rw [← zpow_natCast (2:ℚ), Int.toNat_of_nonneg (by omega : 0 ≤ ex - ey),
              mul_comm, ← mul_assoc, ← z2, mul_comm |x|, ← mul_assoc, ← z2,
              show ey + (ex - ey) + -ex = 0 by ring, zpow_zero, one_mul]
          push_cast at l2
          rw [mul_zero, zero_mul, add_zero] at l2
          rw [← l2] at e2
          linear_combination e2
    obtain ⟨hsx1, hsx2, hsx3⟩ := hsx
    rw [hsx1, hsy]
    obtain ⟨Q2, mx2, k1, k2, k3, k4, k5, k6⟩ := loop2_spec (w := w) hr hypos hqy j Q1
      (mx1 * 2 ^ ey) (5000 - (ex - ey).toNat) (by omega) l5 hsx2
      (mul_nonneg l3 (zpow2_pos ey).le)
      (by
        rw [hmyv2]
        have := mul_lt_mul_of_pos_right l4 (zpow2_pos ey)
        linarith)
      (by
        rw [hmyv2]
        have := mul_lt_mul_of_pos_right my3 (zpow2_pos ey)
        have e : (2:ℚ) * 2 ^ ey = 2 ^ (ey + 1) := by rw [z2, zpow_one]; ring
        rw [e] at this
        exact this.trans_le (z2_le (by omega)))
    rw [k1]
    dsimp only
    exact tail_spec (u := emin - p + 1) hr hw (by omega) hk hx hy hx0 hy0 hsub k5 (le_refl _) k6
      (fy1.mono (by omega)) k3 k4 (Or.inl (hs.trans_le (z2_le (by omega)))) (by rw [k2]; exact hsx3)
      (by omega)
  · -- normal divisor
    have hj : j = 0 := my5 hs
    subst hj
    obtain ⟨gy1, gy2⟩ := fy3 hs
    have huyv : uy = ey - p + 1 := by omega
    have hmyy : my * 2 ^ ey = |y| := by
      rw [my1, mul_assoc, ← z2]
      simp
    rcases lt_or_ge ey ex with hlt | hge
    · have hmin : min ey ex = ey := by omega
      have hF : Fine p (2 - p) mx1 := by
        refine ⟨l7 (by omega), ?_⟩
        rw [abs_of_nonneg l3, show (p:ℤ) + (2 - p) = 2 by ring]
        norm_num
        linarith
      rw [hmin, sc _ _ hF ey (by omega) (by omega) (by omega), sc _ _ hmyF ey (by omega) (by omega)
        (by omega), hmyy, loop2_skip (le_refl _)]
      dsimp only
      have e2 : |x| = 2 ^ (ex - ey).toNat * (|x| * 2 ^ (-ex)) * 2 ^ ey := by
        rw [← zpow_natCast (2:ℚ), Int.toNat_of_nonneg (by omega : 0 ≤ ex - ey),
          mul_comm, ← mul_assoc, ← z2, mul_comm |x|, ← mul_assoc, ← z2,
          show ey + (ex - ey) + -ex = 0 by ring, zpow_zero, one_mul]
      push_cast at l2
      rw [mul_zero, zero_mul, add_zero] at l2
      rw [← l2] at e2
      refine tail_spec (u := ey - p + 1) hr hw (by omega) hk hx hy hx0 hy0 hsub l5 (by omega)
        ((hF.1.scale ey).mono (by omega)) (huyv ▸ fy1) (mul_nonneg l3 (zpow2_pos ey).le) ?_
        (Or.inl (fy2.trans_le (z2_le (by omega)))) ?_ (by omega)
      · have := mul_lt_mul_of_pos_right l4 (zpow2_pos ey)
        rw [mul_assoc, hmyy] at this
        exact this
      · rw [← hmyy]
        linear_combination e2
    · have hmin : min ey ex = ex := by omega
      obtain ⟨hmx, hQ⟩ := l6 (by omega)
      have hF : Fine p (ux + -ex) (|x| * 2 ^ (-ex)) :=
        Fine.scale ⟨fx1.abs, by rw [abs_abs]; exact fx1'⟩ _
      have hback : |x| * (2:ℚ) ^ (-ex) * 2 ^ ex = |x| := by
        rw [mul_assoc, ← z2, neg_add_cancel, zpow_zero, mul_one]
      have hmyle : scale2 rnd my ex ≤ |y| := by
        unfold scale2
        have hstep : rnd (my * 2 ^ (Int.tdiv ex 2)) = my * 2 ^ (Int.tdiv ex 2) := by
          refine (hmyF.scale _).exact hr ?_
          rcases lt_or_ge ex 0 with h | h
          · have := tc ex h; omega
          · have := (tdiv_bounds ex).1 h; omega
        have hay : Rep p (emin - p + 1 : ℤ) |y| :=
          Fine.rep (u := uy) ⟨fy1.abs, by rw [abs_abs]; exact fy1'⟩ (by omega)
        rw [hstep, ← hr.2 _ hay]
        apply hr.1
        rw [mul_assoc, ← z2, show Int.tdiv ex 2 + (ex - Int.tdiv ex 2) = ex by ring, ← hmyy]
        exact mul_le_mul_of_nonneg_left (z2_le hge) (by linarith)
      rw [hmin, hmx, sc _ _ hF ex (by omega) (by omega) (by omega), hback, loop2_skip hmyle, hQ]
      dsimp only
      have hx2y : |x| < 2 * |y| := by
        refine fx2.trans_le ?_
        have : (2:ℚ) ^ (ex + 1) ≤ 2 ^ (ey + 1) := z2_le (by omega)
        rw [z2 ey, zpow_one] at this
        linarith
      refine tail_spec (u := ux) hr hw (by omega) hk hx hy hx0 hy0 hsub (le_refl _) hux1 fx1.abs
        (fy1.mono (by omega)) hxpos.le hx2y ?_ (by push_cast; ring) (by omega)
      rcases eq_or_lt_of_le hge with h | h
      · left
        exact fy2.trans_le (z2_le (by omega))
      · right
        refine ⟨fx2.trans_le ((z2_le (by omega)).trans gy1), ?_⟩
        exact fx1'

theorem remquo_spec {p : ℕ} (hp : 2 ≤ p) {emin emax : ℤ} (he : emin ≤ 0) (hee : emin ≤ emax)
    (hwdog : emax - emin + p ≤ 5000) {rnd : ℚ → ℚ} (hr : IsRounding p (emin - p + 1) rnd)
    {w k : ℕ} (hw : p ≤ w) (hk1 : 1 ≤ k) (hk : k < w) {x y : ℚ} (hx : Rep p (emin - p + 1 : ℤ) x)
    (hxmax : |x| < (2:ℚ) ^ (emax + 1)) (hy : Rep p (emin - p + 1 : ℤ) y) (hy0 : y ≠ 0)
    (hhalf : |y| < (2:ℚ) ^ emin ∨ rnd (y / 2) = y / 2) :
    ∃ r, remquo rnd p emin w k x y = some r ∧ IsRemquo k x y r := by
  have small : |x| < |y| / 2 ∨ x = 0 → IsRemquo k x y (0, x) := by
    intro h
    have hypos : 0 < |y| := abs_pos.2 hy0
    have hlt : |x / y| < 1 / 2 := by
      rw [abs_div, div_lt_iff₀ hypos]
      rcases h with h | h
      · linarith
      · rw [h, abs_zero]; linarith
    refine ⟨0, ⟨by simpa using hlt.le, ?_⟩, by simp, by simp⟩
    intro e
    exact ⟨0, by norm_num⟩
  have hone : (1:ℤ) % 2 ^ k = 1 := by
    refine Int.emod_eq_of_lt (by norm_num) ?_
    have : (2:ℤ) ^ 1 ≤ 2 ^ k := pow_le_pow_right₀ (by norm_num) hk1
    linarith
  unfold remquo
  by_cases c0 : x = 0
  · rw [if_pos c0]
    exact ⟨_, rfl, small (Or.inr c0)⟩
  rw [if_neg c0]
  by_cases c1 : |x| < |rnd (y * (1 / 2))|
  · rw [if_pos c1]
    refine ⟨_, rfl, small (Or.inl ?_)⟩
    by_contra hc
    have hc : |y| / 2 ≤ |x| := not_lt.1 hc
    have hz : Rep p (emin - p + 1 : ℤ) 0 := ⟨0, emin - p + 1, by simp, le_refl _, by simp⟩
    obtain ⟨fx1, fx1'⟩ := (rep_facts hx c0).1
    have hu : emin - p + 1 ≤ ulpE p emin x := le_max_left _ _
    have r1 : rnd |x| = |x| := Fine.exact (u := ulpE p emin x) hr
      ⟨fx1.abs, by rw [abs_abs]; exact fx1'⟩ hu
    have r2 : rnd (-|x|) = -|x| := Fine.exact (u := ulpE p emin x) hr
      ⟨fx1.abs.neg, by rw [abs_neg, abs_abs]; exact fx1'⟩ hu
    have b := abs_le.1 (show |y * (1 / 2)| ≤ |x| by
      rw [abs_mul, abs_of_pos (by norm_num : (0:ℚ) < 1 / 2)]; linarith)
    have m1 := hr.1 b.1
    have m2 := hr.1 b.2
    rw [r1] at m2
    rw [r2] at m1
    exact absurd (abs_le.2 ⟨m1, m2⟩) (not_le.2 c1)
  rw [if_neg c1]
  by_cases c2 : x = y
  · rw [if_pos c2]
    refine ⟨_, rfl, 1, ?_, by rw [c2]; simp, ?_⟩
    · rw [c2, div_self hy0]
      refine ⟨by norm_num, fun h => ?_⟩
      norm_num at h
    · rw [c2, div_self hy0, if_neg (by norm_num), one_mul, abs_one, hone]
  rw [if_neg c2]
  by_cases c3 : x = -y
  · rw [if_pos c3]
    have e : -y / y = -1 := by rw [neg_div, div_self hy0]
    refine ⟨_, rfl, -1, ?_, by rw [c3]; simp, ?_⟩
    · rw [c3, e]
      refine ⟨by norm_num, fun h => ?_⟩
      norm_num at h
    · rw [c3, e]
      simpa using hone.symm
  rw [if_neg c3]
  exact mainLoop_spec hp he hee hwdog hr hw hk hx hxmax hy c0 hy0 hhalf

/-- C51: in exact arithmetic the generated `remquo` returns the remainder `x - n y` for `n` the
integer nearest to `x / y` (ties to even), and the `k` low bits of `|n|` with the sign of `x / y`,
for all operands of the format, subnormal or not; none of the three loops reaches its watchdog.
`p`, `emin` and `emax` range over every format whose exponent range is below the watchdog. -/
theorem C51_remquo_exact {p : ℕ} (hp : 2 ≤ p) {emin emax : ℤ} (he : emin ≤ 0) (hee : emin ≤ emax)
    (hwdog : emax - emin + p ≤ 5000) {w k : ℕ} (hw : p ≤ w) (hk1 : 1 ≤ k) (hk : k < w) {x y : ℚ}
    (hx : Rep p (emin - p + 1 : ℤ) x) (hxmax : |x| < (2:ℚ) ^ (emax + 1))
    (hy : Rep p (emin - p + 1 : ℤ) y) (hy0 : y ≠ 0) :
    ∃ r, remquo id p emin w k x y = some r ∧ IsRemquo k x y r :=
  remquo_spec hp he hee hwdog ⟨monotone_id, fun _ _ => rfl⟩ hw hk1 hk hx hxmax hy hy0 (Or.inr rfl)

/-- C66: C51 with rounded operations, for any monotone rounding `rnd` that is exact on the format: same
conclusion for every divisor whose half is a number of the format, and for every subnormal divisor.
Missing: divisors in the lowest normal binade whose half is not a number of the format, for which
the code is wrong (`C66_half_wrong`). -/
theorem C66_remquo_partial {p : ℕ} (hp : 2 ≤ p) {emin emax : ℤ} (he : emin ≤ 0)
    (hee : emin ≤ emax) (hwdog : emax - emin + p ≤ 5000) {rnd : ℚ → ℚ}
    (hr : IsRounding p (emin - p + 1) rnd) {w k : ℕ} (hw : p ≤ w) (hk1 : 1 ≤ k) (hk : k < w)
    {x y : ℚ} (hx : Rep p (emin - p + 1 : ℤ) x) (hxmax : |x| < (2:ℚ) ^ (emax + 1))
    (hy : Rep p (emin - p + 1 : ℤ) y) (hy0 : y ≠ 0)
    (hhalf : |y| < (2:ℚ) ^ emin ∨ Rep p (emin - p + 1 : ℤ) (y / 2)) :
    ∃ r, remquo rnd p emin w k x y = some r ∧ IsRemquo k x y r :=
  remquo_spec hp he hee hwdog hr hw hk1 hk hx hxmax hy hy0 (hhalf.imp_right (hr.2 _))

/-- binary64: 8 = 3 * 3 - 1, and the three low bits of 3 -/
example : ∃ r, remquo (Blocks.roundNearest 53 (-1074 : ℤ)) 53 (-1022) 64 3 8 3 = some r ∧
    IsRemquo 3 8 3 r := by
  have rep : ∀ n : ℤ, |n| < 2 ^ 53 → Rep 53 ((-1022 - (53:ℕ) + 1 : ℤ)) (n:ℚ) := fun n h =>
    ⟨n, 0, h, WithBot.coe_le_coe.2 (by norm_num), by simp⟩
  have hn := Blocks.roundNearest_nearest (p := 53) (by norm_num) ((-1074 : ℤ) : WithBot ℤ)
  refine C66_remquo_partial (emax := 1023) (by norm_num) (by norm_num) (by norm_num)
    (by norm_num) ⟨Blocks.nearest_mono hn, fun v hv => Blocks.rnd_exact hn hv⟩ (by norm_num)
    (by norm_num) (by norm_num) (rep 8 (by norm_num)) ?_ (rep 3 (by norm_num)) (by norm_num)
    (Or.inr ?_)
  · rw [abs_of_pos (by norm_num)]
    exact lt_of_lt_of_le (by norm_num) (z2_le (by norm_num : (4:ℤ) ≤ 1023 + 1))
  · exact ⟨3, -1, by norm_num, WithBot.coe_le_coe.2 (by norm_num), by norm_num⟩

/-- IEEE round to nearest, ties to even, in the format `(p, q)` -/
def rne (p : ℕ) (q : ℤ) (v : ℚ) : ℚ :=
  let e := max q (Int.log 2 |v| - p + 1)
  let t := v / (2:ℚ) ^ e
  let f := ⌊t⌋
  (if t - f < 1 / 2 ∨ (t - f = 1 / 2 ∧ f % 2 = 0) then f else f + 1 : ℤ) * (2:ℚ) ^ e

/-- the smallest positive binary64 number -/
def tiny : ℚ := (2:ℚ) ^ (-1074 : ℤ)

theorem half_run : remquo (rne 53 (-1074)) 53 (-1022) 64 3 ((2 ^ 52 + 1 + 2 ^ 51) * tiny)
    ((2 ^ 52 + 1) * tiny) = some (2, -(2 ^ 51 + 1) * tiny) := by decide +kernel

/-- The rounded code is wrong for some divisors: in binary64 with round-to-nearest-even,
`y * 0.5` is inexact for `y = (2^52 + 1) * 2^-1074`, the comparison with it sees a tie that does
not exist, and the quotient comes out as 2 instead of 1. -/
theorem C66_half_wrong : ∃ x y r, Rep 53 (-1074 : ℤ) x ∧ Rep 53 (-1074 : ℤ) y ∧ y ≠ 0 ∧
    remquo (rne 53 (-1074)) 53 (-1022) 64 3 x y = some r ∧ ¬ IsRemquo 3 x y r := by
  have ht : (0:ℚ) < tiny := zpow_pos (by norm_num) _
  refine ⟨(2 ^ 52 + 1 + 2 ^ 51) * tiny, (2 ^ 52 + 1) * tiny, _, ⟨2 ^ 52 + 1 + 2 ^ 51, -1074,
    by norm_num, le_refl _, by unfold tiny; push_cast; ring⟩, ⟨2 ^ 52 + 1, -1074,
    by norm_num, le_refl _, by unfold tiny; push_cast; ring⟩, by positivity, half_run, ?_⟩
  rintro ⟨n, ⟨h1, -⟩, h2, -⟩
  dsimp only at h2
  have e : (2 ^ 52 + 1 + 2 ^ 51 : ℚ) * tiny / ((2 ^ 52 + 1) * tiny) =
      (2 ^ 52 + 1 + 2 ^ 51) / (2 ^ 52 + 1) := by field_simp
  rw [e] at h1
  have hn : n = 2 := by
    have : (-(2 ^ 51 + 1) : ℚ) = (2 ^ 52 + 1 + 2 ^ 51) - n * (2 ^ 52 + 1) := by
      have h3 : (-(2 ^ 51 + 1) - ((2 ^ 52 + 1 + 2 ^ 51) - n * (2 ^ 52 + 1)) : ℚ) * tiny = 0 := by
        linear_combination h2
      rcases mul_eq_zero.1 h3 with h3 | h3
      · linarith
      · exact absurd h3 ht.ne'
    have : (n:ℚ) = 2 := by linarith
    exact_mod_cast this
  rw [hn] at h1
  norm_num [abs_le] at h1

/-- Why the exponent range is bounded: the watchdog stops the first loop after 5000 iterations, so
`remquo (2^e) 1` gives up as soon as `e > 5000` (formats with a 15-bit exponent). -/
theorem C51_watchdog_range {p : ℕ} (hp : 1 ≤ p) {emin : ℤ} (he : emin ≤ -1) {rnd : ℚ → ℚ}
    (hr : IsRounding p (emin - p + 1) rnd) (w k : ℕ) {e : ℕ} (hbig : 5000 < e) :
    remquo rnd p emin w k (2 ^ e) 1 = none := by
  have hpos : (0:ℚ) < 2 ^ e := by positivity
  have hone : (1:ℚ) < 2 ^ e := one_lt_pow₀ (by norm_num) (by omega)
  have hh : rnd (1 * (1 / 2)) = 1 / 2 := by
    refine (hr.2 _ ⟨1, -1, ?_, WithBot.coe_le_coe.2 (by omega), by norm_num⟩).trans (by norm_num)
    exact one_lt_pow₀ (by norm_num) (by omega)
  have hlt : (2:ℚ) ^ emin < 1 := by
    have : (2:ℚ) ^ emin ≤ 2 ^ (-1 : ℤ) := z2_le he
    have h2 : (2:ℚ) ^ (-1 : ℤ) < 1 := by norm_num
    linarith
  unfold remquo
  rw [if_neg hpos.ne', hh, if_neg (by rw [abs_of_pos hpos, abs_of_pos (by norm_num)]; linarith),
    if_neg hone.ne', if_neg (by linarith)]
  unfold mainLoop
  dsimp only
  have h1 : expo emin 1 = 0 := by
    unfold expo
    rw [if_neg (by rw [abs_one]; linarith), abs_one, Int.log_one_right]
  have h2 : expo emin (2 ^ e) = e := by
    unfold expo
    rw [if_neg (by rw [abs_of_pos hpos]; linarith), abs_of_pos hpos]
    have := Int.log_zpow (R := ℚ) (b := 2) (by norm_num) (e : ℤ)
    rw [zpow_natCast] at this
    exact_mod_cast this
  rw [h1, h2, loop1_watchdog 5000 _ _ _ (by omega)]

end Verif.Fn
