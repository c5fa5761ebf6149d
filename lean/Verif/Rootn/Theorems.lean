import Verif.Rootn.Main

namespace Verif.Rootn

open Verif.Float (Fmt Val)
open Verif.Elem
open Verif.Check
open Verif.Atan (fadd_val fdiv_val)

theorem parity (n : ℤ) : (Even n ↔ n % 2 = 0) ∧ (Odd n ↔ n % 2 ≠ 0) := ⟨Int.even_iff, by rw [Int.odd_iff]; omega⟩

theorem num_not_zero {w : ℚ} (h : w ≠ 0) : cEq (.num w) .plusZero = false := by
  unfold cEq
  rw [Bool.and_eq_false_iff]
  rcases lt_or_gt_of_ne h with h | h
  · exact Or.inr (decide_eq_false (not_le.2 h))
  · exact Or.inl (decide_eq_false (not_le.2 h))

/-- the last products -/
theorem assemble {F : Fmt} (hF : Format F) {b0 b1 : Val} {k : ℤ} (s : Bool) (h0 : Fin' F b0) (h1 : Fin' F b1) (y0 : 1 / 4 ≤ rv b0) (y0' : rv b0 ≤ 4)
    (y1 : 1 / 4 ≤ rv b1) (y1' : rv b1 ≤ 4) (hk : 2 * |k| ≤ F.emax + F.f + 4) :
    Fin' F (fmul F (fmul F (fmul F (if s then .num (-1) else .num 1) b0) (insExp F k)) b1) ∧
      |rv (fmul F (fmul F (fmul F (if s then .num (-1) else .num 1) b0) (insExp F k)) b1) - (if s then -1 else 1) * (rv b0 * (2 : ℝ) ^ k * rv b1)| ≤
        uu F * (rv b0 * (2 : ℝ) ^ k * rv b1) ∧
      (Unbounded F (numOf b0 * 2 ^ k * numOf b1) →
        rv (fmul F (fmul F (fmul F (if s then .num (-1) else .num 1) b0) (insExp F k)) b1) = (if s then -1 else 1) * (rv b0 * (2 : ℝ) ^ k * rv b1)) := by
  have he := hF.wide.e2
  have hem : F.emin = 1 - F.emax := rfl
  have hg := hF.gap
  have hbig := hF.big
  have hk1 := le_abs_self k
  have hk2 := neg_abs_le k
  have hku : k + 4 ≤ F.emax := by omega
  have hkl : F.emin ≤ k - 4 := by omega
  have hsf : Fin' F (if s then .num (-1) else .num 1) := by cases s; exacts [fin_one hF, fin_mone hF]
  have hsv : rv (if s then .num (-1) else .num 1) = if s then -1 else 1 := by cases s <;> simp [rv, numOf]
  have two4 : (4 : ℝ) ≤ (2 : ℝ) ^ F.emax := by
    have : (2 : ℝ) ^ (2 : ℤ) ≤ (2 : ℝ) ^ F.emax := r2le (by omega)
    norm_num at this ⊢; exact this
  have sabs : ∀ z : ℝ, |(if s then (-1 : ℝ) else 1) * z| = |z| := by intro z; cases s <;> simp
  obtain ⟨hu0, -⟩ := fin_unb he h0
  have neg_unb : ∀ {w : ℚ}, Unbounded F w → Unbounded F ((if s then (-1 : ℚ) else 1) * w) := by
    intro w hw; cases s
    · simpa using hw
    · simpa using unb_neg hw
  have scast : (if s then (-1 : ℝ) else 1) = (((if s then (-1 : ℚ) else 1) : ℚ) : ℝ) := by cases s <;> simp
  -- times the sign
  obtain ⟨a1, a2⟩ := fmul_val he hsf h0 (by rw [hsv, sabs, abs_of_pos (by linarith)]; linarith)
  rw [hsv, show (if s then (-1 : ℝ) else 1) * rv b0 = (((if s then (-1 : ℚ) else 1) * numOf b0 : ℚ) : ℝ) by rw [scast]; unfold rv; push_cast; rfl,
    ru_exact (neg_unb hu0)] at a2
  have a3 : rv (fmul F (if s then .num (-1) else .num 1) b0) = (if s then (-1 : ℝ) else 1) * rv b0 := by
    rw [a2, scast]; unfold rv; push_cast; rfl
  generalize fmul F (if s then .num (-1) else .num 1) b0 = c at *
  -- times the power of two
  obtain ⟨i1, i2⟩ := insExp_fin he (k := k) (by omega) (by omega)
  have i3 : rv (insExp F k) = (2 : ℝ) ^ k := by unfold rv; rw [i2]; push_cast; rfl
  have zk := r2 k
  have hkk : rv b0 * (2 : ℝ) ^ k ≤ (2 : ℝ) ^ (k + 2) := by
    rw [r2add]; nlinarith
  obtain ⟨d1, d2⟩ := fmul_val he a1 i1 (by
    rw [a3, i3, mul_assoc, sabs, abs_of_pos (by positivity)]
    exact hkk.trans (r2le (by omega)))
  have hq0 : (2 : ℚ) ^ (-2 : ℤ) ≤ |(if s then (-1 : ℚ) else 1) * numOf b0| := by
    have h3 : |(if s then (-1 : ℚ) else 1) * numOf b0| = |numOf b0| := by cases s <;> simp
    rw [h3]
    have h4 : (1 / 4 : ℚ) ≤ numOf b0 := by
      have : ((1 / 4 : ℚ) : ℝ) ≤ ((numOf b0 : ℚ) : ℝ) := by push_cast; unfold rv at y0; linarith
      exact_mod_cast this
    rw [abs_of_pos (by linarith)]
    norm_num at h4 ⊢; linarith
  rw [i3, a2, show (((if s then (-1 : ℚ) else 1) * numOf b0 : ℚ) : ℝ) * (2 : ℝ) ^ k = (((if s then (-1 : ℚ) else 1) * numOf b0 * 2 ^ k : ℚ) : ℝ) by push_cast; rfl,
    ru_exact (unb_scale (neg_unb hu0) (a := -2) (j := k) hq0 (by omega))] at d2
  have d3 : rv (fmul F c (insExp F k)) = (if s then (-1 : ℝ) else 1) * (rv b0 * (2 : ℝ) ^ k) := by
    rw [d2, scast]; unfold rv; push_cast; ring
  generalize fmul F c (insExp F k) = d at *
  -- the last product
  have hz : 0 < rv b0 * (2 : ℝ) ^ k * rv b1 := by positivity
  have hz1 : rv b0 * (2 : ℝ) ^ k * rv b1 ≤ (2 : ℝ) ^ (k + 4) := by
    have : (2 : ℝ) ^ (k + 4) = (2 : ℝ) ^ (k + 2) * 4 := by rw [show k + 4 = k + 2 + 2 by ring, r2add (k + 2)]; norm_num
    rw [this]
    exact mul_le_mul hkk y1' (by linarith) (r2 _).le
  have hz2 : (2 : ℝ) ^ (k - 4) ≤ rv b0 * (2 : ℝ) ^ k * rv b1 := by
    have e4 : (2 : ℝ) ^ (k - 4) = 1 / 4 * (2 : ℝ) ^ k * (1 / 4) := by rw [show k - 4 = -4 + k by ring, r2add]; norm_num; ring
    rw [e4]
    exact mul_le_mul (mul_le_mul_of_nonneg_right y0 zk.le) y1 (by norm_num) (by positivity)
  have ez : rv d * rv b1 = (if s then (-1 : ℝ) else 1) * (rv b0 * (2 : ℝ) ^ k * rv b1) := by rw [d3]; ring
  obtain ⟨f1, f2⟩ := fmul_val he d1 h1 (by
    rw [ez, sabs, abs_of_pos hz]; exact hz1.trans (r2le (by omega)))
  refine ⟨f1, ?_, ?_⟩
  · rw [f2, ez]
    rcases ru_rel F ((if s then (-1 : ℝ) else 1) * (rv b0 * (2 : ℝ) ^ k * rv b1)) with h | h
    · rwa [sabs, abs_of_pos hz] at h
    · refine h.trans ?_
      have e5 : ee F = uu F * (2 : ℝ) ^ F.emin := by unfold ee uu; rw [← r2add]; congr 1; ring
      rw [e5]
      exact mul_le_mul_of_nonneg_left ((r2le hkl).trans hz2) (uu_pos F).le
  · intro hu
    rw [f2, ez, show (if s then (-1 : ℝ) else 1) * (rv b0 * (2 : ℝ) ^ k * rv b1) = (((if s then (-1 : ℚ) else 1) * (numOf b0 * 2 ^ k * numOf b1) : ℚ) : ℝ) by
      rw [scast]; unfold rv; push_cast; rfl, ru_exact (neg_unb hu)]

/-- the path of the numbers: none of the special cases -/
theorem rootn_num {F : Fmt} (hF : Format F) (L P : Val → Val) (cv : Val → ℤ) (nm : Val) {n : ℤ} (hn : 2 ≤ |n|) {v : ℚ} (hv : F.Finite v) (h0 : v ≠ 0)
    (hs : 0 < v ∨ Odd n) : rootn F L P cv nm n (.num v) = rootNum F L P cv nm n (.num v) := by
  obtain ⟨w, hw, w0, ws, -⟩ := decomp hF nm hv h0
  have n0 : n ≠ 0 := by rintro rfl; simp at hn
  have n1 : n ≠ 1 := by rintro rfl; norm_num at hn
  have nm1 : n ≠ -1 := by rintro rfl; norm_num at hn
  have hz : cEq (.num w) .plusZero = false := num_not_zero w0
  have hlt : (decide (n % 2 = 0) && flt (.num w) .plusZero) = false := by
    rcases hs with h | h
    · have : flt (.num w) .plusZero = false := by
        have : ¬ w < 0 := fun h' => absurd (ws.1 h') (by linarith)
        simp only [flt, cLe, numOf, Bool.and_eq_false_iff, Bool.not_eq_false', decide_eq_true_eq, decide_eq_false_iff_not]
        exact Or.inr (decide_eq_true (not_lt.1 this))
      rw [this, Bool.and_false]
    · rw [decide_eq_false ((parity n).2.1 h), Bool.false_and]
  unfold rootn
  rw [hw, hlt, hz]
  simp [isNaN, isInf, n0, n1, nm1]

/-- **C110**: the error of the generated root, relative, for every finite operand (subnormal numbers included) and every order but `0`, `1`, `-1`.
`u` is half an ulp of one; `η` is the error of the logarithm of the mantissa. -/
theorem C110_error_partial {F : Fmt} (hF : Format F) (L P : Val → Val) (cv : Val → ℤ) (nm : Val) {η : ℝ} (hη : η ≤ 1 / 64)
    (hP : ∀ a r, IsReal F a r → |r| ≤ 1 / 16 → ∃ q, IsReal F (P a) q ∧ |q - ((2 : ℝ) ^ r - 1)| ≤ (2 : ℝ) ^ (-(F.f : ℤ) - 3))
    (hL : ∀ a m, IsReal F a m → 1 ≤ m → m < 2 → ∃ l, IsReal F (L a) l ∧ |l - Real.logb 2 m| ≤ η)
    {n : ℤ} (hn : 2 ≤ |n|) (hn' : |n| ≤ 2 ^ 63) {v : ℚ} (hv : F.Finite v) (h0 : v ≠ 0) (hs : 0 < v ∨ Odd n) :
    ∃ r y, rootn F L P cv nm n (.num v) = some r ∧ IsReal F r y ∧
      |y - root n v| ≤ (12 * (2 : ℝ) ^ (-(F.f : ℤ) - 1) + η) * |root n v| := by
  rw [rootn_num hF L P cv nm hn hv h0 hs]
  obtain ⟨w, hw, w0, ws, hE, hm, hEb⟩ := decomp hF nm hv h0
  obtain ⟨m1, m2, m3⟩ := mant_fin hF hv h0
  have hpos : 0 < |v| := abs_pos.2 h0
  have n0 : n ≠ 0 := by rintro rfl; simp at hn
  have nr0 : (n : ℝ) ≠ 0 := by exact_mod_cast n0
  obtain ⟨E, hEe⟩ : ∃ E, E = Int.log 2 |v| := ⟨_, rfl⟩
  rw [← hEe] at hE hm hEb m1 m2 m3
  obtain ⟨m, hmm⟩ : ∃ m, m = |v| * (2 : ℚ) ^ (-E) := ⟨_, rfl⟩
  rw [← hmm] at hm m1 m2 m3
  have mR1 : (1 : ℝ) ≤ m := by exact_mod_cast m2
  have mR2 : (m : ℝ) < 2 := by exact_mod_cast m3
  obtain ⟨l, l1, l2⟩ := hL (.num m) m m1 mR1 mR2
  obtain ⟨lf, rfl⟩ := isReal_rv.1 l1
  have t0 : 0 ≤ Real.logb 2 m := Real.logb_nonneg (by norm_num) mR1
  have t1 : Real.logb 2 m ≤ 1 := by
    rw [Real.logb_le_iff_le_rpow (by norm_num) (by linarith)]; norm_num; exact mR2.le
  have hu := uu_small hF
  have hu0 := uu_pos F
  have hη0 : 0 ≤ η := (abs_nonneg _).trans l2
  obtain ⟨r1, r2', r3⟩ := log_part hF hn hn' lf t0 t1 hη l2
  obtain ⟨k, k1, k2, k3, f1, f2, f3⟩ := frac_err hF hn hn' hEb
  obtain ⟨b0, b1, b2, b3⟩ := exp_part hF (cv := cv) hP r1 r3
  obtain ⟨c0, c1, c2, c3⟩ := exp_part hF (cv := cv) hP f1 f3
  have hcv : convC F cv (fnearest (fdiv F (cst F (E : ℝ)) (cst F (n : ℝ)))) = k := by
    refine convC_fin k1 k2 ?_
    have h1 : (2 : ℤ) ^ F.f ≤ 2 ^ (F.e + F.f) := pow_le_pow_right₀ (by norm_num) (by omega)
    have := hF.room
    have := abs_nonneg k
    have := hF.big
    omega
  have hz : cEq (.num w) .plusZero = false := num_not_zero w0
  have hla : logApprox F L nm (.num w) = L (.num m) := by unfold logApprox; rw [hz, hm]; rfl
  -- the two exponentials
  obtain ⟨A, hA⟩ : ∃ A, A = (2 : ℝ) ^ (Real.logb 2 m / n) := ⟨_, rfl⟩
  obtain ⟨B, hB⟩ : ∃ B, B = (2 : ℝ) ^ ((E : ℝ) / n - k) := ⟨_, rfl⟩
  have A0 : 0 < A := by rw [hA]; positivity
  have B0 : 0 < B := by rw [hB]; positivity
  have near : ∀ {x y b δ : ℝ}, |x - y| ≤ δ → δ ≤ 1 → |b - (2 : ℝ) ^ x| ≤ 4 * uu F * (2 : ℝ) ^ x →
      |b - (2 : ℝ) ^ y| ≤ (4 * uu F + δ + 4 * uu F * δ) * (2 : ℝ) ^ y := by
    intro x y b δ h1 h2 h3
    have e1 : (2 : ℝ) ^ x = (2 : ℝ) ^ y * (2 : ℝ) ^ (x - y) := by rw [← Real.rpow_add (by norm_num)]; congr 1; ring
    have h4 := (pow_near (h1.trans h2)).trans h1
    have hy : 0 < (2 : ℝ) ^ y := by positivity
    have h5 : |(2 : ℝ) ^ x - (2 : ℝ) ^ y| ≤ δ * (2 : ℝ) ^ y := by
      rw [e1, show (2 : ℝ) ^ y * (2 : ℝ) ^ (x - y) - (2 : ℝ) ^ y = ((2 : ℝ) ^ (x - y) - 1) * (2 : ℝ) ^ y by ring, abs_mul, abs_of_pos hy]
      exact mul_le_mul_of_nonneg_right h4 hy.le
    have h6 := (abs_le.1 h5).2
    have h7 := abs_sub_le b ((2 : ℝ) ^ x) ((2 : ℝ) ^ y)
    have h8 : 4 * uu F * (2 : ℝ) ^ x ≤ 4 * uu F * ((1 + δ) * (2 : ℝ) ^ y) := mul_le_mul_of_nonneg_left (by linarith) (by positivity)
    linarith
  have hb := near r2' (by linarith) b3
  have hc := near f2 (by linarith) c3
  rw [← hA] at hb
  rw [← hB] at hc
  have αb : 4 * uu F + (η + 5 / 4 * uu F) + 4 * uu F * (η + 5 / 4 * uu F) ≤ 107 / 20 * uu F + η := by
    have : uu F * (η + 5 / 4 * uu F) ≤ uu F * (1 / 64 + 5 / 4 * (1 / 2048)) := mul_le_mul_of_nonneg_left (by linarith) hu0.le
    linarith
  have βb : 4 * uu F + 5 / 4 * uu F + 4 * uu F * (5 / 4 * uu F) ≤ 263 / 50 * uu F := by
    have : uu F * (5 / 4 * uu F) ≤ uu F * (5 / 4 * (1 / 2048)) := mul_le_mul_of_nonneg_left (by linarith) hu0.le
    linarith
  have hb' : |rv b0 - A| ≤ (107 / 20 * uu F + η) * A := hb.trans (mul_le_mul_of_nonneg_right αb A0.le)
  have hc' : |rv c0 - B| ≤ (263 / 50 * uu F) * B := hc.trans (mul_le_mul_of_nonneg_right βb B0.le)
  -- their sizes
  have half : ∀ {x : ℝ}, |x| ≤ 3 / 4 + 1 / 64 → 1 / 2 ≤ (2 : ℝ) ^ x ∧ (2 : ℝ) ^ x ≤ 2 := by
    intro x hx
    obtain ⟨x1, x2⟩ := abs_le.1 hx
    constructor
    · calc (1 / 2 : ℝ) = (2 : ℝ) ^ (-1 : ℝ) := by rw [Real.rpow_neg_one]; norm_num
        _ ≤ _ := Real.rpow_le_rpow_of_exponent_le (by norm_num) (by linarith)
    · calc (2 : ℝ) ^ x ≤ (2 : ℝ) ^ (1 : ℝ) := Real.rpow_le_rpow_of_exponent_le (by norm_num) (by linarith)
        _ = 2 := Real.rpow_one 2
  have Ab : 1 / 2 ≤ A ∧ A ≤ 2 := by
    rw [hA]
    refine half ?_
    have hnR : (2 : ℝ) ≤ |(n : ℝ)| := by exact_mod_cast hn
    rw [abs_div, abs_of_nonneg t0, div_le_iff₀ (by linarith)]; linarith
  have Bb : 1 / 2 ≤ B ∧ B ≤ 2 := by
    rw [hB]
    refine half ?_
    have h1 := abs_sub_abs_le_abs_sub ((E : ℝ) / n - k) (rv (fracOf F (cst F (n : ℝ)) (cst F (E : ℝ))))
    rw [abs_sub_comm ((E : ℝ) / n - k)] at h1; linarith
  have αs : (107 / 20 * uu F + η) * A ≤ 1 / 16 := by
    calc (107 / 20 * uu F + η) * A ≤ (1 / 32) * 2 := mul_le_mul (by linarith) Ab.2 A0.le (by norm_num)
      _ = 1 / 16 := by norm_num
  have βs : 263 / 50 * uu F * B ≤ 1 / 16 := by
    calc 263 / 50 * uu F * B ≤ (1 / 32) * 2 := mul_le_mul (by linarith) Bb.2 B0.le (by norm_num)
      _ = 1 / 16 := by norm_num
  have hb2 := abs_le.1 hb'
  have hc2 := abs_le.1 hc'
  obtain ⟨s1, s2, -⟩ := assemble hF (k := k) (n % 2 ≠ 0 && sgn (.num w)) b2 c2 (by linarith) (by linarith) (by linarith) (by linarith) k3
  refine ⟨_, _, ?_, isReal_rv.2 ⟨s1, rfl⟩, ?_⟩
  · unfold rootNum
    simp only
    rw [hw, hE, hla, hcv, b1, c1]; rfl
  -- the sign
  have hsgn : (n % 2 ≠ 0 && sgn (.num w)) = decide (v < 0) := by
    have h1 : sgn (.num w) = decide (v < 0) := by
      simp only [sgn, Special.neg]; exact decide_eq_decide.2 ws
    rw [h1]
    rcases hs with h | h
    · rw [decide_eq_false (not_lt.2 h.le), Bool.and_false]
    · rw [show (decide (n % 2 ≠ 0)) = true from decide_eq_true ((parity n).2.1 h), Bool.true_and]
  rw [hsgn] at s2 ⊢
  -- the root
  have hvm : (|(v : ℝ)|) = m * (2 : ℝ) ^ E := by
    have : |v| = m * 2 ^ E := by rw [hmm, mul_assoc, ← Float.zadd, neg_add_cancel, zpow_zero, mul_one]
    rw [← Rat.cast_abs, this]; push_cast; rfl
  have hroot : |(v : ℝ)| ^ (1 / (n : ℝ)) = A * (2 : ℝ) ^ k * B := by
    have m0 : (0 : ℝ) < m := by linarith
    have hmr : (m : ℝ) = (2 : ℝ) ^ Real.logb 2 m := (Real.rpow_logb (by norm_num) (by norm_num) m0).symm
    rw [hvm, ← Real.rpow_intCast 2 E]
    conv_lhs => rw [hmr]
    rw [← Real.rpow_add (by norm_num), ← Real.rpow_mul (by norm_num), hA, hB, ← Real.rpow_intCast 2 k, ← Real.rpow_add (by norm_num),
      ← Real.rpow_add (by norm_num)]
    congr 1
    field_simp
    ring
  have hrt : root n v = (if decide (v < 0) then (-1 : ℝ) else 1) * (A * (2 : ℝ) ^ k * B) := by
    unfold root
    by_cases h : v < 0
    · have h' : (v : ℝ) < 0 := by exact_mod_cast h
      rw [if_pos h', decide_eq_true h, if_pos rfl, ← hroot, abs_of_neg h']; ring
    · have h' : ¬ (v : ℝ) < 0 := by intro h'; exact h (by exact_mod_cast h')
      rw [if_neg h', decide_eq_false h, if_neg (by simp), ← hroot, abs_of_nonneg (not_lt.1 h')]; ring
  rw [hrt]
  generalize fmul F (fmul F (fmul F (if decide (v < 0) then .num (-1) else .num 1) b0) (insExp F k)) c0 = R at *
  obtain ⟨s, hsd⟩ : ∃ s : ℝ, s = if decide (v < 0) then (-1 : ℝ) else 1 := ⟨_, rfl⟩
  have sab : |s| = 1 := by rw [hsd]; split_ifs <;> norm_num
  rw [← hsd] at s2 ⊢
  have zk := r2 k
  obtain ⟨Z, hZ⟩ : ∃ Z, Z = A * (2 : ℝ) ^ k * B := ⟨_, rfl⟩
  have Z0 : 0 < Z := by rw [hZ]; positivity
  rw [← hZ, abs_mul, sab, one_mul, abs_of_pos Z0]
  have hprod : |rv b0 * (2 : ℝ) ^ k * rv c0 - Z| ≤ (1071 / 100 * uu F + η) * Z := by
    have e1 : rv b0 * (2 : ℝ) ^ k * rv c0 - Z = (2 : ℝ) ^ k * ((rv b0 - A) * B + A * (rv c0 - B) + (rv b0 - A) * (rv c0 - B)) := by rw [hZ]; ring
    have q1 : |(rv b0 - A) * B| ≤ (107 / 20 * uu F + η) * (A * B) := by
      rw [abs_mul, abs_of_pos B0]
      have := mul_le_mul_of_nonneg_right hb' B0.le
      linarith
    have q2 : |A * (rv c0 - B)| ≤ 263 / 50 * uu F * (A * B) := by
      rw [abs_mul, abs_of_pos A0]
      have := mul_le_mul_of_nonneg_left hc' A0.le
      linarith
    have q3 : |(rv b0 - A) * (rv c0 - B)| ≤ 1 / 10 * uu F * (A * B) := by
      rw [abs_mul]
      have h1 := mul_le_mul hb' hc' (abs_nonneg _) (by positivity)
      have h2 : (107 / 20 * uu F + η) * A * (263 / 50 * uu F * B) = (107 / 20 * uu F + η) * (263 / 50) * (uu F * (A * B)) := by ring
      have h3 : (107 / 20 * uu F + η) * (263 / 50) ≤ 1 / 10 := by linarith
      have h4 : 0 ≤ uu F * (A * B) := by positivity
      have := mul_le_mul_of_nonneg_right h3 h4
      linarith
    rw [e1, abs_mul, abs_of_pos zk]
    have q4 := abs_add_three ((rv b0 - A) * B) (A * (rv c0 - B)) ((rv b0 - A) * (rv c0 - B))
    have q5 : |(rv b0 - A) * B + A * (rv c0 - B) + (rv b0 - A) * (rv c0 - B)| ≤ (1071 / 100 * uu F + η) * (A * B) := by linarith
    have := mul_le_mul_of_nonneg_left q5 zk.le
    rw [hZ]; linarith
  have hp2 := (abs_le.1 hprod).2
  have e2 : rv R - s * Z = (rv R - s * (rv b0 * (2 : ℝ) ^ k * rv c0)) + s * (rv b0 * (2 : ℝ) ^ k * rv c0 - Z) := by ring
  have q6 := abs_add_le (rv R - s * (rv b0 * (2 : ℝ) ^ k * rv c0)) (s * (rv b0 * (2 : ℝ) ^ k * rv c0 - Z))
  rw [← e2, abs_mul, sab, one_mul] at q6
  have q7 : uu F * (rv b0 * (2 : ℝ) ^ k * rv c0) ≤ uu F * (1 + 1 / 10) * Z := by
    have h1 : rv b0 * (2 : ℝ) ^ k * rv c0 ≤ (1 + 1 / 10) * Z := by
      have : (1071 / 100 * uu F + η) * Z ≤ 1 / 10 * Z := mul_le_mul_of_nonneg_right (by linarith) Z0.le
      linarith
    have := mul_le_mul_of_nonneg_left h1 hu0.le
    linarith
  have huu : (2 : ℝ) ^ (-(F.f : ℤ) - 1) = uu F := rfl
  rw [huu]
  have : 0 ≤ uu F * Z := by positivity
  linarith

theorem corrected_zero {F : Fmt} (hF : Format F) {x : Val} (h : x = .plusZero ∨ x = .minusZero) :
    corrected F x = x ∧ correctedE F x = -F.emax - (F.f + 1) := by
  have key : corrected F x = x := by
    rcases h with rfl | rfl <;>
    · unfold corrected
      rw [show isSubnormal F _ = true from rfl, if_pos rfl, factor hF]
      unfold fmul
      simp only [isNaN, isInf, Bool.or_self, Bool.false_eq_true, if_false, numOf, zero_mul, Rat.cast_zero, rnd_zero]
      simp [zeroS, sgn, Special.neg]
  refine ⟨key, ?_⟩
  unfold correctedE
  rw [key]
  rcases h with rfl | rfl <;> rfl

/-- the root of odd order of a zero goes through the logarithm and the exponential -/
theorem zero_odd {F : Fmt} (hF : Format F) (L P : Val → Val) (cv : Val → ℤ) (nm : Val)
    (hP : ∀ a r, IsReal F a r → |r| ≤ 1 / 16 → ∃ q, IsReal F (P a) q ∧ |q - ((2 : ℝ) ^ r - 1)| ≤ (2 : ℝ) ^ (-(F.f : ℤ) - 3))
    {n : ℤ} (hn : 2 ≤ n) (ho : n % 2 ≠ 0) (hn' : |n| ≤ 2 ^ 63) {x : Val} (h : x = .plusZero ∨ x = .minusZero) :
    rootNum F L P cv nm n x = some x := by
  have he := hF.wide.e2
  obtain ⟨h1, h2⟩ := corrected_zero hF h
  have habs : 2 ≤ |n| := by rw [abs_of_pos (by omega)]; exact hn
  have hEb : |(-F.emax - (F.f + 1) : ℤ)| ≤ F.emax + F.f + 1 := by
    have := hF.big
    rw [abs_of_nonpos (by omega)]; omega
  obtain ⟨k, k1, k2, k3, f1, f2, f3⟩ := frac_err hF habs hn' hEb
  obtain ⟨c0, c1, c2, c3⟩ := exp_part hF (cv := cv) hP f1 f3
  obtain ⟨n1, n2, -⟩ := order_conv hF (by omega) hn'
  have hu := uu_small hF
  have hu0 := uu_pos F
  -- the order is positive
  have npos : 0 < rv (cst F (n : ℝ)) := by
    have hnp : (0 : ℝ) < n := by exact_mod_cast (show 0 < n by omega)
    rw [abs_of_pos hnp] at n2
    have := (abs_le.1 n2).1
    nlinarith
  have nsg : sgn (cst F (n : ℝ)) = false ∧ isZero (cst F (n : ℝ)) = false := by
    have hq : (0 : ℚ) < numOf (cst F (n : ℝ)) := by unfold rv at npos; exact_mod_cast npos
    have := fin_num_ne n1 hq.ne'
    rw [this]
    exact ⟨sgn_pos hq.le, decide_eq_false hq.ne'⟩
  have hr : fdiv F (logApprox F L nm x) (cst F (n : ℝ)) = .minusInf := by
    have hla : logApprox F L nm x = .minusInf := by
      unfold logApprox
      rcases h with rfl | rfl <;> simp [cEq, cLe, numOf]
    rw [hla]
    unfold fdiv
    simp only [n1.2.1, n1.2.2, nsg.1]
    rfl
  have hex := (C88_exp2_special F hF.wide.f hF.wide.e hF.wide.m P cv).2.1
  have hcv : convC F cv (fnearest (fdiv F (cst F ((-F.emax - (F.f + 1) : ℤ) : ℝ)) (cst F (n : ℝ)))) = k := by
    refine convC_fin k1 k2 ?_
    have h1 : (2 : ℤ) ^ F.f ≤ 2 ^ (F.e + F.f) := pow_le_pow_right₀ (by norm_num) (by omega)
    have := hF.room
    have := abs_nonneg k
    have := hF.big
    omega
  have hem : F.emin = 1 - F.emax := rfl
  have hki : insExp F k = .num ((2 : ℚ) ^ k) := by
    have := hF.gap
    have := le_abs_self k
    have := neg_abs_le k
    exact insExp_eq he (by omega) (by omega)
  have cpos : 0 < numOf c0 := by
    have hz : (0 : ℝ) < (2 : ℝ) ^ rv (fracOf F (cst F (n : ℝ)) (cst F ((-F.emax - (F.f + 1) : ℤ) : ℝ))) := by positivity
    have := (abs_le.1 c3).1
    have h3 : 4 * uu F * (2 : ℝ) ^ rv (fracOf F (cst F (n : ℝ)) (cst F ((-F.emax - (F.f + 1) : ℤ) : ℝ))) ≤
        1 / 2 * (2 : ℝ) ^ rv (fracOf F (cst F (n : ℝ)) (cst F ((-F.emax - (F.f + 1) : ℤ) : ℝ))) := mul_le_mul_of_nonneg_right (by linarith) hz.le
    have h4 : 0 < rv c0 := by linarith
    unfold rv at h4
    exact_mod_cast h4
  have hc0 := fin_num_ne c2 cpos.ne'
  unfold rootNum
  simp only
  rw [h1, h2, hr, hex, hcv, c1, hki, hc0]
  have hodd : (decide (n % 2 ≠ 0)) = true := decide_eq_true ho
  rw [hodd, Bool.true_and]
  have hs2 : sgn (.num ((2 : ℚ) ^ k)) = false := sgn_pow k
  have hs3 : sgn (.num (numOf c0)) = false := sgn_pos cpos.le
  have m1 : ∀ s : Bool, fmul F (if s then .num (-1) else .num 1) .plusZero = zeroS s := by
    intro s
    unfold fmul
    cases s
    · simp only [isNaN, isInf, numOf, Bool.or_self, Bool.false_eq_true, if_false, mul_zero, Rat.cast_zero, rnd_zero]
      congr 1
    · simp only [isNaN, isInf, numOf, Bool.or_self, Bool.false_eq_true, if_false, if_true, mul_zero, Rat.cast_zero, rnd_zero]
      congr 1
  have m2 : ∀ (s : Bool) (q : ℚ), sgn (.num q) = false → fmul F (zeroS s) (.num q) = zeroS s := by
    intro s q hq
    unfold fmul
    rw [hq]
    cases s <;> simp [zeroS, isNaN, isInf, numOf, rnd_zero, sgn, Special.neg]
  show some (fmul F (fmul F (fmul F (if sgn x then .num (-1) else .num 1) .plusZero) (.num ((2 : ℚ) ^ k))) (.num (numOf c0))) = some x
  rw [m1, m2 _ _ hs2, m2 _ _ hs3]
  rcases h with rfl | rfl <;> rfl

/-- the case of the sign of a zero that the code does not treat as the standard -/
def SignedZeroCase (n : ℤ) (x : Val) : Prop := x = .minusZero ∧ Even n ∧ 0 < n

set_option maxHeartbeats 1600000 in
/-- **C110**: the special cases of the standard, for every datum and every order, but the root of even order of `-0`. -/
theorem C110_special_partial {F : Fmt} (hF : Format F) (L P : Val → Val) (cv : Val → ℤ) (nm : Val)
    (hP : ∀ a r, IsReal F a r → |r| ≤ 1 / 16 → ∃ q, IsReal F (P a) q ∧ |q - ((2 : ℝ) ^ r - 1)| ≤ (2 : ℝ) ^ (-(F.f : ℤ) - 3))
    {n : ℤ} (hn' : |n| ≤ 2 ^ 63) {x : Val} (hx : F.Datum x)
    (hc : Special.IsNaN x ∨ Special.IsZero x ∨ Special.IsInf x ∨ n = 0 ∨ (Even n ∧ Special.neg x = true)) (hok : ¬ SignedZeroCase n x) :
    ∃ r, rootn F L P cv nm n x = some r ∧ RootSpecial n x r := by
  have he := hF.wide.e2
  by_cases h0 : n = 0
  · refine ⟨.qNaN, by unfold rootn; simp [h0], ?_⟩
    subst h0
    constructor <;> intros <;> simp_all
  have hcI : ∀ y : Val, isSubnormal F y = false → corrected F y = y := fun y h => by unfold corrected; rw [h]; rfl
  have hmod : n % 2 = 0 ∨ n % 2 = 1 := by omega
  cases x with
  | qNaN =>
    refine ⟨.qNaN, by unfold rootn; simp [hcI .qNaN rfl, isNaN], ?_⟩
    constructor <;> intros <;> simp_all [Special.neg, Special.IsZero, Special.finVal]
  | sNaN =>
    refine ⟨.qNaN, by unfold rootn; simp [hcI .sNaN rfl, isNaN], ?_⟩
    constructor <;> intros <;> simp_all [Special.neg, Special.IsZero, Special.finVal]
  | plusInf =>
    have e : corrected F .plusInf = .plusInf := hcI _ rfl
    have hlt : flt .plusInf .plusZero = false := rfl
    rcases lt_or_gt_of_ne h0 with h | h
    · refine ⟨.plusZero, ?_, ?_⟩
      · unfold rootn
        rw [e, hlt]
        by_cases hm : n = -1
        · simp [hm, isNaN, fdiv, isInf, zeroS, sgn, Special.neg]
        · simp [h0, hm, isNaN, isInf, h]
      · constructor <;> intros <;> simp_all [Special.neg, Special.IsZero, Special.finVal, Special.IsNaN] <;> omega
    · refine ⟨.plusInf, ?_, ?_⟩
      · unfold rootn
        rw [e, hlt]
        simp [h0, isNaN, isInf, show n ≠ -1 by omega, show ¬ n < 0 by omega]
      · constructor <;> intros <;> simp_all [Special.neg, Special.IsZero, Special.finVal, Special.IsNaN] <;> omega
  | minusInf =>
    have e : corrected F .minusInf = .minusInf := hcI _ rfl
    have hlt : flt .minusInf .plusZero = true := rfl
    rcases hmod with hp | hp
    · refine ⟨.qNaN, by unfold rootn; rw [e, hlt]; simp [hp], ?_⟩
      have hev : Even n := Int.even_iff.2 hp
      have hno : ¬ Odd n := Int.not_odd_iff_even.2 hev
      constructor <;> intros <;> simp_all [Special.neg, Special.IsZero, Special.finVal, Special.IsNaN]
    · have hod : Odd n := Int.odd_iff.2 hp
      have hne : ¬ Even n := Int.not_even_iff_odd.2 hod
      rcases lt_or_gt_of_ne h0 with h | h
      · refine ⟨.minusZero, ?_, ?_⟩
        · unfold rootn
          rw [e, hlt]
          by_cases hm : n = -1
          · simp [hm, isNaN, fdiv, isInf, zeroS, sgn, Special.neg]
          · simp [h0, hm, isNaN, isInf, h, hp]
        · constructor <;> intros <;> simp_all [Special.neg, Special.IsZero, Special.finVal, Special.IsNaN]
          omega
      · refine ⟨.minusInf, ?_, ?_⟩
        · unfold rootn
          rw [e, hlt]
          simp [h0, isNaN, isInf, show n ≠ -1 by omega, show ¬ n < 0 by omega, hp]
        · constructor <;> intros <;> simp_all [Special.neg, Special.IsZero, Special.finVal, Special.IsNaN]
          omega
  | plusZero =>
    have e := (corrected_zero hF (Or.inl rfl : Val.plusZero = .plusZero ∨ _)).1
    have hlt : flt .plusZero .plusZero = false := by simp [flt, cLe, numOf]
    have hz : cEq .plusZero .plusZero = true := by simp [cEq, cLe, numOf]
    rcases hmod with hp | hp
    · have hev : Even n := Int.even_iff.2 hp
      have hno : ¬ Odd n := Int.not_odd_iff_even.2 hev
      rcases lt_or_gt_of_ne h0 with h | h
      · refine ⟨.plusInf, ?_, ?_⟩
        · unfold rootn
          rw [e, hlt, hz]
          simp [h0, isNaN, isInf, show n ≠ -1 by omega, h, hp]
        · constructor <;> intros <;> simp_all [Special.neg, Special.IsZero, Special.finVal, Special.IsNaN]
          omega
      · refine ⟨.plusZero, ?_, ?_⟩
        · unfold rootn
          rw [e, hlt, hz]
          simp [h0, isNaN, isInf, show n ≠ -1 by omega, show ¬ n < 0 by omega, hp]
        · constructor <;> intros <;> simp_all [Special.neg, Special.IsZero, Special.finVal, Special.IsNaN]
          omega
    · have hod : Odd n := Int.odd_iff.2 hp
      have hne : ¬ Even n := Int.not_even_iff_odd.2 hod
      rcases lt_or_gt_of_ne h0 with h | h
      · refine ⟨.plusInf, ?_, ?_⟩
        · unfold rootn
          rw [e, hlt, hz]
          by_cases hm : n = -1
          · simp [hm, isNaN, fdiv, isInf, isZero, infS, sgn, Special.neg]
          · simp [h0, hm, isNaN, isInf, h, hp]
        · constructor <;> intros <;> simp_all [Special.neg, Special.IsZero, Special.finVal, Special.IsNaN]
          omega
      · refine ⟨.plusZero, ?_, ?_⟩
        · by_cases h1 : n = 1
          · unfold rootn
            rw [e, hlt, hz]
            simp [h1, isNaN, isInf]
          · rw [← zero_odd hF L P cv nm hP (by omega) (by omega) hn' (Or.inl rfl : Val.plusZero = .plusZero ∨ _)]
            unfold rootn
            rw [e, hlt, hz]
            simp [h0, h1, isNaN, isInf, show n ≠ -1 by omega, show ¬ n < 0 by omega, hp]
        · constructor <;> intros <;> simp_all [Special.neg, Special.IsZero, Special.finVal, Special.IsNaN]
          omega
  | minusZero =>
    have e := (corrected_zero hF (Or.inr rfl : Val.minusZero = .plusZero ∨ _)).1
    have hlt : flt .minusZero .plusZero = false := by simp [flt, cLe, numOf]
    have hz : cEq .minusZero .plusZero = true := by simp [cEq, cLe, numOf]
    rcases hmod with hp | hp
    · have hev : Even n := Int.even_iff.2 hp
      have hno : ¬ Odd n := Int.not_odd_iff_even.2 hev
      rcases lt_or_gt_of_ne h0 with h | h
      · refine ⟨.plusInf, ?_, ?_⟩
        · unfold rootn
          rw [e, hlt, hz]
          simp [h0, isNaN, isInf, show n ≠ -1 by omega, h, hp]
        · constructor <;> intros <;> simp_all [Special.neg, Special.IsZero, Special.finVal, Special.IsNaN]
          omega
      · exact absurd ⟨rfl, hev, h⟩ hok
    · have hod : Odd n := Int.odd_iff.2 hp
      have hne : ¬ Even n := Int.not_even_iff_odd.2 hod
      rcases lt_or_gt_of_ne h0 with h | h
      · refine ⟨.minusInf, ?_, ?_⟩
        · unfold rootn
          rw [e, hlt, hz]
          by_cases hm : n = -1
          · simp [hm, isNaN, fdiv, isInf, isZero, infS, sgn, Special.neg]
          · simp [h0, hm, isNaN, isInf, h, hp]
        · constructor <;> intros <;> simp_all [Special.neg, Special.IsZero, Special.finVal, Special.IsNaN]
          omega
      · refine ⟨.minusZero, ?_, ?_⟩
        · by_cases h1 : n = 1
          · unfold rootn
            rw [e, hlt, hz]
            simp [h1, isNaN, isInf]
          · rw [← zero_odd hF L P cv nm hP (by omega) (by omega) hn' (Or.inr rfl : Val.minusZero = .plusZero ∨ _)]
            unfold rootn
            rw [e, hlt, hz]
            simp [h0, h1, isNaN, isInf, show n ≠ -1 by omega, show ¬ n < 0 by omega, hp]
        · constructor <;> intros <;> simp_all [Special.neg, Special.IsZero, Special.finVal, Special.IsNaN]
          omega
  | num v =>
    have hv0 : v ≠ 0 := hx.2
    have hneg : Even n ∧ v < 0 := by
      rcases hc with h | h | h | h | h
      · exact absurd h (by simp [Special.IsNaN])
      · exact absurd h (by simp [Special.IsZero, Special.finVal, hv0])
      · exact absurd h (by simp [Special.IsInf])
      · exact absurd h h0
      · exact ⟨h.1, by simpa [Special.neg] using h.2⟩
    obtain ⟨w, hw, w0, ws, -⟩ := decomp hF nm hx.1 hv0
    have hlt : flt (.num w) .plusZero = true := by
      have := ws.2 hneg.2
      simp only [flt, cLe, numOf, Bool.and_eq_true, Bool.not_eq_true']
      exact ⟨decide_eq_true this.le, decide_eq_false (not_le.2 this)⟩
    refine ⟨.qNaN, by unfold rootn; rw [hw, hlt]; simp [Int.even_iff.1 hneg.1], ?_⟩
    have hno : ¬ Odd n := Int.not_odd_iff_even.2 hneg.1
    constructor <;> intros <;> simp_all [Special.neg, Special.IsZero, Special.finVal, Special.IsNaN]

theorem format32 : Format ⟨8, 23⟩ := ⟨⟨by norm_num, by norm_num, by norm_num [Fmt.emax]⟩, by norm_num [Fmt.emax], by norm_num [Fmt.emax], by norm_num [Fmt.emax]⟩
theorem format64 : Format ⟨11, 52⟩ := ⟨⟨by norm_num, by norm_num, by norm_num [Fmt.emax]⟩, by norm_num [Fmt.emax], by norm_num [Fmt.emax], by norm_num [Fmt.emax]⟩

/-- the correctly rounded logarithm of the mantissa -/
noncomputable def bestL (F : Fmt) (a : Val) : Val := cst F (Real.logb 2 (rv a))

theorem bestL_ok {F : Fmt} (hF : Format F) :
    ∀ a m, IsReal F a m → 1 ≤ m → m < 2 → ∃ l, IsReal F (bestL F a) l ∧ |l - Real.logb 2 m| ≤ 1 / 64 := by
  intro a m hm h1 h2
  obtain ⟨ha, rfl⟩ := isReal_rv.1 hm
  have he := hF.wide.e2
  have hf := hF.wide.f
  have hbig := hF.big
  have hem : F.emin = 1 - F.emax := rfl
  have hb : |Real.logb 2 (rv a)| ≤ (2 : ℝ) ^ ((-1 : ℤ) + 1) := by
    have l0 : 0 ≤ Real.logb 2 (rv a) := Real.logb_nonneg (by norm_num) h1
    have l1 : Real.logb 2 (rv a) ≤ 1 := (Real.logb_le_iff_le_rpow (by norm_num) (by linarith)).2 (by rw [Real.rpow_one]; exact h2.le)
    rw [abs_of_nonneg l0]; norm_num; exact l1
  have h3 := ru_abs_le (F := F) (by omega) hb
  obtain ⟨c1, c2⟩ := cst_fin he (le_trans h3 (le_trans (Float.zle (by omega)) (omega_ge he)))
  refine ⟨_, isReal_rv.2 ⟨c1, rfl⟩, ?_⟩
  have h4 := ru_err_le (F := F) (by omega) hb
  show |(numOf (cst F _) : ℝ) - _| ≤ _
  rw [c2]
  exact le_trans h4 (le_trans (r2le (by omega : _ ≤ (-6 : ℤ))) (by norm_num))

/-- The cube root of a negative subnormal number of binary32. -/
example (cv : Val → ℤ) (nm : Val) : ∃ r y, rootn ⟨8, 23⟩ (bestL ⟨8, 23⟩) (bestP2 ⟨8, 23⟩) cv nm 3 (.num (-2 ^ (-140 : ℤ))) = some r ∧ IsReal ⟨8, 23⟩ r y ∧
    |y - root 3 (-2 ^ (-140 : ℤ) : ℚ)| ≤ (12 * (2 : ℝ) ^ (-((23 : ℕ) : ℤ) - 1) + 1 / 64) * |root 3 (-2 ^ (-140 : ℤ) : ℚ)| :=
  C110_error_partial format32 _ _ cv nm le_rfl (bestP2_ok format32.wide) (bestL_ok format32) (by norm_num) (by norm_num)
    ⟨-512, -126, by norm_num, by norm_num [Fmt.emin, Fmt.emax], by norm_num [Fmt.emax], by norm_num⟩ (by norm_num) (Or.inr (by decide))

/-- The hypotheses hold of binary32 and binary64, of the correctly rounded polynomial part. -/
example (L : Val → Val) (cv : Val → ℤ) (nm : Val) : ∃ r, rootn ⟨8, 23⟩ L (bestP2 ⟨8, 23⟩) cv nm 3 .minusZero = some r ∧ RootSpecial 3 .minusZero r :=
  C110_special_partial format32 L _ cv nm (bestP2_ok format32.wide) (by norm_num) trivial (Or.inr (Or.inl rfl)) (by simp [SignedZeroCase, Int.even_iff])

example (L : Val → Val) (cv : Val → ℤ) (nm : Val) : ∃ r, rootn ⟨11, 52⟩ L (bestP2 ⟨11, 52⟩) cv nm (-4) (.num (-1)) = some r ∧ RootSpecial (-4) (.num (-1)) r :=
  C110_special_partial format64 L _ cv nm (bestP2_ok format64.wide) (by norm_num) (fin_mone format64).1
    (Or.inr (Or.inr (Or.inr (Or.inr ⟨by decide, by simp [Special.neg]⟩)))) (by simp [SignedZeroCase])

/-- **C110**: the root of even positive order of `-0` is `-0` instead of `+0`. -/
theorem C110_minus_zero_wrong {F : Fmt} (hF : Format F) (L P : Val → Val) (cv : Val → ℤ) (nm : Val) {n : ℤ} (hn : Even n) (h0 : 0 < n) :
    rootn F L P cv nm n .minusZero = some .minusZero ∧ ¬ RootSpecial n .minusZero .minusZero := by
  have e := (corrected_zero hF (Or.inr rfl : Val.minusZero = .plusZero ∨ _)).1
  have hlt : flt .minusZero .plusZero = false := by simp [flt, cLe, numOf]
  have hz : cEq .minusZero .plusZero = true := by simp [cEq, cLe, numOf]
  refine ⟨?_, fun h => ?_⟩
  · unfold rootn
    rw [e, hlt, hz]
    simp [isNaN, isInf, show n ≠ 0 by omega, show n ≠ -1 by omega, show ¬ n < 0 by omega, Int.even_iff.1 hn]
  · have := h.zeroEvenPos hn h0 rfl
    exact absurd this (by simp)

/-- **C110**: the first root is the identity, but for the NaNs. -/
theorem C110_first {F : Fmt} (hF : Format F) (L P : Val → Val) (cv : Val → ℤ) (nm : Val) {x : Val} (hx : F.Datum x) (h : ¬ Special.IsNaN x) :
    rootn F L P cv nm 1 x = some x := by
  have hcI : ∀ y : Val, isSubnormal F y = false → corrected F y = y := fun y h => by unfold corrected; rw [h]; rfl
  cases x with
  | qNaN => exact absurd trivial h
  | sNaN => exact absurd trivial h
  | plusInf => unfold rootn; rw [hcI .plusInf rfl]; simp [isNaN, isInf]
  | minusInf => unfold rootn; rw [hcI .minusInf rfl]; simp [isNaN, isInf]
  | plusZero => unfold rootn; rw [(corrected_zero hF (Or.inl rfl : Val.plusZero = .plusZero ∨ _)).1]; simp [isNaN, isInf]
  | minusZero => unfold rootn; rw [(corrected_zero hF (Or.inr rfl : Val.minusZero = .plusZero ∨ _)).1]; simp [isNaN, isInf]
  | num v =>
    obtain ⟨w, hw, -⟩ := decomp hF nm hx.1 hx.2
    unfold rootn; rw [hw]; simp [isNaN, isInf]

/-- **C110**: the root of order `-1` of a number is its reciprocal, correctly rounded. -/
theorem C110_reciprocal {F : Fmt} (hF : Format F) (L P : Val → Val) (cv : Val → ℤ) (nm : Val) {v : ℚ} (hv : F.Finite v) (h0 : v ≠ 0) :
    ∃ r, rootn F L P cv nm (-1) (.num v) = some r ∧ RoundsTo F (1 / v) r := by
  obtain ⟨w, hw, -⟩ := decomp hF nm hv h0
  refine ⟨fdiv F (.num 1) (.num v), by unfold rootn; rw [hw]; simp [isNaN], ?_⟩
  have e : ((1 / v : ℚ) : ℝ) = 1 / (v : ℝ) := by push_cast; rfl
  unfold fdiv
  simp only [isNaN, isInf, isZero, Bool.or_self, Bool.false_eq_true, if_false, numOf, decide_eq_true_eq, h0]
  rw [e]
  exact rnd_rounds hF.wide.e2 (by have := hF.wide.f; omega) _ (one_div_ne_zero (by exact_mod_cast h0))

end Verif.Rootn
