import Verif.Elem.Exp

/-! # The reconstruction `1 + (hi + (lo + P(r)))` of the generated exponential -/

namespace Verif.Elem

open Verif.Float (Fmt Val)
open Verif.Check

/-- a sum of two finite data whose magnitude is small -/
theorem fadd_small {F : Fmt} (he : 2 ≤ F.e) {a b : Val} (ha : Fin' F a) (hb : Fin' F b) {k : ℤ} (hk : F.emin ≤ k) (hk1 : k + 1 ≤ F.emax)
    (h : |(numOf a : ℝ) + numOf b| ≤ (2 : ℝ) ^ (k + 1)) :
    Fin' F (fadd F a b) ∧ numOf (fadd F a b) = roundUnb F .RN ((numOf a + numOf b : ℚ) : ℝ) ∧
      |(numOf (fadd F a b) : ℝ) - (numOf a + numOf b)| ≤ (2 : ℝ) ^ (k - F.f - 1) := by
  have h' : |((numOf a + numOf b : ℚ) : ℝ)| ≤ (2 : ℝ) ^ (k + 1) := by push_cast; exact h
  have hb' := ru_abs_le (F := F) (k := k + 1) (by omega) h'
  obtain ⟨f1, f2⟩ := fadd_fin he ha hb (le_trans hb' (le_trans (Float.zle hk1) (omega_ge he)))
  refine ⟨f1, f2, ?_⟩
  have := ru_err_le hk h'
  rw [f2]
  push_cast at this ⊢
  exact this

/-- the function the polynomial approximates is Lipschitz -/
theorem rem_lip {r x : ℝ} (h : |x - r| ≤ 1 / 1000) (hr : |r| ≤ 0.36) :
    |(Real.exp x - 1 - x) - (Real.exp r - 1 - r)| ≤ (|Real.exp r - 1| + 0.002) * |x - r| := by
  have e1 : Real.exp x = Real.exp r * Real.exp (x - r) := by rw [← Real.exp_add]; congr 1; ring
  have h2 := Real.abs_exp_sub_one_sub_id_le (x := x - r) (by linarith)
  obtain ⟨b1, b2⟩ := exp_bounds_small hr
  have e2 : (Real.exp x - 1 - x) - (Real.exp r - 1 - r) = Real.exp r * (Real.exp (x - r) - 1 - (x - r)) + (Real.exp r - 1) * (x - r) := by
    rw [e1]; ring
  rw [e2]
  refine le_trans (abs_add_le _ _) ?_
  rw [abs_mul, abs_mul, abs_of_pos (Real.exp_pos r)]
  have h3 : (x - r) ^ 2 ≤ 1 / 1000 * |x - r| := by
    rw [← sq_abs]; nlinarith [abs_nonneg (x - r)]
  have h4 : Real.exp r * |Real.exp (x - r) - 1 - (x - r)| ≤ 1.5 * (1 / 1000 * |x - r|) :=
    mul_le_mul b2 (le_trans h2 h3) (abs_nonneg _) (by norm_num)
  have := abs_nonneg (x - r)
  norm_num at h4 ⊢
  nlinarith

theorem rem_bounds {r : ℝ} (hr : |r| ≤ 0.36) : 0 ≤ Real.exp r - 1 - r ∧ Real.exp r - 1 - r ≤ 0.08 := by
  refine ⟨by have := Real.add_one_le_exp r; linarith, ?_⟩
  have h := Real.exp_bound (x := r) (by norm_num at hr ⊢; linarith) (n := 4) (by norm_num)
  have hs : ∑ m ∈ Finset.range 4, r ^ m / (m.factorial : ℝ) = 1 + r + r ^ 2 / 2 + r ^ 3 / 6 := by
    simp [Finset.sum_range_succ, Nat.factorial]
  rw [hs] at h
  have h1 := (abs_le.1 h).2
  have a0 := abs_nonneg r
  have p2 : r ^ 2 ≤ 0.36 ^ 2 := by rw [← sq_abs]; gcongr
  have p3 : r ^ 3 ≤ 0.36 ^ 3 := by
    have : r ^ 3 ≤ |r| ^ 3 := by rw [← abs_pow]; exact le_abs_self _
    exact le_trans this (by gcongr)
  have p4 : |r| ^ 4 ≤ 0.36 ^ 4 := by gcongr
  norm_num [Nat.factorial] at h1 p2 p3 p4 ⊢
  linarith

set_option maxHeartbeats 1000000 in
/-- the reconstruction meets the condition of `C77_exp_faithful` -/
theorem recon {F : Fmt} (h1 : 2 * F.e + 7 ≤ F.f) (h2 : 2 * (F.f : ℤ) + 2 ≤ F.emax) (P : Val → Val)
    (hP : ∀ a x, IsReal F a x → |x| ≤ 9 / 25 → ∃ q, IsReal F (P a) q ∧ |q - (Real.exp x - 1 - x)| ≤ (2 : ℝ) ^ (-(F.f : ℤ) - 5))
    {a b : Val} (ha : Fin' F a) (hb : Fin' F b) (hs : |(numOf a : ℝ) + numOf b| ≤ Real.log 2 / 2 + (2 : ℝ) ^ ((F.e : ℤ) - F.f))
    (hbs : |(numOf b : ℝ)| ≤ 1 / 50) :
    ∃ p : ℚ, F.Finite p ∧ expPoly F P a b = .num p ∧
      (Real.exp (numOf a + numOf b) < 1 → p ≤ 1 ∧ |(p : ℝ) - Real.exp (numOf a + numOf b)| ≤ 31 / 32 * (2 : ℝ) ^ (-(F.f : ℤ) - 1)) ∧
      (1 ≤ Real.exp (numOf a + numOf b) → 1 ≤ p ∧ |(p : ℝ) - Real.exp (numOf a + numOf b)| ≤ 31 / 32 * (2 : ℝ) ^ (-(F.f : ℤ))) := by
  have h1' : 2 * F.e + 4 ≤ F.f := by omega
  have he7 := fmt_big h1' h2
  have he : 2 ≤ F.e := by omega
  have hemin : F.emin = 1 - F.emax := rfl
  set s := (numOf a : ℝ) + numOf b with hs_
  have hsm : (2 : ℝ) ^ ((F.e : ℤ) - F.f) ≤ 1 / 1000 := by
    have : (2 : ℝ) ^ ((F.e : ℤ) - F.f) ≤ (2 : ℝ) ^ (-10 : ℤ) := r2le (by omega)
    norm_num at this; linarith
  obtain ⟨l1, l3⟩ := l2
  set ρ := (2 : ℝ) ^ (-(F.f : ℤ)) with hρ
  have hρ0 : 0 < ρ := r2 _
  have hρs : ρ ≤ 1 / 1000000 := by
    have : ρ ≤ (2 : ℝ) ^ (-20 : ℤ) := r2le (by omega)
    norm_num at this; linarith
  have pw : ∀ n : ℤ, (2 : ℝ) ^ (n - F.f - 1) = (2 : ℝ) ^ (n - 1) * ρ := by
    intro n; rw [hρ, ← r2add]; congr 1; ring
  have hs36 : |s| ≤ 0.349 := by norm_num; linarith
  -- r
  obtain ⟨r1, r2_, r3⟩ := fadd_small he ha hb (k := -2) (by omega) (by omega) (by norm_num at hs36 ⊢; linarith)
  rw [← hs_, pw] at r3
  norm_num at r3
  set c := fadd F a b with hc
  have hx36 : |(numOf c : ℝ)| ≤ 9 / 25 := by
    have t := abs_add_le ((numOf c : ℝ) - s) s
    rw [sub_add_cancel] at t
    norm_num at hs36; linarith
  obtain ⟨q, hq, hqe⟩ := hP c _ (isReal_iff.2 ⟨r1, rfl⟩) hx36
  obtain ⟨q1, rfl⟩ := isReal_iff.1 hq
  rw [show -(F.f : ℤ) - 5 = (-4) - F.f - 1 by ring, pw] at hqe
  norm_num at hqe
  have hs36' : |s| ≤ 0.36 := by norm_num at hs36 ⊢; linarith
  have lip := rem_lip (r := s) (x := numOf c) (by linarith) hs36'
  obtain ⟨rb1, rb2⟩ := rem_bounds hs36'
  norm_num at rb2
  obtain ⟨eb1, eb2⟩ := exp_bounds_small hs36'
  norm_num at eb1 eb2
  -- how far the value of the polynomial is from the function at the exact reduced argument
  have dq : |(numOf (P c) : ℝ) - (Real.exp s - 1 - s)| ≤ 1 / 32 * ρ + (|Real.exp s - 1| + 0.002) * (1 / 8 * ρ) := by
    have t := abs_add_le ((numOf (P c) : ℝ) - (Real.exp (numOf c) - 1 - numOf c)) ((Real.exp (numOf c) - 1 - numOf c) - (Real.exp s - 1 - s))
    rw [sub_add_sub_cancel] at t
    have : (|Real.exp s - 1| + 0.002) * |(numOf c : ℝ) - s| ≤ (|Real.exp s - 1| + 0.002) * (1 / 8 * ρ) :=
      mul_le_mul_of_nonneg_left r3 (by positivity)
    linarith
  have he1 : |Real.exp s - 1| ≤ 1 / 2 := by rw [abs_le]; constructor <;> linarith
  have dq' : |(numOf (P c) : ℝ) - (Real.exp s - 1 - s)| ≤ ρ := by
    refine le_trans dq ?_
    norm_num
    nlinarith
  obtain ⟨dq1, dq2⟩ := abs_le.1 dq'
  obtain ⟨bs1, bs2⟩ := abs_le.1 hbs
  -- lo + P(r)
  obtain ⟨t1, t2, t3⟩ := fadd_small he hb q1 (k := -4) (by omega) (by omega) (by
    norm_num; rw [abs_le]; constructor <;> linarith)
  rw [pw] at t3
  norm_num at t3
  set t := fadd F b (P c) with ht
  -- hi + (lo + P(r))
  have e3 : (numOf a : ℝ) + numOf t - (Real.exp s - 1) = (numOf t - (numOf b + numOf (P c))) + (numOf (P c) - (Real.exp s - 1 - s)) := by
    rw [hs_]; ring
  have t4 : |(numOf a : ℝ) + numOf t - (Real.exp s - 1)| ≤ 1 / 32 * ρ + (1 / 32 * ρ + (|Real.exp s - 1| + 0.002) * (1 / 8 * ρ)) := by
    rw [e3]; exact le_trans (abs_add_le _ _) (by linarith)
  obtain ⟨he2, he3⟩ := abs_le.1 he1
  have hes : Real.exp s - 1 ≤ 0.43 := by linarith [(abs_le.1 hs36).2, rb2, show (0.349 : ℝ) + 2 / 25 ≤ 0.43 by norm_num]
  have hes' : -0.35 ≤ Real.exp s - 1 := by linarith [(abs_le.1 hs36).1, rb1, show (-0.35 : ℝ) ≤ -0.349 by norm_num]
  norm_num at hes hes'
  have t4' : |(numOf a : ℝ) + numOf t - (Real.exp s - 1)| ≤ ρ := by
    refine le_trans t4 ?_
    norm_num
    nlinarith
  obtain ⟨u1, u2⟩ := abs_le.1 t4'
  obtain ⟨w1, w2, w3⟩ := fadd_small he ha t1 (k := -2) (by omega) (by omega) (by
    norm_num; rw [abs_le]; constructor <;> linarith)
  rw [pw] at w3
  norm_num at w3
  set w := fadd F a t with hw
  have w4 : |(1 + (numOf w : ℝ)) - Real.exp s| ≤ 1 / 8 * ρ + (1 / 32 * ρ + (1 / 32 * ρ + (|Real.exp s - 1| + 0.002) * (1 / 8 * ρ))) := by
    have e4 : (1 + (numOf w : ℝ)) - Real.exp s = (numOf w - (numOf a + numOf t)) + (numOf a + numOf t - (Real.exp s - 1)) := by ring
    rw [e4]; exact le_trans (abs_add_le _ _) (by linarith)
  -- the last sum
  have one : Fin' F (.num 1) ∧ numOf (.num 1) = 1 := by
    refine ⟨⟨⟨(finite_iff he).2 ⟨by simpa using unb_pow (F := F) (k := 0) (by omega), ?_⟩, one_ne_zero⟩, rfl, rfl⟩, rfl⟩
    refine abs_le_omega_of he ?_
    rw [abs_one]; exact one_le_zpow₀ (by norm_num) (by omega)
  have w5 : |(1 + (numOf w : ℝ)) - Real.exp s| < 1 / 4 * ρ := by
    refine lt_of_le_of_lt w4 ?_
    have : |Real.exp s - 1| ≤ 0.43 := by norm_num; rw [abs_le]; constructor <;> linarith
    norm_num at this ⊢
    nlinarith
  obtain ⟨w6, w7⟩ := abs_lt.1 w5
  obtain ⟨x1, x2, x3⟩ := fadd_small he one.1 w1 (k := 0) (by omega) (by omega) (by
    rw [one.2]; norm_num; rw [abs_le]; constructor <;> linarith)
  rw [one.2, pw] at x3
  norm_num at x3
  set p := fadd F (.num 1) w with hp
  have hPe : expPoly F P a b = p := rfl
  have hu1 : Unbounded F 1 := by simpa using unb_pow (F := F) (k := 0) (by omega)
  have x2' : numOf p = roundUnb F .RN (1 + (numOf w : ℝ)) := by rw [x2, one.2]; push_cast; rfl
  have hρ1 : (2 : ℝ) ^ (-(F.f : ℤ) - 1) = ρ / 2 := by
    rw [show -(F.f : ℤ) - 1 = 0 - F.f - 1 by ring, pw]; norm_num; ring
  -- rounding to one
  have near1 : |(numOf w : ℝ)| < 1 / 4 * ρ → numOf p = 1 := by
    intro h
    have hm : Unbounded F (1 - (2 : ℚ) ^ (-(F.f : ℤ) - 1)) := by
      have := unb_of (F := F) (n := 2 ^ (F.f + 1) - 1) (q := -(F.f : ℤ) - 1) (by rw [abs_le]; constructor <;> [(have : (1:ℤ) ≤ 2 ^ (F.f + 1) := one_le_pow₀ (by norm_num)); skip] <;> omega) (by omega)
      convert this using 1
      push_cast
      rw [sub_mul, one_mul, ← Float.znat, ← Float.zadd]
      push_cast; norm_num
    have hmin := rn_min (x := 1 + (numOf w : ℝ)) hu1
    rw [← x2'] at hmin
    obtain ⟨a1, a2⟩ := abs_lt.1 h
    have b1 : |1 + (numOf w : ℝ) - ((1 : ℚ) : ℝ)| < 1 / 4 * ρ := by push_cast; rw [add_sub_cancel_left]; exact h
    have b2 := lt_of_le_of_lt hmin b1
    obtain ⟨c1, c2⟩ := abs_lt.1 b2
    have hpu := (fin_unb he x1).1
    rcases lt_trichotomy (numOf p) 1 with hlt | heq | hgt
    · exfalso
      have := unb_gap hpu hu1 (E := -1) (by
        have : ((2 : ℚ) ^ (-1 : ℤ) : ℚ) ≤ numOf p := by
          have : ((1 / 2 : ℚ) : ℝ) ≤ (numOf p : ℝ) := by push_cast; linarith
          have := Rat.cast_le.1 this
          norm_num; linarith
        exact this) hlt
      have h3 : ((2 : ℝ) ^ ((-1 : ℤ) - F.f)) ≤ 1 - (numOf p : ℝ) := by rw [r2cast]; exact_mod_cast this
      rw [show (-1 : ℤ) - F.f = -(F.f : ℤ) - 1 by ring, hρ1] at h3
      linarith
    · exact heq
    · exfalso
      have := unb_gap hu1 hpu (E := 0) (by simp) hgt
      have h3 : ((2 : ℝ) ^ ((0 : ℤ) - F.f)) ≤ (numOf p : ℝ) - 1 := by rw [r2cast]; exact_mod_cast this
      rw [zero_sub, ← hρ] at h3
      linarith
  obtain ⟨x4, x5⟩ := abs_le.1 x3
  have hpn : p = .num (numOf p) := by
    refine fin_num_ne x1 (fun h => ?_)
    rw [h] at x4; push_cast at x4; linarith
  refine ⟨numOf p, (finite_iff he).2 (fin_unb he x1), by rw [hPe]; exact hpn, fun hlt => ?_, fun hge => ?_⟩
  · rw [hρ1]
    rcases le_or_gt (numOf w : ℝ) 0 with h0 | h0
    · have hple : (numOf p : ℝ) ≤ 1 := by
        have := ru_between_le (F := F) (x := 1 + (numOf w : ℝ)) hu1 (by push_cast; linarith)
        rw [x2']; simpa using this
      refine ⟨by exact_mod_cast hple, ?_⟩
      have x6 : |(numOf p : ℝ) - (1 + numOf w)| ≤ 1 / 4 * ρ := by
        rcases eq_or_lt_of_le h0 with h00 | h00
        · have h000 : (numOf w : ℚ) = 0 := by exact_mod_cast h00
          rw [x2', h000]
          have := ru_exact hu1
          push_cast at this ⊢
          rw [add_zero, this]; norm_num; exact hρ0.le
        · have := ru_err_le (F := F) (x := 1 + (numOf w : ℝ)) (k := -1) (by omega) (by norm_num; rw [abs_le]; constructor <;> linarith)
          rw [pw, ← x2'] at this
          norm_num at this; exact this
      have t := abs_add_le ((numOf p : ℝ) - (1 + numOf w)) (1 + numOf w - Real.exp s)
      rw [sub_add_sub_cancel] at t
      have h9 : |Real.exp s - 1| ≤ 0.35 := by norm_num; rw [abs_le]; constructor <;> linarith
      norm_num at h9 w4
      nlinarith
    · have : numOf p = 1 := near1 (by rw [abs_of_pos h0]; linarith)
      rw [this]
      refine ⟨le_refl _, ?_⟩
      push_cast
      rw [abs_le]; constructor <;> linarith
  · rcases lt_or_ge (numOf w : ℝ) 0 with h0 | h0
    · have : numOf p = 1 := near1 (by rw [abs_of_neg h0]; linarith)
      rw [this]
      refine ⟨le_refl _, ?_⟩
      push_cast
      rw [abs_le]; constructor <;> linarith
    · have hple : (1 : ℝ) ≤ numOf p := by
        have := ru_between_ge (F := F) (x := 1 + (numOf w : ℝ)) hu1 (by push_cast; linarith)
        rw [x2']; simpa using this
      refine ⟨by exact_mod_cast hple, ?_⟩
      rw [abs_le]; constructor <;> linarith

end Verif.Elem
