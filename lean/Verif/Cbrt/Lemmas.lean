import Verif.Atan.Theorems
import Verif.Cbrt.Spec
import Verif.Cbrt.Model

/-! # The iteration on the reals, and on the numbers of a format -/

namespace Verif.Cbrt

open Verif.Float (Fmt Val)
open Verif.Elem Verif.Check
open Verif.Atan (uu_le emin_le fdiv_val cst_val one_fin)

theorem comp {a b A B : ℝ} (ha : |a| ≤ A) (hb : |b| ≤ B) : |(1 + a) * (1 + b) - 1| ≤ A + B + A * B := by
  have e : (1 + a) * (1 + b) - 1 = a + b + a * b := by ring
  rw [e]
  have h0 := abs_nonneg a
  have h1 := abs_nonneg b
  calc |a + b + a * b| ≤ |a| + |b| + |a * b| := le_trans (abs_add_le _ _) (add_le_add_left (abs_add_le _ _) _)
    _ ≤ A + B + A * B := by
      rw [abs_mul]
      have := mul_le_mul ha hb h1 (by linarith)
      linarith

theorem comp' {a b A B C : ℝ} (ha : |a - 1| ≤ A) (hb : |b| ≤ B) (h : A + B + A * B ≤ C) : |a * (1 + b) - 1| ≤ C := by
  have := comp ha hb
  rw [show (1 + (a - 1)) * (1 + b) - 1 = a * (1 + b) - 1 by ring] at this
  linarith

/-- a rounding in the range of the normal numbers -/
theorem ru_norm (F : Fmt) {z : ℝ} (h : (2 : ℝ) ^ F.emin ≤ |z|) : ∃ d : ℝ, |d| ≤ uu F ∧ (roundUnb F .RN z : ℝ) = z * (1 + d) := by
  have hz : 0 < |z| := lt_of_lt_of_le (r2 _) h
  have hz' : z ≠ 0 := abs_pos.1 hz
  have h1 : |(roundUnb F .RN z : ℝ) - z| ≤ uu F * |z| := by
    rcases ru_rel F z with h1 | h1
    · exact h1
    · refine le_trans h1 ?_
      have : ee F = uu F * (2 : ℝ) ^ F.emin := by unfold ee uu; rw [← r2add]; congr 1; ring
      rw [this]
      exact mul_le_mul_of_nonneg_left h (uu_pos F).le
  refine ⟨((roundUnb F .RN z : ℝ) - z) / z, ?_, ?_⟩
  · rw [abs_div, div_le_iff₀ hz]; exact h1
  · field_simp; ring

/-- one iteration, in relative error -/
theorem newton_real {u t ε ω ζ ν d : ℝ} (hu : u ≤ 1 / 2048) (hε : |t - 1| ≤ ε) (hε2 : ε ≤ 1 / 100) (hω : |ω| ≤ 3.003 * u) (hζ : |ζ| ≤ 4.1 * u)
    (hν : |ν| ≤ 0.002 * u) (hd : |d| ≤ u) :
    |t * (1 + 1 / 3 * ((1 + ζ) * (1 - t ^ 3 * (1 + ω)) + ν)) * (1 + d) - 1| ≤ 2.04 * ε ^ 2 + 2.1 * u := by
  have hu0 : 0 ≤ u := le_trans (abs_nonneg _) hd
  have hε0 : 0 ≤ ε := le_trans (abs_nonneg _) hε
  obtain ⟨s, rfl⟩ : ∃ s, t = 1 + s := ⟨t - 1, by ring⟩
  rw [add_sub_cancel_left] at hε
  have hs := abs_le.1 hε
  have hs2 : |s| ^ 2 ≤ ε ^ 2 := pow_le_pow_left₀ (abs_nonneg _) hε 2
  have ht3 : |(1 + s) ^ 3| ≤ 1.0304 := by
    rw [abs_of_nonneg (by have : (0 : ℝ) ≤ 1 + s := by linarith
                          positivity)]
    calc (1 + s) ^ 3 ≤ 1.01 ^ 3 := pow_le_pow_left₀ (by linarith) (by linarith) 3
      _ ≤ 1.0304 := by norm_num
  have hg : |1 - (1 + s) ^ 3| ≤ 0.0304 := by
    have h1 : (0.99 : ℝ) ^ 3 ≤ (1 + s) ^ 3 := pow_le_pow_left₀ (by norm_num) (by linarith) 3
    have h2 : (1 + s) ^ 3 ≤ 1.01 ^ 3 := pow_le_pow_left₀ (by linarith) (by linarith) 3
    rw [abs_le]; norm_num at h1 h2 ⊢; constructor <;> linarith
  -- the exact iteration
  have hA : |(1 + s) * (1 + 1 / 3 * (1 - (1 + s) ^ 3)) - 1| ≤ 2.03 * ε ^ 2 := by
    have e : (1 + s) * (1 + 1 / 3 * (1 - (1 + s) ^ 3)) - 1 = -(s ^ 2 * (2 + 4 / 3 * s + 1 / 3 * s ^ 2)) := by ring
    rw [e, abs_neg, abs_mul, abs_of_nonneg (sq_nonneg s)]
    have h1 : |2 + 4 / 3 * s + 1 / 3 * s ^ 2| ≤ 2.03 := by
      have : s ^ 2 ≤ (1 / 100) ^ 2 := by rw [← sq_abs]; exact pow_le_pow_left₀ (abs_nonneg _) (by linarith) 2
      have h0 := sq_nonneg s
      rw [abs_le]; norm_num at this ⊢; constructor <;> linarith
    rw [sq_abs] at hs2
    have := mul_le_mul hs2 h1 (abs_nonneg _) (sq_nonneg ε)
    linarith
  -- the perturbation
  have hB : |(1 + s) * (1 / 3 * (ζ * (1 - (1 + s) ^ 3 - (1 + s) ^ 3 * ω) - (1 + s) ^ 3 * ω + ν))| ≤ 1.088 * u := by
    have h1 : |(1 + s) ^ 3 * ω| ≤ 3.0943 * u := by
      rw [abs_mul]
      have := mul_le_mul ht3 hω (abs_nonneg _) (by norm_num)
      linarith
    have h2 : |1 - (1 + s) ^ 3 - (1 + s) ^ 3 * ω| ≤ 0.0320 := by
      have := abs_sub (1 - (1 + s) ^ 3) ((1 + s) ^ 3 * ω)
      have h3 : 3.0943 * u ≤ 3.0943 * (1 / 2048) := by linarith
      norm_num at h3
      linarith
    have h3 : |ζ * (1 - (1 + s) ^ 3 - (1 + s) ^ 3 * ω)| ≤ 0.1312 * u := by
      rw [abs_mul]
      have := mul_le_mul hζ h2 (abs_nonneg _) (by linarith)
      linarith
    have h4 : |ζ * (1 - (1 + s) ^ 3 - (1 + s) ^ 3 * ω) - (1 + s) ^ 3 * ω + ν| ≤ 3.2276 * u := by
      have a1 := abs_add_le (ζ * (1 - (1 + s) ^ 3 - (1 + s) ^ 3 * ω) - (1 + s) ^ 3 * ω) ν
      have a2 := abs_sub (ζ * (1 - (1 + s) ^ 3 - (1 + s) ^ 3 * ω)) ((1 + s) ^ 3 * ω)
      linarith
    rw [abs_mul, abs_mul, abs_of_pos (by norm_num : (0 : ℝ) < 1 / 3)]
    have h5 : |1 + s| ≤ 1.01 := by rw [abs_le]; constructor <;> linarith
    have := mul_le_mul h5 (mul_le_mul_of_nonneg_left h4 (by norm_num : (0 : ℝ) ≤ 1 / 3)) (by positivity) (by norm_num)
    linarith
  have hC : |(1 + s) * (1 + 1 / 3 * ((1 + ζ) * (1 - (1 + s) ^ 3 * (1 + ω)) + ν)) - 1| ≤ 2.03 * ε ^ 2 + 1.088 * u := by
    have e : (1 + s) * (1 + 1 / 3 * ((1 + ζ) * (1 - (1 + s) ^ 3 * (1 + ω)) + ν)) - 1 = ((1 + s) * (1 + 1 / 3 * (1 - (1 + s) ^ 3)) - 1) +
      (1 + s) * (1 / 3 * (ζ * (1 - (1 + s) ^ 3 - (1 + s) ^ 3 * ω) - (1 + s) ^ 3 * ω + ν)) := by ring
    rw [e]
    exact le_trans (abs_add_le _ _) (add_le_add hA hB)
  refine comp' hC hd ?_
  have h6 : (2.03 * ε ^ 2 + 1.088 * u) * u ≤ (2.03 * ε ^ 2 + 1.088 * u) * (1 / 2048) := mul_le_mul_of_nonneg_left hu (by positivity)
  nlinarith [sq_nonneg ε]

theorem ee_le {F : Fmt} (hF : Wide F) : ee F ≤ uu F / 1024 := by
  have : ee F = uu F * (2 : ℝ) ^ F.emin := by unfold ee uu; rw [← r2add]; congr 1; ring
  rw [this]
  have h := r2le (emin_le hF)
  have : ((2 : ℝ) ^ (-10 : ℤ)) = 1 / 1024 := by norm_num
  rw [this] at h
  have := mul_le_mul_of_nonneg_left h (uu_pos F).le
  linarith

/-- the constant 1/3 -/
theorem third_val {F : Fmt} (hF : Wide F) (hf : F.f ≤ 52) :
    Fin' F (third F) ∧ ∃ d : ℝ, |d| ≤ 2.001 * uu F ∧ rv (third F) = 1 / 3 * (1 + d) := by
  have hemin : (2 : ℝ) ^ F.emin ≤ 1 / 1024 := by
    have h := r2le (emin_le hF)
    have h' : ((2 : ℝ) ^ (-10 : ℤ)) = 1 / 1024 := by norm_num
    rwa [h'] at h
  have hu := uu_le hF
  have hu0 := uu_pos F
  obtain ⟨d1, h1, e1⟩ := ru_norm ⟨11, 52⟩ (z := 1 / 3) (by
    rw [abs_of_pos (by norm_num)]
    calc (2 : ℝ) ^ ((⟨11, 52⟩ : Fmt).emin) ≤ (2 : ℝ) ^ (-2 : ℤ) := r2le (by decide)
      _ ≤ 1 / 3 := by norm_num)
  have h1' : |d1| ≤ uu F := le_trans h1 (by unfold uu; exact r2le (by simp only; push_cast; omega))
  have hd1 := abs_le.1 h1'
  have hz : |((roundUnb ⟨11, 52⟩ .RN (1 / 3 : ℝ) : ℚ) : ℝ)| = 1 / 3 * (1 + d1) := by
    rw [e1, abs_of_pos]
    have : 0 < 1 + d1 := by linarith
    positivity
  obtain ⟨d2, h2, e2⟩ := ru_norm F (z := ((roundUnb ⟨11, 52⟩ .RN (1 / 3 : ℝ) : ℚ) : ℝ)) (by rw [hz]; linarith)
  obtain ⟨ha, hb⟩ := cst_val hF (x := ((roundUnb ⟨11, 52⟩ .RN (1 / 3 : ℝ) : ℚ) : ℝ)) (by rw [hz]; linarith)
  refine ⟨ha, (1 + d1) * (1 + d2) - 1, le_trans (comp h1' h2) ?_, ?_⟩
  · nlinarith
  · change rv (cst F _) = _
    rw [hb, e2, e1]; ring

set_option maxHeartbeats 1000000 in
/-- one iteration on numbers: from a relative error `ε` to the next one -/
theorem newton_step {F : Fmt} (hF : Wide F) (hf : F.f ≤ 52) {c x ε : ℝ} (hc : 0 < c) (hx : c ^ 3 = x) (h1 : (2 : ℝ) ^ (F.emin + 1) ≤ x)
    (h2 : x ≤ (2 : ℝ) ^ (F.emax - 1)) {inv a : Val} (hi : Fin' F inv) {d3 : ℝ} (hd3 : |d3| ≤ uu F) (hi2 : rv inv = 1 / x * (1 + d3)) (ha : Fin' F a)
    (hε : |rv a / c - 1| ≤ ε) (hε2 : ε ≤ 1 / 100) :
    Fin' F (newton F inv a) ∧ |rv (newton F inv a) / c - 1| ≤ 2.04 * ε ^ 2 + 2.1 * uu F := by
  have hu := uu_le hF
  have hu0 := uu_pos F
  have huu : uu F * uu F ≤ uu F / 2048 := by nlinarith
  have he := hF.e2
  have hx0 : 0 < x := by rw [← hx]; positivity
  obtain ⟨t, ht⟩ : ∃ t, t = rv a / c := ⟨_, rfl⟩
  have hat : rv a = t * c := by rw [ht]; field_simp
  rw [← ht] at hε
  have htb := abs_le.1 hε
  have ht0 : 0.99 ≤ t := by linarith
  have ht1 : t ≤ 1.01 := by linarith
  have hpos : 0 < rv a := by rw [hat]; positivity
  have hmin : 0 < (2 : ℝ) ^ F.emin := r2 _
  have hmin1 : (2 : ℝ) ^ F.emin ≤ 1 / 1024 := by
    have h := r2le (emin_le hF)
    have h' : ((2 : ℝ) ^ (-10 : ℤ)) = 1 / 1024 := by norm_num
    rwa [h'] at h
  have hminS : (2 : ℝ) ^ (F.emin + 1) = 2 * (2 : ℝ) ^ F.emin := by rw [r2add]; norm_num; ring
  have hmaxS : (2 : ℝ) ^ F.emax = 2 * (2 : ℝ) ^ (F.emax - 1) := by rw [show F.emax = F.emax - 1 + 1 by ring, r2add]; norm_num; ring
  have hmax4 := Atan.four_le hF
  have hc3 : rv a ^ 3 = t ^ 3 * x := by rw [hat, ← hx]; ring
  have ht3a : 0.97 ≤ t ^ 3 := by
    calc (0.97 : ℝ) ≤ 0.99 ^ 3 := by norm_num
      _ ≤ t ^ 3 := pow_le_pow_left₀ (by norm_num) ht0 3
  have ht3b : t ^ 3 ≤ 1.031 := by
    calc t ^ 3 ≤ 1.01 ^ 3 := pow_le_pow_left₀ (by linarith) ht1 3
      _ ≤ 1.031 := by norm_num
  have ha3a : 1.94 * (2 : ℝ) ^ F.emin ≤ rv a ^ 3 := by
    rw [hc3]
    have := mul_le_mul ht3a h1 (r2 _).le (by linarith)
    rw [hminS] at this; linarith
  have ha3b : rv a ^ 3 ≤ 0.516 * (2 : ℝ) ^ F.emax := by
    rw [hc3, hmaxS]
    have := mul_le_mul ht3b h2 hx0.le (by norm_num)
    linarith
  -- the square
  have ha2 : (2 : ℝ) ^ F.emin ≤ rv a * rv a ∧ rv a * rv a ≤ (2 : ℝ) ^ F.emax := by
    by_cases h : rv a ≤ 1
    · have h5 : rv a * rv a ≤ 1 := mul_le_one₀ h hpos.le h
      refine ⟨?_, by linarith⟩
      have : rv a ^ 3 ≤ rv a * rv a := by
        have := mul_le_mul_of_nonneg_left h (mul_nonneg hpos.le hpos.le)
        linarith
      linarith
    · push Not at h
      have h5 : 1 ≤ rv a * rv a := one_le_mul_of_one_le_of_one_le h.le h.le
      refine ⟨by linarith, ?_⟩
      have : rv a * rv a ≤ rv a ^ 3 := by
        have := mul_le_mul_of_nonneg_left h.le (mul_nonneg hpos.le hpos.le)
        linarith
      linarith
  obtain ⟨hs, es⟩ := fmul_val he ha ha (by rw [abs_of_pos (by positivity)]; exact ha2.2)
  obtain ⟨d1, hd1, e1⟩ := ru_norm F (z := rv a * rv a) (by rw [abs_of_pos (by positivity)]; exact ha2.1)
  rw [e1] at es
  have hd1' := abs_le.1 hd1
  -- the cube
  have ep : rv a * rv (fmul F a a) = rv a ^ 3 * (1 + d1) := by rw [es]; ring
  have hp0 : 0 < rv a ^ 3 * (1 + d1) := by
    have : 0 < 1 + d1 := by linarith
    positivity
  have hp1 : (2 : ℝ) ^ F.emin ≤ rv a ^ 3 * (1 + d1) := by
    have := mul_le_mul ha3a (show 0.99 ≤ 1 + d1 by linarith) (by norm_num) (by positivity)
    linarith
  have hp2 : rv a ^ 3 * (1 + d1) ≤ 0.53 * (2 : ℝ) ^ F.emax := by
    have := mul_le_mul ha3b (show 1 + d1 ≤ 1.01 by linarith) (by linarith) (by positivity)
    linarith
  obtain ⟨hp, ep'⟩ := fmul_val he ha hs (by rw [ep, abs_of_pos hp0]; linarith)
  obtain ⟨d2, hd2, e2⟩ := ru_norm F (z := rv a * rv (fmul F a a)) (by rw [ep, abs_of_pos hp0]; exact hp1)
  rw [e2, ep] at ep'
  -- the difference
  obtain ⟨hn, en⟩ := rv_neg hp
  obtain ⟨ω, hω'⟩ : ∃ ω, ω = (1 + d1) * (1 + d2) * (1 + d3) - 1 := ⟨_, rfl⟩
  have hω : |ω| ≤ 3.003 * uu F := by
    rw [hω']
    refine comp' (A := 2.001 * uu F) ?_ hd3 (by linarith)
    refine le_trans (comp hd1 hd2) (by linarith)
  have hω1 := abs_le.1 hω
  have eprod : rv (fneg (fmul F a (fmul F a a))) * rv inv + rv (.num 1) = 1 - t ^ 3 * (1 + ω) := by
    rw [en, ep', hi2, hc3, hω']
    have : rv (.num 1) = 1 := by simp [rv, numOf]
    rw [this]
    field_simp
    ring
  have hdiffb : |1 - t ^ 3 * (1 + ω)| ≤ 1 := by
    have a1 : 0 ≤ t ^ 3 * (1 + ω) := mul_nonneg (by linarith) (by linarith)
    have a2 := mul_le_mul ht3b (show 1 + ω ≤ 1.01 by linarith) (by linarith) (by norm_num)
    rw [abs_le]; constructor <;> linarith
  obtain ⟨hd, d4, n4, hd4, hn4, e4⟩ := fma_rel he hn hi (one_fin hF) (by rw [eprod]; linarith)
  rw [eprod] at e4
  change Fin' F (fmsn F _ _ _) at hd
  -- the third of the approximation
  obtain ⟨hth, d6, hd6, e6⟩ := third_val hF hf
  have hd6' := abs_le.1 hd6
  have e5' : rv a * rv (third F) = rv a / 3 * (1 + d6) := by rw [e6]; ring
  have h6p : 0 < rv a / 3 * (1 + d6) := by
    have : 0 < 1 + d6 := by linarith
    positivity
  have hbig : 1.5 * (2 : ℝ) ^ F.emin ≤ rv a / 3 * (1 + d6) ∧ rv a ≤ 0.6 * (2 : ℝ) ^ F.emax ∧ (2 : ℝ) ^ F.emin ≤ rv a * 0.9 := by
    have a0 : 0.99 ≤ 1 + d6 := by linarith
    by_cases h : rv a ≤ 1 / 2
    · have h7 : 4 * rv a ^ 3 ≤ rv a := by
        have h8 : rv a * rv a ≤ 1 / 2 * (1 / 2) := mul_le_mul h h hpos.le (by norm_num)
        have := mul_le_mul_of_nonneg_left h8 hpos.le
        linarith
      refine ⟨?_, by linarith, by linarith⟩
      have := mul_le_mul (show 1.94 * 4 / 3 * (2 : ℝ) ^ F.emin ≤ rv a / 3 by linarith) a0 (by norm_num) (by positivity)
      linarith
    · push Not at h
      refine ⟨?_, ?_, by linarith⟩
      · have := mul_le_mul (show (1 : ℝ) / 6 ≤ rv a / 3 by linarith) a0 (by norm_num) (by positivity)
        linarith
      · by_cases h' : rv a ≤ 1
        · linarith
        · push Not at h'
          have h8 : 1 ≤ rv a * rv a := one_le_mul_of_one_le_of_one_le h'.le h'.le
          have := mul_le_mul_of_nonneg_left h8 hpos.le
          linarith
  have h6b : rv a / 3 * (1 + d6) ≤ rv a := by
    have := mul_le_mul_of_nonneg_left (show 1 + d6 ≤ 2 by linarith) (show 0 ≤ rv a / 3 by positivity)
    linarith
  obtain ⟨hh, eh⟩ := fmul_val he ha hth (by rw [e5', abs_of_pos h6p]; linarith)
  obtain ⟨d5, hd5, e5⟩ := ru_norm F (z := rv a * rv (third F)) (by rw [e5', abs_of_pos h6p]; linarith)
  rw [e5, e5'] at eh
  have hd5' := abs_le.1 hd5
  have hd4' := abs_le.1 hd4
  -- the sum
  obtain ⟨ζ, hζ'⟩ : ∃ ζ, ζ = (1 + d6) * (1 + d5) * (1 + d4) - 1 := ⟨_, rfl⟩
  obtain ⟨ν, hν'⟩ : ∃ ν, ν = (1 + d6) * (1 + d5) * n4 := ⟨_, rfl⟩
  have h65 : |(1 + d6) * (1 + d5) - 1| ≤ 3.002 * uu F := le_trans (comp hd6 hd5) (by linarith)
  have h65' := abs_le.1 h65
  have hζ : |ζ| ≤ 4.1 * uu F := by
    rw [hζ']
    exact comp' h65 hd4 (by linarith)
  have hν : |ν| ≤ 0.002 * uu F := by
    rw [hν', abs_mul]
    have b1 : |(1 + d6) * (1 + d5)| ≤ 1.01 := by rw [abs_le]; constructor <;> linarith
    have b2 : |n4| ≤ uu F / 1024 := le_trans hn4 (ee_le hF)
    have := mul_le_mul b1 b2 (abs_nonneg _) (by norm_num)
    linarith
  have efin : rv (fmul F a (third F)) * rv (fmsn F (fmul F a (fmul F a a)) inv (.num 1)) + rv a =
      c * (t * (1 + 1 / 3 * ((1 + ζ) * (1 - t ^ 3 * (1 + ω)) + ν))) := by
    have e4' : rv (fmsn F (fmul F a (fmul F a a)) inv (.num 1)) = (1 - t ^ 3 * (1 + ω)) * (1 + d4) + n4 := e4
    rw [eh, e4', hat, hζ', hν']
    ring
  have hN : ∀ d : ℝ, |d| ≤ uu F → |t * (1 + 1 / 3 * ((1 + ζ) * (1 - t ^ 3 * (1 + ω)) + ν)) * (1 + d) - 1| ≤ 2.04 * ε ^ 2 + 2.1 * uu F :=
    fun d hd => newton_real hu hε hε2 hω hζ hν hd
  have hε0 : 0 ≤ ε := le_trans (abs_nonneg _) hε
  have hsm : 2.04 * ε ^ 2 + 2.1 * uu F ≤ 0.002 := by
    have : ε ^ 2 ≤ (1 / 100) ^ 2 := pow_le_pow_left₀ hε0 hε2 2
    norm_num at this
    linarith
  obtain ⟨w, hw⟩ : ∃ w, w = t * (1 + 1 / 3 * ((1 + ζ) * (1 - t ^ 3 * (1 + ω)) + ν)) := ⟨_, rfl⟩
  rw [← hw] at hN efin
  have hw0 := abs_le.1 (hN 0 (by rw [abs_zero]; exact hu0.le))
  rw [add_zero, mul_one] at hw0
  have hcw : 0.98 * rv a ≤ c * w ∧ c * w ≤ 1.02 * rv a := by
    rw [hat]
    have q1 := mul_le_mul_of_nonneg_right ht0 hc.le
    have q2 := mul_le_mul_of_nonneg_right ht1 hc.le
    have q3 := mul_le_mul_of_nonneg_left (show 0.998 ≤ w by linarith) hc.le
    have q4 := mul_le_mul_of_nonneg_left (show w ≤ 1.002 by linarith) hc.le
    constructor <;> linarith
  have hcw0 : 0 < c * w := by linarith
  have hcmp : |c * w| ≤ (2 : ℝ) ^ F.emax := by rw [abs_of_pos hcw0]; linarith [hbig.2.1]
  obtain ⟨d7, hd7, e7⟩ := ru_norm F (z := c * w) (by rw [abs_of_pos hcw0]; linarith [hbig.2.2])
  have hlast := ffma_fin he hh hd ha (by rw [efin]; exact hcmp)
  refine ⟨hlast.1, ?_⟩
  have e8 : rv (newton F inv a) = c * w * (1 + d7) := by
    rw [← e7, ← efin]
    exact hlast.2
  rw [e8, mul_assoc, mul_div_assoc, mul_comm c, div_mul_cancel₀ _ hc.ne']
  exact hN d7 hd7

/-- the iterations -/
theorem newton_iter {F : Fmt} (hF : Wide F) (hf : F.f ≤ 52) {c x : ℝ} (hc : 0 < c) (hx : c ^ 3 = x) (h1 : (2 : ℝ) ^ (F.emin + 1) ≤ x)
    (h2 : x ≤ (2 : ℝ) ^ (F.emax - 1)) {inv a : Val} (hi : Fin' F inv) {d3 : ℝ} (hd3 : |d3| ≤ uu F) (hi2 : rv inv = 1 / x * (1 + d3)) (ha : Fin' F a)
    (hε : |rv a / c - 1| ≤ 1 / 128) (n : ℕ) :
    Fin' F ((newton F inv)^[n] a) ∧ |rv ((newton F inv)^[n] a) / c - 1| ≤ 2.3 * uu F + (1 / 32) ^ 2 ^ n / 4 := by
  have hu := uu_le hF
  have hu0 := uu_pos F
  induction n with
  | zero => exact ⟨ha, by simp only [Function.iterate_zero, id]; norm_num; linarith⟩
  | succ n ih =>
    rw [Function.iterate_succ_apply']
    have hq : ((1 : ℝ) / 32) ^ 2 ^ n ≤ 1 / 32 := by
      calc ((1 : ℝ) / 32) ^ 2 ^ n ≤ (1 / 32) ^ 1 := pow_le_pow_of_le_one (by norm_num) (by norm_num) Nat.one_le_two_pow
        _ = 1 / 32 := pow_one _
    have hq0 : (0 : ℝ) ≤ (1 / 32) ^ 2 ^ n := by positivity
    obtain ⟨i1, i2⟩ := ih
    obtain ⟨j1, j2⟩ := newton_step hF hf hc hx h1 h2 hi hd3 hi2 i1 i2 (by linarith)
    refine ⟨j1, le_trans j2 ?_⟩
    rw [pow_succ 2 n, pow_mul]
    generalize ((1 : ℝ) / 32) ^ 2 ^ n = q at *
    have b1 : uu F * uu F ≤ uu F * (1 / 2048) := mul_le_mul_of_nonneg_left hu hu0.le
    have b2 : uu F * q ≤ uu F * (1 / 32) := mul_le_mul_of_nonneg_left hq hu0.le
    have b3 := sq_nonneg q
    nlinarith

theorem rpow_third {x : ℝ} (h : 0 ≤ x) : (x ^ (1 / 3 : ℝ)) ^ 3 = x := by
  rw [← Real.rpow_natCast, ← Real.rpow_mul h]; norm_num

theorem le_of_cube {a b : ℝ} (hb : 0 ≤ b) (h : a ^ 3 ≤ b ^ 3) : a ≤ b := by
  by_contra hc
  push Not at hc
  have := pow_lt_pow_left₀ hc hb (by norm_num : (3 : ℕ) ≠ 0)
  linarith

/-- the seed of a mantissa, and of an exponent: any numbers close enough to the cube roots -/
theorem seed {F : Fmt} (hF : Wide F) {A B : ℝ} (hA0 : 0 ≤ A) (hB0 : 0 ≤ B) (hA : 1 ≤ A ^ 3) (hA2 : A ^ 3 ≤ 2) (hB : 1 / 4 ≤ B ^ 3) (hB2 : B ^ 3 ≤ 4) {q : ℤ}
    (hq1 : F.emin + 1 ≤ q) (hq2 : q + 2 ≤ F.emax) :
    Fin' F (fmul F (fmul F (cst F A) (cst F B)) (insExp F q)) ∧
      ∃ d1 d2 d3 d4 : ℝ, |d1| ≤ uu F ∧ |d2| ≤ uu F ∧ |d3| ≤ uu F ∧ |d4| ≤ uu F ∧
        rv (fmul F (fmul F (cst F A) (cst F B)) (insExp F q)) = A * B * (2 : ℝ) ^ q * (1 + d1) * (1 + d2) * (1 + d3) * (1 + d4) := by
  have hu := uu_le hF
  have hu0 := uu_pos F
  have he := hF.e2
  have hmin1 : (2 : ℝ) ^ F.emin ≤ 1 / 1024 := by
    have h := r2le (emin_le hF)
    have h' : ((2 : ℝ) ^ (-10 : ℤ)) = 1 / 1024 := by norm_num
    rwa [h'] at h
  have hmax4 := Atan.four_le hF
  have a1 : 1 ≤ A := le_of_cube hA0 (by linarith)
  have a2 : A ≤ 1.26 := le_of_cube (by norm_num) (by norm_num; linarith)
  have b1 : 0.62 ≤ B := le_of_cube hB0 (by norm_num; linarith)
  have b2 : B ≤ 1.59 := le_of_cube (by norm_num) (by norm_num; linarith)
  obtain ⟨fa, ea⟩ := cst_val hF (x := A) (by rw [abs_of_nonneg hA0]; linarith)
  obtain ⟨fb, eb⟩ := cst_val hF (x := B) (by rw [abs_of_nonneg hB0]; linarith)
  obtain ⟨d1, h1, e1⟩ := ru_norm F (z := A) (by rw [abs_of_nonneg hA0]; linarith)
  obtain ⟨d2, h2, e2⟩ := ru_norm F (z := B) (by rw [abs_of_nonneg hB0]; linarith)
  rw [e1] at ea
  rw [e2] at eb
  have c1 := abs_le.1 h1
  have c2 := abs_le.1 h2
  have p1 : 0.999 ≤ A * (1 + d1) ∧ A * (1 + d1) ≤ 1.2611 := by constructor <;> nlinarith
  have p2 : 0.619 ≤ B * (1 + d2) ∧ B * (1 + d2) ≤ 1.5911 := by constructor <;> nlinarith
  have p3 : 0.618 ≤ A * (1 + d1) * (B * (1 + d2)) ∧ A * (1 + d1) * (B * (1 + d2)) ≤ 2.01 := by
    have q1 := mul_le_mul p1.1 p2.1 (by norm_num) (by linarith)
    have q2 := mul_le_mul p1.2 p2.2 (by linarith) (by norm_num)
    constructor <;> linarith
  have p30 : 0 < A * (1 + d1) * (B * (1 + d2)) := by linarith
  obtain ⟨fp, ep⟩ := fmul_val he fa fb (by rw [ea, eb, abs_of_pos p30]; linarith)
  obtain ⟨d3, h3, e3⟩ := ru_norm F (z := rv (cst F A) * rv (cst F B)) (by rw [ea, eb, abs_of_pos p30]; linarith)
  rw [e3, ea, eb] at ep
  have c3 := abs_le.1 h3
  obtain ⟨fq, eq⟩ := insExp_fin he (k := q) (by omega) (by omega)
  have eq' : rv (insExp F q) = (2 : ℝ) ^ q := by unfold rv; rw [eq]; push_cast; rfl
  have p4 : 0.6 ≤ A * (1 + d1) * (B * (1 + d2)) * (1 + d3) ∧ A * (1 + d1) * (B * (1 + d2)) * (1 + d3) ≤ 2.02 := by
    have q1 := mul_le_mul p3.1 (show 0.999 ≤ 1 + d3 by linarith) (by norm_num) (by linarith)
    have q2 := mul_le_mul p3.2 (show 1 + d3 ≤ 1.001 by linarith) (by linarith) (by norm_num)
    constructor <;> linarith
  have l1 : 2 * (2 : ℝ) ^ F.emin ≤ (2 : ℝ) ^ q := by
    calc 2 * (2 : ℝ) ^ F.emin = (2 : ℝ) ^ (F.emin + 1) := by rw [r2add]; norm_num; ring
      _ ≤ _ := r2le hq1
  have l2 : 4 * (2 : ℝ) ^ q ≤ (2 : ℝ) ^ F.emax := by
    calc 4 * (2 : ℝ) ^ q = (2 : ℝ) ^ (q + 2) := by rw [r2add]; norm_num; ring
      _ ≤ _ := r2le hq2
  have hq0 : 0 < (2 : ℝ) ^ q := r2 q
  have p5 : 0 < A * (1 + d1) * (B * (1 + d2)) * (1 + d3) * (2 : ℝ) ^ q := mul_pos (by linarith) hq0
  have p6 : 0.6 * (2 : ℝ) ^ q ≤ A * (1 + d1) * (B * (1 + d2)) * (1 + d3) * (2 : ℝ) ^ q := mul_le_mul_of_nonneg_right p4.1 hq0.le
  have p7 : A * (1 + d1) * (B * (1 + d2)) * (1 + d3) * (2 : ℝ) ^ q ≤ 2.02 * (2 : ℝ) ^ q := mul_le_mul_of_nonneg_right p4.2 hq0.le
  obtain ⟨fr, er⟩ := fmul_val he fp fq (by rw [ep, eq', abs_of_pos p5]; linarith)
  obtain ⟨d4, h4, e4⟩ := ru_norm F (z := rv (fmul F (cst F A) (cst F B)) * rv (insExp F q)) (by rw [ep, eq', abs_of_pos p5]; linarith)
  rw [e4, ep, eq'] at er
  exact ⟨fr, d1, d2, d3, d4, h1, h2, h3, h4, by rw [er]; ring⟩

/-- the first approximation of a normal number -/
theorem init_val {F : Fmt} (hF : Wide F) {x : Val} (hx : Fin' F x) (h1 : (2 : ℝ) ^ (F.emin + 1) ≤ rv x) (h2 : rv x ≤ (2 : ℝ) ^ (F.emax - 1)) {c : ℝ} (hc : 0 < c)
    (hcx : c ^ 3 = rv x) : Fin' F (init F x) ∧ |rv (init F x) / c - 1| ≤ 1 / 128 := by
  have hu := uu_le hF
  have hu0 := uu_pos F
  have hpos : 0 < rv x := lt_of_lt_of_le (r2 _) h1
  obtain ⟨v, hv⟩ : ∃ v, v = numOf x := ⟨_, rfl⟩
  have hvr : rv x = (v : ℝ) := by unfold rv; rw [hv]
  rw [hvr] at h1 h2 hpos hcx
  have hv0 : 0 < v := by exact_mod_cast hpos
  have hxe : x = .num v := by rw [hv]; exact fin_num_ne hx (by rw [← hv]; exact hv0.ne')
  have h1q : (2 : ℚ) ^ (F.emin + 1) ≤ v := by
    rw [r2cast] at h1; exact_mod_cast h1
  have h2q : v ≤ (2 : ℚ) ^ (F.emax - 1) := by
    rw [r2cast] at h2; exact_mod_cast h2
  obtain ⟨E, hE⟩ : ∃ E, E = Int.log 2 v := ⟨_, rfl⟩
  have g1 : (2 : ℚ) ^ E ≤ v := by
    have := Float.pow_log_le (a := v) hv0
    rwa [← hE] at this
  have g2 : v < (2 : ℚ) ^ (E + 1) := by rw [hE]; exact_mod_cast Int.lt_zpow_succ_log_self (by norm_num : 1 < 2) v
  have hE1 : F.emin + 1 ≤ E := by rw [hE]; exact Float.le_log hv0 h1q
  have hE2 : E ≤ F.emax - 1 := by
    by_contra hcon
    have := lt_of_lt_of_le (zpow_lt_zpow_right₀ (by norm_num : (1 : ℚ) < 2) (not_le.1 hcon)) g1
    linarith
  have hnot : ¬ |v| < (2 : ℚ) ^ F.emin := by
    rw [abs_of_pos hv0, not_lt]
    exact le_trans (Float.zle (by omega)) h1q
  have hee : expExtract F x = E := by rw [hxe]; simp only [expExtract]; rw [if_neg hnot, abs_of_pos hv0, hE]
  obtain ⟨i, hi⟩ : ∃ i, i = index F x := ⟨_, rfl⟩
  have hi' : i = ⌊(v / (2 : ℚ) ^ E - 1) * 64⌋ := by rw [hi, hxe]; simp only [index]; rw [if_neg hnot, abs_of_pos hv0, hE]
  have hEq : (0 : ℚ) < (2 : ℚ) ^ E := Float.zp E
  have m1 : 1 ≤ v / (2 : ℚ) ^ E := by rw [le_div_iff₀ hEq]; linarith
  have m2 : v / (2 : ℚ) ^ E < 2 := by
    rw [div_lt_iff₀ hEq]
    have : (2 : ℚ) ^ (E + 1) = 2 * (2 : ℚ) ^ E := by rw [zpow_add₀ (by norm_num)]; norm_num; ring
    linarith
  have i1 : (i : ℚ) ≤ (v / (2 : ℚ) ^ E - 1) * 64 := by rw [hi']; exact Int.floor_le _
  have i2 : (v / (2 : ℚ) ^ E - 1) * 64 < i + 1 := by rw [hi']; exact Int.lt_floor_add_one _
  have i0 : 0 ≤ i := by rw [hi']; exact Int.floor_nonneg.2 (by linarith)
  have i3 : i < 64 := by
    have : (i : ℚ) < 64 := by linarith
    exact_mod_cast this
  -- the reals
  obtain ⟨m, hm⟩ : ∃ m : ℝ, m = (v : ℝ) / (2 : ℝ) ^ E := ⟨_, rfl⟩
  have hEr : (0 : ℝ) < (2 : ℝ) ^ E := r2 E
  have hm' : m = ((v / (2 : ℚ) ^ E : ℚ) : ℝ) := by rw [hm]; push_cast; rfl
  have n1 : 1 ≤ m := by rw [hm']; exact_mod_cast m1
  have n2 : m < 2 := by rw [hm']; exact_mod_cast m2
  have n3 : (1 : ℝ) + (i : ℝ) / 64 ≤ m := by
    have : ((i : ℚ) : ℝ) ≤ (((v / (2 : ℚ) ^ E - 1) * 64 : ℚ) : ℝ) := by exact_mod_cast i1
    rw [Rat.cast_mul, Rat.cast_sub, ← hm'] at this
    push_cast at this; linarith
  have n4 : m < 1 + (i : ℝ) / 64 + 1 / 64 := by
    have : (((v / (2 : ℚ) ^ E - 1) * 64 : ℚ) : ℝ) < (((i : ℚ) + 1 : ℚ) : ℝ) := by exact_mod_cast i2
    rw [Rat.cast_mul, Rat.cast_sub, ← hm'] at this
    push_cast at this; linarith
  have ir0 : (0 : ℝ) ≤ i := by exact_mod_cast i0
  obtain ⟨A, hA⟩ : ∃ A : ℝ, A = (1 + (i : ℝ) / 64) ^ (1 / 3 : ℝ) := ⟨_, rfl⟩
  have A0 : 0 ≤ A := by rw [hA]; positivity
  have A3 : A ^ 3 = 1 + (i : ℝ) / 64 := by rw [hA]; exact rpow_third (by positivity)
  obtain ⟨r, hr⟩ : ∃ r, r = E.tmod 3 := ⟨_, rfl⟩
  obtain ⟨q, hq⟩ : ∃ q, q = E.tdiv 3 := ⟨_, rfl⟩
  have hdm : 3 * q + r = E := by rw [hr, hq]; exact Int.mul_tdiv_add_tmod E 3
  have r1 : r < 3 := by rw [hr]; exact Int.tmod_lt_of_pos _ (by norm_num)
  have r2' : -3 < r := by rw [hr]; exact Int.lt_tmod_of_pos _ (by norm_num)
  obtain ⟨B, hB⟩ : ∃ B : ℝ, B = ((2 : ℝ) ^ (r + 3 - 3)) ^ (1 / 3 : ℝ) := ⟨_, rfl⟩
  have B0 : 0 ≤ B := by rw [hB]; positivity
  have B3 : B ^ 3 = (2 : ℝ) ^ r := by rw [hB, add_sub_cancel_right]; exact rpow_third (r2 _).le
  have hemax : 11 ≤ F.emax := by have := hF.f; have := hF.m; omega
  have hemin : F.emin = 1 - F.emax := rfl
  have hS := seed hF A0 B0 (by rw [A3]; linarith [div_nonneg ir0 (by norm_num : (0 : ℝ) ≤ 64)]) (by rw [A3]; linarith)
    (by
      rw [B3]
      calc (1 : ℝ) / 4 = (2 : ℝ) ^ (-2 : ℤ) := by norm_num
        _ ≤ _ := r2le (by omega))
    (by
      rw [B3]
      calc _ ≤ (2 : ℝ) ^ (2 : ℤ) := r2le (by omega)
        _ = 4 := by norm_num)
    (q := q) (by omega) (by omega)
  have hinit : init F x = fmul F (fmul F (cst F A) (cst F B)) (insExp F q) := by
    unfold init approxTable modTable
    rw [hee, ← hi, ← hr, ← hq, hA, hB]
  rw [← hinit] at hS
  obtain ⟨fs, d1, d2, d3, d4, k1, k2, k3, k4, es⟩ := hS
  refine ⟨fs, ?_⟩
  -- the cube root of the mantissa
  obtain ⟨C, hC⟩ : ∃ C : ℝ, C = c / (B * (2 : ℝ) ^ q) := ⟨_, rfl⟩
  have Bpos : 0 < B := by
    rcases B0.lt_or_eq with h | h
    · exact h
    · rw [← h] at B3; have := r2 r; norm_num at B3; exact absurd B3.symm this.ne'
  have hq0 : 0 < (2 : ℝ) ^ q := r2 q
  have Cpos : 0 < C := by rw [hC]; positivity
  have C3 : C ^ 3 = m := by
    rw [hC, div_pow, mul_pow, B3, hcx, hm]
    congr 1
    rw [← zpow_natCast, ← zpow_mul, ← r2add, ← hdm]
    congr 1; push_cast; ring
  have hcC : c = C * (B * (2 : ℝ) ^ q) := by rw [hC]; field_simp
  have t1 : |A / C - 1| ≤ 0.00525 := by
    have u1 : A / C ≤ 1 := by
      rw [div_le_one Cpos]; exact le_of_cube Cpos.le (by rw [A3, C3]; exact n3)
    have u2 : 0.99475 ≤ A / C := by
      rw [le_div_iff₀ Cpos]
      refine le_of_cube A0 ?_
      rw [mul_pow, A3, C3]
      norm_num
      linarith
    rw [abs_le]; constructor <;> linarith
  have eT : rv (init F x) / c = A / C * (1 + d1) * (1 + d2) * (1 + d3) * (1 + d4) := by
    rw [es, hcC]; field_simp
  rw [eT]
  have huu : uu F * uu F ≤ uu F * (1 / 2048) := mul_le_mul_of_nonneg_left hu hu0.le
  refine comp' (A := 0.00674) (comp' (A := 0.00624) (comp' (A := 0.005745) (comp' t1 k1 ?_) k2 ?_) k3 ?_) k4 ?_ <;> norm_num <;> linarith

end Verif.Cbrt
