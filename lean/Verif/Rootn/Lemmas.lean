import Verif.Rootn.Spec
import Verif.Rootn.Model
import Verif.Elem.Exp2Thms
import Verif.Atan.Lemmas

namespace Verif.Rootn

open Verif.Float (Fmt Val)
open Verif.Elem
open Verif.Check
open Verif.Atan (fadd_val fdiv_val)

/-- the formats: binary32, binary64 and wider ones -/
structure Format (F : Fmt) : Prop where
  wide : Wide F
  big : 120 ≤ F.emax
  gap : (F.f : ℤ) + 16 ≤ F.emax
  room : 64 * (F.emax + F.f + 1) ≤ 2 ^ F.f

theorem fsub_val {F : Fmt} (he : 2 ≤ F.e) {a b : Val} (ha : Fin' F a) (hb : Fin' F b) (h : |rv a - rv b| ≤ (2 : ℝ) ^ F.emax) :
    Fin' F (fsub F a b) ∧ rv (fsub F a b) = roundUnb F .RN (rv a - rv b) := by
  obtain ⟨h1, h2⟩ := rv_neg hb
  have := fadd_val he ha h1 (by rw [h2, ← sub_eq_add_neg]; exact h)
  rw [h2, ← sub_eq_add_neg] at this
  exact this

theorem ru_abs (F : Fmt) (z : ℝ) : |(roundUnb F .RN z : ℝ) - z| ≤ uu F * |z| + ee F := by
  rcases ru_rel F z with h | h
  · linarith [ee_pos F]
  · have := mul_nonneg (uu_pos F).le (abs_nonneg z); linarith

theorem emax_big {F : Fmt} (hF : Format F) : (2 : ℝ) ^ (119 : ℤ) ≤ (2 : ℝ) ^ F.emax := r2le (by have := hF.big; omega)

theorem ee_small {F : Fmt} (hF : Format F) : ee F ≤ uu F * (2 : ℝ) ^ (-119 : ℤ) := by
  unfold ee uu
  rw [← r2add]
  exact r2le (by have := hF.big; have : F.emin = 1 - F.emax := rfl; omega)

theorem uu_small {F : Fmt} (hF : Format F) : uu F ≤ 1 / 2048 := by
  have : uu F ≤ (2 : ℝ) ^ (-11 : ℤ) := r2le (by have := hF.wide.f; omega)
  norm_num at this ⊢; exact this

/-- conversion of the order -/
theorem order_conv {F : Fmt} (hF : Format F) {n : ℤ} (h0 : n ≠ 0) (h : |n| ≤ 2 ^ 63) :
    Fin' F (cst F (n : ℝ)) ∧ |rv (cst F (n : ℝ)) - n| ≤ uu F * |(n : ℝ)| ∧ (|n| ≤ 2 ^ (F.f + 1) → rv (cst F (n : ℝ)) = n) := by
  have he := hF.wide.e2
  have hb : |(n : ℝ)| ≤ (2 : ℝ) ^ F.emax := by
    have h1 : |(n : ℝ)| ≤ 2 ^ 63 := by exact_mod_cast h
    have h2 := emax_big hF
    norm_num at h1 h2 ⊢; linarith
  obtain ⟨a, b⟩ := cst_fin he (x := (n : ℝ)) (ru_no_over he hb)
  have b' : rv (cst F (n : ℝ)) = roundUnb F .RN (n : ℝ) := by unfold rv; rw [b]
  refine ⟨a, ?_, ?_⟩
  · rw [b']
    rcases ru_rel F (n : ℝ) with h' | h'
    · exact h'
    · refine h'.trans ?_
      have h1 : (1 : ℝ) ≤ |(n : ℝ)| := by exact_mod_cast Int.one_le_abs h0
      have h2 := ee_small hF
      have h3 := uu_pos F
      have h4 : (2 : ℝ) ^ (-119 : ℤ) ≤ 1 := zpow_le_one_of_nonpos₀ (by norm_num) (by norm_num)
      nlinarith
  · intro hs
    rw [b', show (n : ℝ) = ((n : ℚ) : ℝ) by push_cast; rfl, ru_exact (unb_int he hs)]

/-- the exponent is converted exactly -/
theorem expo_conv {F : Fmt} (hF : Format F) {E : ℤ} (h : |E| ≤ F.emax + F.f + 1) :
    Fin' F (cst F (E : ℝ)) ∧ rv (cst F (E : ℝ)) = E ∧ uu F * |(E : ℝ)| ≤ 1 / 128 ∧ |(E : ℝ)| ≤ (2 : ℝ) ^ F.emax := by
  have he := hF.wide.e2
  have hr := hF.room
  have hE : 64 * |E| ≤ 2 ^ F.f := by omega
  have hER : 64 * |(E : ℝ)| ≤ 2 ^ F.f := by exact_mod_cast hE
  have hb : |(E : ℝ)| ≤ (2 : ℝ) ^ F.emax := by
    have h1 : (2 : ℝ) ^ (F.f : ℤ) ≤ (2 : ℝ) ^ F.emax := r2le (by have := hF.wide.m; omega)
    rw [zpow_natCast] at h1
    linarith [abs_nonneg (E : ℝ)]
  obtain ⟨a, b⟩ := cst_fin he (x := (E : ℝ)) (ru_no_over he hb)
  refine ⟨a, ?_, ?_, hb⟩
  · have hs : |E| ≤ 2 ^ (F.f + 1) := by
      have := abs_nonneg E
      rw [pow_succ]; omega
    unfold rv
    rw [b, show (E : ℝ) = ((E : ℚ) : ℝ) by push_cast; rfl, ru_exact (unb_int he hs)]
  · have : uu F * 2 ^ F.f = 1 / 2 := by
      unfold uu
      rw [← zpow_natCast, ← r2add, show -(F.f : ℤ) - 1 + F.f = -1 by ring]; norm_num
    nlinarith [uu_pos F]

theorem prod_part {u ε N ρ er inv : ℝ} (hu0 : 0 < u) (hu : u ≤ 1 / 2048) (hε0 : 0 < ε) (hε : ε ≤ u * (1 / 1000000)) (hN : ε * |N| ≤ u * (1 / 1000000))
    (N1 : 1999 / 1000 ≤ |N|) (ρN : |ρ / N| ≤ 1 / 250) (c3 : |er - ρ| ≤ u * |ρ| + ε) (d3 : |inv - 1 / N| ≤ u * |1 / N| + ε) :
    |er * inv - ρ / N| ≤ u * (1 / 100) := by
  have Npos : 0 < |N| := by linarith
  have N0 : N ≠ 0 := abs_pos.1 Npos
  have ρb : |ρ| = |ρ / N| * |N| := by rw [← abs_mul, div_mul_cancel₀ _ N0]
  have e0 : er * inv - ρ / N = (er - ρ) * inv + ρ * (inv - 1 / N) := by field_simp; ring
  have hinv : |inv| * |N| ≤ 1 + u + ε * |N| := by
    have h1 : |inv| ≤ |1 / N| + (u * |1 / N| + ε) := by
      have := abs_sub_abs_le_abs_sub inv (1 / N); linarith
    have h2 : |1 / N| * |N| = 1 := by rw [← abs_mul, one_div_mul_cancel N0, abs_one]
    calc |inv| * |N| ≤ (|1 / N| + (u * |1 / N| + ε)) * |N| := mul_le_mul_of_nonneg_right h1 Npos.le
      _ = |1 / N| * |N| + u * (|1 / N| * |N|) + ε * |N| := by ring
      _ = _ := by rw [h2]; ring
  have hinv1 : |inv| * |N| ≤ 1 + 1 / 1000 := by linarith
  have hinv' : |inv| ≤ 1 := by nlinarith only [hinv1, N1, abs_nonneg inv]
  have p1 : |er - ρ| * |inv| ≤ u * (1 / 240) := by
    have q1 : |er - ρ| * |inv| ≤ (u * |ρ| + ε) * |inv| := mul_le_mul_of_nonneg_right c3 (abs_nonneg _)
    have q2 : (u * |ρ| + ε) * |inv| = u * (|ρ / N| * (|inv| * |N|)) + ε * |inv| := by rw [ρb]; ring
    have q3 : |ρ / N| * (|inv| * |N|) ≤ 1 / 250 * (1 + 1 / 1000) := mul_le_mul ρN hinv1 (by positivity) (by norm_num)
    have q4 := mul_le_mul_of_nonneg_left q3 hu0.le
    have q5 : ε * |inv| ≤ ε * 1 := mul_le_mul_of_nonneg_left hinv' hε0.le
    linarith
  have p2 : |ρ| * |inv - 1 / N| ≤ u * (1 / 240) := by
    have q1 : |ρ| * |inv - 1 / N| ≤ |ρ| * (u * |1 / N| + ε) := mul_le_mul_of_nonneg_left d3 (abs_nonneg _)
    have q2 : |ρ| * (u * |1 / N| + ε) = u * |ρ / N| + |ρ / N| * (ε * |N|) := by
      have : |ρ| * |1 / N| = |ρ / N| := by rw [← abs_mul, mul_one_div]
      rw [mul_add, ← mul_assoc, mul_comm |ρ| u, mul_assoc, this, ρb]; ring
    have q3 := mul_le_mul_of_nonneg_left ρN hu0.le
    have q4 : |ρ / N| * (ε * |N|) ≤ 1 / 250 * (u * (1 / 1000000)) := mul_le_mul ρN hN (by positivity) (by norm_num)
    linarith
  have := abs_add_le ((er - ρ) * inv) (ρ * (inv - 1 / N))
  rw [← e0, abs_mul, abs_mul] at this
  linarith

theorem order_err {F : Fmt} {n E : ℤ} {N : ℝ} (hn0 : (n : ℝ) ≠ 0) (n2 : |N - n| ≤ uu F * |(n : ℝ)|) (n3 : |n| ≤ 2 ^ (F.f + 1) → N = n)
    (e3 : uu F * |(E : ℝ)| ≤ 1 / 128) (hu : uu F ≤ 1 / 2048) (N1 : 1999 / 1000 ≤ |N|) : |(E : ℝ) / N - E / n| ≤ uu F * (1 / 60) := by
  have hu0 := uu_pos F
  have Npos : 0 < |N| := by linarith
  have N0 : N ≠ 0 := abs_pos.1 Npos
  by_cases hs : |n| ≤ 2 ^ (F.f + 1)
  · rw [n3 hs, sub_self, abs_zero]; positivity
  · push Not at hs
    have hs' : (2 : ℝ) ^ (F.f + 1) < |(n : ℝ)| := by exact_mod_cast hs
    have hu1 : uu F * 2 ^ (F.f + 1) = 1 := by
      unfold uu
      rw [← zpow_natCast, ← r2add]; push_cast
      rw [show -(F.f : ℤ) - 1 + (F.f + 1) = 0 by ring, zpow_zero]
    have h1 : (E : ℝ) / N - E / n = E / n * ((n - N) / N) := by field_simp
    have hnp : 0 < |(n : ℝ)| := abs_pos.2 hn0
    have h2 : |(E : ℝ) / n| ≤ 1 / 128 := by
      rw [abs_div, div_le_iff₀ hnp]
      have h4 : 1 ≤ uu F * |(n : ℝ)| := by rw [← hu1]; exact mul_le_mul_of_nonneg_left hs'.le hu0.le
      have h5 : uu F * (|(E : ℝ)|) ≤ uu F * (1 / 128 * |(n : ℝ)|) := by linarith
      exact le_of_mul_le_mul_left h5 hu0
    have h3 : |((n : ℝ) - N) / N| ≤ 2 * uu F := by
      rw [abs_div, div_le_iff₀ Npos, abs_sub_comm]
      have h4 := abs_sub_abs_le_abs_sub (n : ℝ) N
      rw [abs_sub_comm (n : ℝ)] at h4
      have h5 : uu F * |(n : ℝ)| ≤ 1 / 2048 * |(n : ℝ)| := mul_le_mul_of_nonneg_right hu hnp.le
      have h6 : |(n : ℝ)| ≤ 2 * |N| := by linarith
      have h7 := mul_le_mul_of_nonneg_left h6 hu0.le
      linarith
    rw [h1, abs_mul]
    have := mul_le_mul h2 h3 (abs_nonneg _) (by norm_num)
    linarith

set_option maxHeartbeats 800000 in
/-- the fraction of `E/n`, `E` the exponent: its error, and the integer part -/
theorem frac_err {F : Fmt} (hF : Format F) {n E : ℤ} (hn : 2 ≤ |n|) (hn' : |n| ≤ 2 ^ 63) (hE : |E| ≤ F.emax + F.f + 1) :
    ∃ k : ℤ, Fin' F (fnearest (fdiv F (cst F (E : ℝ)) (cst F (n : ℝ)))) ∧ numOf (fnearest (fdiv F (cst F (E : ℝ)) (cst F (n : ℝ)))) = k ∧
      2 * |k| ≤ F.emax + F.f + 4 ∧
      Fin' F (fracOf F (cst F (n : ℝ)) (cst F (E : ℝ))) ∧
      |rv (fracOf F (cst F (n : ℝ)) (cst F (E : ℝ))) - ((E : ℝ) / n - k)| ≤ 5 / 4 * uu F ∧
      |rv (fracOf F (cst F (n : ℝ)) (cst F (E : ℝ)))| ≤ 3 / 4 := by
  have he := hF.wide.e2
  have h0 : n ≠ 0 := by rintro rfl; simp at hn
  obtain ⟨n1, n2, n3⟩ := order_conv hF h0 hn'
  obtain ⟨e1, e2, e3, e4⟩ := expo_conv hF hE
  have hu := uu_small hF
  have hu0 := uu_pos F
  have hee := ee_small hF
  have hee0 := ee_pos F
  have hbig := emax_big hF
  have hnR : (2 : ℝ) ≤ |(n : ℝ)| := by exact_mod_cast hn
  have hnR' : |(n : ℝ)| ≤ 2 ^ 63 := by exact_mod_cast hn'
  have hnr0 : (n : ℝ) ≠ 0 := by exact_mod_cast h0
  unfold fracOf
  simp only
  generalize cst F (n : ℝ) = nF at *
  generalize cst F (E : ℝ) = eF at *
  obtain ⟨N, hN⟩ : ∃ N, N = rv nF := ⟨_, rfl⟩
  rw [← hN] at n2 n3
  have Nb : |(n : ℝ)| * (1 - uu F) ≤ |N| := by
    have := abs_sub_abs_le_abs_sub (n : ℝ) N
    rw [abs_sub_comm] at this; linarith
  have Nb' : |N| ≤ |(n : ℝ)| * (1 + uu F) := by
    have := abs_sub_abs_le_abs_sub N (n : ℝ); linarith
  have N1 : 1999 / 1000 ≤ |N| := by nlinarith
  have N2 : |N| ≤ 2 ^ 64 := by nlinarith
  have N0 : N ≠ 0 := by intro h; rw [h, abs_zero] at N1; norm_num at N1
  have Npos : 0 < |N| := abs_pos.2 N0
  -- the quotient
  have q0 : |(E : ℝ) / N| ≤ 501 / 1000 * |(E : ℝ)| := by
    rw [abs_div, div_le_iff₀ Npos]; nlinarith [abs_nonneg (E : ℝ)]
  obtain ⟨a1, a2⟩ := fdiv_val he e1 n1 (by rw [← hN]; exact N0) (by
    rw [e2, ← hN]; refine q0.trans ?_; nlinarith [abs_nonneg (E : ℝ)])
  rw [e2, ← hN] at a2
  have a3 := ru_abs F ((E : ℝ) / N)
  rw [← a2] at a3
  generalize fdiv F eF nF = eN at *
  obtain ⟨q, hq⟩ : ∃ q, q = rv eN := ⟨_, rfl⟩
  rw [← hq] at a2 a3
  have ue : uu F * |(E : ℝ) / N| ≤ 1 / 255 := by nlinarith
  -- the integer part
  obtain ⟨k, hk⟩ : ∃ k, k = nearestZ eN := ⟨_, rfl⟩
  have kq : |q - k| ≤ 1 / 2 := by
    have := toInt_near ((numOf eN : ℚ) : ℝ)
    rw [hk, hq]; exact this
  have kb : 2 * |k| ≤ F.emax + F.f + 4 := by
    have hE' : |(E : ℝ)| ≤ F.emax + F.f + 1 := by exact_mod_cast hE
    have h1 : |(k : ℝ)| ≤ |q| + 1 / 2 := by
      have := abs_sub_abs_le_abs_sub (k : ℝ) q
      rw [abs_sub_comm] at this; linarith
    have h2 : |q| ≤ |(E : ℝ) / N| + 1 / 255 + ee F := by
      have := abs_sub_abs_le_abs_sub q ((E : ℝ) / N); linarith
    have h3 : ee F ≤ 1 / 1000 := by
      have h4 : (2 : ℝ) ^ (-119 : ℤ) ≤ 1 := zpow_le_one_of_nonpos₀ (by norm_num) (by norm_num)
      nlinarith
    have h5 : |(E : ℝ) / N| ≤ 1 / 2 * |(E : ℝ)| + 1 / 255 := by
      rw [abs_div, div_le_iff₀ Npos]
      nlinarith [abs_nonneg (E : ℝ)]
    have h4 : (2 * |(k : ℝ)|) < F.emax + F.f + 4 := by linarith
    have h6 : 2 * |k| < F.emax + F.f + 4 := by exact_mod_cast h4
    omega
  have hm := hF.wide.m
  obtain ⟨i1, i2⟩ := fnearest_fin he a1 (by
    rw [← hk, pow_succ]
    have := hF.room
    have := abs_nonneg k
    omega) (by rw [← hk]; have := abs_nonneg k; have := hF.big; omega)
  rw [← hk] at i2
  have i3 : rv (fnearest eN) = k := by unfold rv; rw [i2]; push_cast; rfl
  refine ⟨k, i1, i2, kb, ?_⟩
  generalize fnearest eN = eI at *
  have big1 : ∀ z : ℝ, |z| ≤ 2 ^ 66 → |z| ≤ (2 : ℝ) ^ F.emax := fun z hz => by
    norm_num at hbig hz ⊢; linarith
  -- the difference
  obtain ⟨b1, b2⟩ := fsub_val he a1 i1 (by rw [← hq, i3]; exact big1 _ (by linarith))
  rw [← hq, i3] at b2
  have b3 := ru_abs F (q - k)
  rw [← b2] at b3
  generalize fsub F eN eI = pre at *
  -- the remainder
  obtain ⟨ng1, ng2⟩ := rv_neg n1
  rw [← hN] at ng2
  obtain ⟨ρ, hρ⟩ : ∃ ρ, ρ = (E : ℝ) - q * N := ⟨_, rfl⟩
  have ρN : |ρ / N| ≤ uu F * |(E : ℝ) / N| + ee F := by
    rw [hρ, show ((E : ℝ) - q * N) / N = -(q - E / N) by field_simp; ring, abs_neg]; exact a3
  have ρb : |ρ| = |ρ / N| * |N| := by rw [← abs_mul, div_mul_cancel₀ _ N0]
  have ee1 : ee F ≤ 1 / 1000000 := by
    have h4 : (2 : ℝ) ^ (-119 : ℤ) ≤ 1 / 1000000 := by norm_num
    exact hee.trans ((mul_le_mul hu h4 (by positivity) (by norm_num)).trans (by norm_num))
  have ρN' : |ρ / N| ≤ 1 / 250 := by linarith
  have ρs : |ρ| ≤ 2 ^ 64 := by rw [ρb]; nlinarith [abs_nonneg (ρ / N)]
  obtain ⟨c1, c2⟩ := ffma_fin he a1 ng1 e1 (by
    rw [← hq, ng2, e2, show q * -N + (E : ℝ) = ρ by rw [hρ]; ring]; exact big1 _ (by linarith))
  rw [← hq, ng2, e2, show q * -N + (E : ℝ) = ρ by rw [hρ]; ring] at c2
  have c3 := ru_abs F ρ
  rw [← c2] at c3
  generalize ffma F eN (fneg nF) eF = er at *
  -- the reciprocal
  have one1 : Fin' F (.num 1) := by
    have := fin_int he (n := 1) (Wide.small hF.wide (n := 1) (by norm_num) (by norm_num)).1 (by have := hF.big; simp; omega) (by norm_num)
    simpa using this
  have one2 : rv (.num 1) = 1 := by simp [rv, numOf]
  have invb : |1 / N| ≤ 51 / 100 := by rw [abs_div, abs_one, div_le_iff₀ Npos]; linarith
  obtain ⟨d1, d2⟩ := fdiv_val he one1 n1 (by rw [← hN]; exact N0) (by rw [one2, ← hN]; exact big1 _ (by linarith))
  rw [one2, ← hN] at d2
  have d3 := ru_abs F (1 / N)
  rw [← d2] at d3
  generalize fdiv F (.num 1) nF = inv at *
  -- the product
  have eN' : ee F * |N| ≤ uu F * (1 / 1000000) := by
    calc ee F * |N| ≤ (uu F * (2 : ℝ) ^ (-119 : ℤ)) * 2 ^ 64 := mul_le_mul hee N2 Npos.le (by positivity)
      _ = uu F * ((2 : ℝ) ^ (-119 : ℤ) * 2 ^ 64) := by ring
      _ ≤ _ := mul_le_mul_of_nonneg_left (by norm_num) hu0.le
  have ee2 : ee F ≤ uu F * (1 / 1000000) := hee.trans (mul_le_mul_of_nonneg_left (by norm_num) hu0.le)
  have t1 := prod_part hu0 hu hee0 ee2 eN' N1 ρN' c3 d3
  have t2 : |rv er * rv inv| ≤ 1 / 200 := by
    have := abs_sub_abs_le_abs_sub (rv er * rv inv) (ρ / N)
    linarith
  obtain ⟨f1, f2⟩ := fmul_val he c1 d1 (big1 _ (by linarith))
  have f3 := ru_abs F (rv er * rv inv)
  rw [← f2] at f3
  generalize fmul F er inv = pr at *
  have f4 : |rv pr - ρ / N| ≤ uu F * (1 / 60) := by
    have := abs_sub_le (rv pr) (rv er * rv inv) (ρ / N)
    have := mul_le_mul_of_nonneg_left t2 hu0.le
    linarith
  have b4 : |rv pre - (q - k)| ≤ uu F * (1 / 2 + 1 / 1000000) := by
    have := mul_le_mul_of_nonneg_left kq hu0.le
    linarith
  have s1 : |rv pre + rv pr| ≤ 1 / 2 + 1 / 100 := by
    have h1 := abs_add_le (rv pre) (rv pr)
    have h2 := abs_sub_abs_le_abs_sub (rv pre) (q - k)
    have h3 := abs_sub_abs_le_abs_sub (rv pr) (ρ / N)
    linarith
  obtain ⟨g1, g2⟩ := fadd_val he b1 f1 (big1 _ (by linarith))
  have g3 := ru_abs F (rv pre + rv pr)
  rw [← g2] at g3
  generalize fadd F pre pr = fr at *
  have eqn : q - k + ρ / N = (E : ℝ) / N - k := by rw [hρ]; field_simp; ring
  have hEn := order_err hnr0 n2 n3 e3 hu N1
  refine ⟨g1, ?_, ?_⟩
  · have h1 := abs_sub_le (rv fr) (rv pre + rv pr) ((E : ℝ) / n - k)
    have h2 : |rv pre + rv pr - ((E : ℝ) / n - k)| ≤ |rv pre - (q - k)| + |rv pr - ρ / N| + |(E : ℝ) / N - E / n| := by
      have e0 : rv pre + rv pr - ((E : ℝ) / n - k) = (rv pre - (q - k)) + (rv pr - ρ / N) + ((E : ℝ) / N - E / n) := by
        linear_combination eqn
      rw [e0]; exact abs_add_three _ _ _
    have := mul_le_mul_of_nonneg_left s1 hu0.le
    linarith
  · have := abs_sub_abs_le_abs_sub (rv fr) (rv pre + rv pr)
    have := mul_le_mul_of_nonneg_left s1 hu0.le
    linarith

end Verif.Rootn
