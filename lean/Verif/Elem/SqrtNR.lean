import Verif.Elem.SqrtModel
import Verif.Elem.DivLemmas

/-! # Error analysis of the Newton-Raphson iteration of the reciprocal square root -/

namespace Verif.Elem

open Verif.Float (Fmt Val)
open Verif.Check

/-- the rounding of a number which is not in the range of the subnormal numbers -/
theorem ru_norm {F : Fmt} {z : ℝ} (h : (2 : ℝ) ^ F.emin ≤ |z|) : ∃ d : ℝ, |d| ≤ uu F ∧ (roundUnb F .RN z : ℝ) = z * (1 + d) := by
  have hz : z ≠ 0 := by intro h0; rw [h0, abs_zero] at h; exact absurd h (not_le.2 (r2 _))
  refine ⟨((roundUnb F .RN z : ℝ) - z) / z, ?_, by field_simp; ring⟩
  rw [abs_div, div_le_iff₀ (abs_pos.2 hz)]
  have h1 := ru_error F z
  unfold lastPlace at h1
  rw [max_eq_left (le_logR (abs_pos.2 hz) h)] at h1
  refine le_trans h1 ?_
  rw [show Int.log 2 |z| - (F.f : ℤ) - 1 = (-(F.f : ℤ) - 1) + Int.log 2 |z| by ring, r2add]
  exact mul_le_mul_of_nonneg_left (log_le hz) (r2 _).le

theorem half_fin {F : Fmt} (B : Big F) : Fin' F (.num (1 / 2)) ∧ rv (.num (1 / 2)) = 1 / 2 := by
  have he := B.he2
  have := B.hm
  have := B.hf
  have hu : Unbounded F (1 / 2 : ℚ) := by
    have := unb_pow (F := F) (k := -1) (by unfold Fmt.emin; omega)
    norm_num at this ⊢
    exact this
  refine ⟨⟨⟨(finite_iff he).2 ⟨hu, ?_⟩, by norm_num⟩, rfl, rfl⟩, by simp [rv, numOf]⟩
  refine abs_le_omega_of he ?_
  have h1 : (1 : ℚ) ≤ (2 : ℚ) ^ F.emax := one_le_zpow₀ (by norm_num) (by omega)
  rw [abs_of_pos (by norm_num)]; linarith

/-- the half of a number is exact above the subnormal numbers -/
theorem half_mul {F : Fmt} (B : Big F) {a : Val} (ha : Fin' F a) (h : (2 : ℝ) ^ (F.emin + 1) ≤ |rv a|) :
    Fin' F (fmul F (.num (1 / 2)) a) ∧ rv (fmul F (.num (1 / 2)) a) = rv a / 2 := by
  have he := B.he2
  obtain ⟨f1, f2⟩ := half_fin B
  have hu := fin_unb he ha
  have hpow : (2 : ℝ) ^ (-1 : ℤ) = 1 / 2 := by norm_num
  have hq : |rv a| ≤ (2 : ℝ) ^ (F.emax + 1) := by
    have h1 := hu.2
    have h2 := omega_lt he
    have : |numOf a| ≤ (2 : ℚ) ^ (F.emax + 1) := by linarith
    unfold rv
    rw [r2cast (F.emax + 1), ← Rat.cast_abs]; exact_mod_cast this
  have hb : |rv (.num (1 / 2)) * rv a| ≤ (2 : ℝ) ^ F.emax := by
    rw [f2, abs_mul, abs_of_pos (by norm_num)]
    rw [r2add, zpow_one] at hq; linarith
  obtain ⟨m1, m2⟩ := fmul_val he f1 ha hb
  refine ⟨m1, ?_⟩
  have e : rv (.num (1 / 2)) * rv a = ((numOf a * (2 : ℚ) ^ (-1 : ℤ) : ℚ) : ℝ) := by
    rw [f2]; unfold rv; push_cast; ring
  rw [m2, e, ru_exact]
  · unfold rv; push_cast; ring
  · refine unb_scale hu.1 (a := F.emin + 1) ?_ (by omega)
    unfold rv at h
    rw [r2cast, ← Rat.cast_abs] at h
    exact_mod_cast h

theorem sq_bounds {A X t m0 m1 : ℝ} (h0 : 0 < m0) (h1 : 0 < m1) (hE : m0 * m1 = 2) (ht : A ^ 2 * X = t) (ht1 : 15 / 16 ≤ t) (ht2 : t ≤ 11 / 10)
    (hlo : 2 * m0 ≤ X) (hhi : X ≤ 2 * m1) : m0 * (15 / 64) ≤ A ^ 2 ∧ A ^ 2 ≤ m1 / 3 := by
  have hA := sq_nonneg A
  constructor
  · have h3 : A ^ 2 * X ≤ A ^ 2 * (2 * m1) := mul_le_mul_of_nonneg_left hhi hA
    have h4 : 15 / 16 * m0 ≤ A ^ 2 * (2 * m1) * m0 := mul_le_mul_of_nonneg_right (by linarith) h0.le
    have h5 : A ^ 2 * (2 * m1) * m0 = 4 * A ^ 2 := by linear_combination (2 * A ^ 2) * hE
    linarith
  · have h3 : A ^ 2 * (2 * m0) ≤ A ^ 2 * X := mul_le_mul_of_nonneg_left hlo hA
    have h4 : A ^ 2 * (2 * m0) * m1 ≤ 11 / 10 * m1 := mul_le_mul_of_nonneg_right (by linarith) h1.le
    have h5 : A ^ 2 * (2 * m0) * m1 = 4 * A ^ 2 := by linear_combination (2 * A ^ 2) * hE
    linarith

theorem a_bounds {A c m0 m1 : ℝ} (hA0 : 0 < A) (h0 : 0 < m0) (h1 : 16 ≤ m1) (hm0 : m0 ≤ 1 / 1024) (hl : m0 * (15 / 64) ≤ A ^ 2) (hh : A ^ 2 ≤ m1 / 3) (hc1 : 19 / 20 ≤ c) (hc2 : c ≤ 21 / 20) :
    m0 ≤ A * c ∧ A * c ≤ m1 := by
  have hA := sq_nonneg A
  have e : (A * c) ^ 2 = A ^ 2 * c ^ 2 := by ring
  have h6 : 0 ≤ A * c := mul_nonneg hA0.le (by linarith)
  constructor
  · refine le_of_sq_le_sq ?_ h6
    have h4 : (9 / 10 : ℝ) ≤ c ^ 2 := by nlinarith
    have h5 : A ^ 2 * (9 / 10) ≤ A ^ 2 * c ^ 2 := mul_le_mul_of_nonneg_left h4 hA
    rw [e]; nlinarith
  · refine le_of_sq_le_sq ?_ (by linarith)
    have h4 : c ^ 2 ≤ 2 := by nlinarith
    have h5 : A ^ 2 * c ^ 2 ≤ A ^ 2 * 2 := mul_le_mul_of_nonneg_left h4 hA
    rw [e]; nlinarith

theorem nr_num {p u : ℝ} (hp0 : 0 ≤ p) (hp1 : p ≤ 1 / 32) (hu0 : 0 < u) (hu : u ≤ 1 / 2048) {Wb : ℝ}
    (h : Wb ≤ 3 / 2 * p ^ 2 + p ^ 2 * (1 / 64) + 33 / 32 * (33 / 32) * (33 / 32) * (43 / 20 * u) + 33 / 32 * (1 / 28 * u + u ^ 2)) :
    Wb ≤ 1 / 200 ∧ Wb + u * (1 + 1 / 200) ≤ 1.52 * p ^ 2 + 3.5 * u := by
  have : u ^ 2 ≤ 1 / 2048 * u := by nlinarith
  have : p ^ 2 ≤ 1 / 1024 := by nlinarith
  have := sq_nonneg p
  norm_num at h ⊢
  constructor <;> linarith

set_option maxHeartbeats 1000000 in
/-- one iteration; `s` is the square root -/
theorem nr_sqrt {F : Fmt} (B : Big F) {x h a : Val} {s p : ℝ} (hs0 : 0 < s) (hs : s ^ 2 = rv x) (hx : Fin' F x) (hlo : (2 : ℝ) ^ (F.emin + 1) ≤ rv x)
    (hh : Fin' F h) (hhv : rv h = rv x / 2) (ha : Fin' F a) (hp : |rv a * s - 1| ≤ p) (hp1 : p ≤ 1 / 32) :
    Fin' F (nrSqrt F h a) ∧ |rv (nrSqrt F h a) * s - 1| ≤ 1.52 * p ^ 2 + 3.5 * uu F := by
  have he := B.he2
  have hf := B.hf
  have hm := B.hm
  have hu := B.u_small
  have hu0 := uu_pos F
  have hee := B.ee_le
  have hem := B.emax_ge
  have hp0 : 0 ≤ p := le_trans (abs_nonneg _) hp
  set A := rv a with hA
  set u := uu F with hu_
  set q := A * s - 1 with hq
  have hAs : A * s = 1 + q := by rw [hq]; ring
  have h1q : |1 + q| ≤ 33 / 32 := le_trans (aa (le_of_eq abs_one) hp) (by linarith)
  have h1q' : 31 / 32 ≤ 1 + q := by have := (abs_le.1 hp).1; linarith
  have hA0 : 0 < A := by
    by_contra hc
    have := mul_nonpos_of_nonpos_of_nonneg (not_lt.1 hc) hs0.le
    linarith
  -- the range of the root
  have hxhi : rv x ≤ (2 : ℝ) ^ (F.emax + 1) := by
    have h1 := (fin_unb he hx).2
    have h2 := omega_lt he
    have : numOf x ≤ (2 : ℚ) ^ (F.emax + 1) := by have := le_abs_self (numOf x); linarith
    unfold rv
    rw [r2cast (F.emax + 1)]; exact_mod_cast this
  have hE : (2 : ℝ) ^ F.emin * (2 : ℝ) ^ F.emax = 2 := by
    rw [← r2add, show F.emin + F.emax = 1 by unfold Fmt.emin; ring, zpow_one]
  have hE1 : (2 : ℝ) ^ (F.emin + 1) = 2 * (2 : ℝ) ^ F.emin := by rw [r2add, zpow_one]; ring
  have hE2 : (2 : ℝ) ^ (F.emax + 1) = 2 * (2 : ℝ) ^ F.emax := by rw [r2add, zpow_one]; ring
  have he0 := r2 F.emin
  have he1 := r2 F.emax
  set m0 := (2 : ℝ) ^ F.emin with hm0
  set m1 := (2 : ℝ) ^ F.emax with hm1
  have hA2 : A ^ 2 * rv x = (1 + q) ^ 2 := by rw [← hs]; rw [← hAs]; ring
  obtain ⟨hsqlo, hsqhi⟩ := sq_bounds he0 he1 hE hA2 (by nlinarith) (by have := (abs_le.1 h1q).2; nlinarith) (by linarith) (by linarith)
  -- square
  have hAA : A * A = A ^ 2 := by ring
  obtain ⟨f1, v1⟩ := fmul_val he ha ha (by rw [← hA, hAA, abs_of_nonneg (sq_nonneg _)]; linarith)
  rw [← hA, hAA] at v1
  obtain ⟨d1, hd1, e1⟩ : ∃ d1 : ℝ, |d1| ≤ 43 / 10 * u ∧ rv (fmul F a a) = A ^ 2 * (1 + d1) := by
    have hA2p : 0 < A ^ 2 := by positivity
    refine ⟨(rv (fmul F a a) - A ^ 2) / A ^ 2, ?_, by field_simp; ring⟩
    rw [abs_div, abs_of_pos hA2p, div_le_iff₀ hA2p, v1]
    rcases ru_rel F (A ^ 2) with h | h
    · rw [abs_of_pos hA2p] at h
      have : 0 ≤ u * A ^ 2 := by positivity
      linarith
    · refine le_trans h ?_
      have e : ee F = u * m0 := by
        rw [hu_, hm0]; unfold ee uu; rw [← r2add]; congr 1; ring
      rw [e]; nlinarith
  set sq := fmul F a a with hsq
  -- mult
  obtain ⟨c1, c2⟩ := half_fin B
  obtain ⟨n1, n2⟩ := rv_neg hh
  set m := -q - q ^ 2 / 2 - (1 + q) ^ 2 * d1 / 2 with hm_
  have harg : rv (fneg h) * rv sq + rv (.num (1 / 2)) = m := by
    rw [n2, hhv, e1, c2, hm_]
    linear_combination (-(1 + d1) / 2) * hA2
  have hq2 : |q ^ 2 / 2| ≤ p ^ 2 / 2 := by
    rw [abs_of_nonneg (by positivity)]
    have := sq_abs q
    have := abs_nonneg q
    nlinarith
  have hmb : |m| ≤ p + p ^ 2 / 2 + 2.7 * u := by
    rw [hm_, show -q - q ^ 2 / 2 - (1 + q) ^ 2 * d1 / 2 = (-q + -(q ^ 2 / 2)) + -((1 + q) * (1 + q) * (d1 / 2)) by ring]
    have hd2 : |d1 / 2| ≤ 2.5 * u := by rw [abs_div, abs_two]; norm_num; linarith
    refine le_trans (aa (aa ((abs_neg _).trans_le hp) ((abs_neg _).trans_le hq2)) ((abs_neg _).trans_le (am (am h1q h1q) hd2))) ?_
    norm_num; linarith
  have hm1b : |m| ≤ 1 / 28 := by refine le_trans hmb ?_; norm_num; nlinarith
  obtain ⟨f2, d2, k2, hd2, hk2, e2⟩ := fma_rel he n1 f1 c1 (by rw [harg]; linarith)
  rw [harg] at e2
  have hmul_eq : fmsn F h sq (.num (1 / 2)) = ffma F (fneg h) sq (.num (1 / 2)) := rfl
  set mu := ffma F (fneg h) sq (.num (1 / 2)) with hmu
  have hmub : |rv mu| ≤ 1 / 20 := by
    rw [e2]
    refine le_trans (aa (A := 1 / 28 * (11 / 10)) (B := 1 / 100) (am hm1b ?_) ?_) (by norm_num)
    · refine le_trans (aa (le_of_eq abs_one) hd2) (by linarith)
    · nlinarith
  -- new approximation
  have hz : rv a * rv mu + rv a = A * (1 + rv mu) := by rw [← hA]; ring
  obtain ⟨b1, b2⟩ := abs_le.1 hmub
  obtain ⟨hAlo, hAhi'⟩ := a_bounds (c := 1 + rv mu) hA0 he0 hem (by
      have : m0 ≤ (2 : ℝ) ^ (-10 : ℤ) := r2le (by unfold Fmt.emin; omega)
      norm_num at this ⊢; linarith) hsqlo hsqhi (by linarith) (by linarith)
  have hAhi : |A * (1 + rv mu)| ≤ m1 := by rw [abs_of_pos (by linarith)]; exact hAhi'
  obtain ⟨f3, v3⟩ := ffma_fin he ha f2 ha (by rw [hz]; exact hAhi)
  rw [hz] at v3
  obtain ⟨d3, hd3, e3⟩ := ru_norm (F := F) (z := A * (1 + rv mu)) (by rw [abs_of_pos (by linarith)]; exact hAlo)
  rw [e3] at v3
  show Fin' F (ffma F a (fmsn F h sq (.num (1 / 2))) a) ∧ |rv (ffma F a (fmsn F h sq (.num (1 / 2))) a) * s - 1| ≤ _
  rw [hmul_eq]
  refine ⟨f3, ?_⟩
  rw [v3]
  set W := -(3 / 2) * q ^ 2 - q ^ 3 / 2 - (1 + q) * (1 + q) * (1 + q) * (d1 / 2) + (1 + q) * (m * d2 + k2) with hW
  have e4 : A * (1 + rv mu) * (1 + d3) * s - 1 = W + d3 * (1 + W) := by
    rw [hW, e2, hm_]
    linear_combination ((1 + ((-q - q ^ 2 / 2 - (1 + q) ^ 2 * d1 / 2) * (1 + d2) + k2)) * (1 + d3)) * hAs
  rw [e4]
  have hWb : |W| ≤ 3 / 2 * p ^ 2 + p ^ 2 * (1 / 64) + 33 / 32 * (33 / 32) * (33 / 32) * (43 / 20 * u) + 33 / 32 * (1 / 28 * u + u ^ 2) := by
    rw [hW, show -(3 / 2) * q ^ 2 - q ^ 3 / 2 - (1 + q) * (1 + q) * (1 + q) * (d1 / 2) + (1 + q) * (m * d2 + k2) =
      ((-(3 / 2 * q ^ 2) + -(q ^ 2 * (q / 2))) + -((1 + q) * (1 + q) * (1 + q) * (d1 / 2))) + (1 + q) * (m * d2 + k2) by ring]
    have hq2' : |q ^ 2| ≤ p ^ 2 := by
      rw [abs_of_nonneg (by positivity)]
      have := sq_abs q
      have := abs_nonneg q
      nlinarith
    have t1 : |-(3 / 2 * q ^ 2)| ≤ 3 / 2 * p ^ 2 := by
      rw [abs_neg]; exact am (le_of_eq (abs_of_pos (by norm_num))) hq2'
    have t2 : |-(q ^ 2 * (q / 2))| ≤ p ^ 2 * (1 / 64) := by
      rw [abs_neg]; refine am hq2' ?_
      rw [abs_div, abs_two]; linarith
    have hd2' : |d1 / 2| ≤ 43 / 20 * u := by rw [abs_div, abs_two]; linarith
    have t3 : |-((1 + q) * (1 + q) * (1 + q) * (d1 / 2))| ≤ 33 / 32 * (33 / 32) * (33 / 32) * (43 / 20 * u) := by
      rw [abs_neg]; exact am (am (am h1q h1q) h1q) hd2'
    have t4 : |(1 + q) * (m * d2 + k2)| ≤ 33 / 32 * (1 / 28 * u + u ^ 2) := am h1q (aa (am hm1b hd2) (le_trans hk2 hee))
    exact aa (aa (aa t1 t2) t3) t4
  obtain ⟨hW1, hW2⟩ := nr_num hp0 hp1 hu0 hu hWb
  have h1W : |1 + W| ≤ 1 + 1 / 200 := aa (le_of_eq abs_one) hW1
  exact le_trans (aa le_rfl (am hd3 h1W)) hW2

theorem rsqrt_iter {F : Fmt} (B : Big F) {x h : Val} {s : ℝ} (hs0 : 0 < s) (hs : s ^ 2 = rv x) (hx : Fin' F x) (hlo : (2 : ℝ) ^ (F.emin + 1) ≤ rv x)
    (hh : Fin' F h) (hhv : rv h = rv x / 2) (n : ℕ) :
    ∀ {a : Val} {t : ℝ}, Fin' F a → 0 ≤ t → t ≤ 1 / 64 → |rv a * s - 1| ≤ t + 3.7 * uu F →
      Fin' F (rsqrtIter F h n a) ∧ |rv (rsqrtIter F h n a) * s - 1| ≤ (1.52 * t) ^ (2 ^ n) + 3.7 * uu F := by
  have hu := B.u_small
  have hu0 := uu_pos F
  induction n with
  | zero =>
    intro a t ha h0 h1 h2
    refine ⟨ha, le_trans h2 ?_⟩
    norm_num; linarith
  | succ n ih =>
    intro a t ha h0 h1 h2
    obtain ⟨s1, s2⟩ := nr_sqrt B hs0 hs hx hlo hh hhv ha h2 (by norm_num; linarith)
    have h3 : 1.52 * (t + 3.7 * uu F) ^ 2 + 3.5 * uu F ≤ 1.52 * t ^ 2 + 3.7 * uu F := by
      norm_num; nlinarith
    have := ih (a := nrSqrt F h a) (t := 1.52 * t ^ 2) s1 (by positivity) (by norm_num; nlinarith) (le_trans s2 h3)
    refine ⟨this.1, ?_⟩
    have e : (1.52 * (1.52 * t ^ 2)) ^ 2 ^ n = (1.52 * t) ^ 2 ^ (n + 1) := by
      rw [pow_succ 2 n, mul_comm (2 ^ n) 2, pow_mul]; congr 1; ring
    rw [e] at this
    exact this.2

end Verif.Elem
