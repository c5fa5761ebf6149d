import Verif.Elem.SqrtNR
import Verif.Elem.Near

/-! # The generated square root above the subnormal numbers -/

namespace Verif.Elem

open Verif.Float (Fmt Val)
open Verif.Check

/-- a number above the subnormal numbers and its square root -/
structure Low (F : Fmt) (x : Val) (s : ℝ) : Prop where
  B : Big F
  hx : Fin' F x
  s0 : 0 < s
  hs : s ^ 2 = rv x
  lo : (2 : ℝ) ^ (F.emin + 2) ≤ rv x

section
variable {F : Fmt} {x : Val} {s : ℝ}

theorem Low.x_hi (c : Low F x s) : rv x ≤ 2 * (2 : ℝ) ^ F.emax := by
  have he := c.B.he2
  have h1 := (fin_unb he c.hx).2
  have h2 := omega_lt he
  have : numOf x ≤ (2 : ℚ) ^ (F.emax + 1) := by have := le_abs_self (numOf x); linarith
  have h3 : rv x ≤ (2 : ℝ) ^ (F.emax + 1) := by unfold rv; rw [r2cast (F.emax + 1)]; exact_mod_cast this
  rw [r2add, zpow_one] at h3; linarith

theorem Low.s_lo (c : Low F x s) : (2 : ℝ) ^ (F.emin + 2) ≤ s := by
  have := c.B.hm; have := c.B.hf
  have h1 : (2 : ℝ) ^ (F.emin + 2) ≤ 1 := by
    rw [show (1 : ℝ) = (2 : ℝ) ^ (0 : ℤ) by norm_num]; exact r2le (by unfold Fmt.emin; omega)
  have h0 := r2 (F.emin + 2)
  have hs := c.s0
  by_contra hc
  have hc := not_le.1 hc
  have := c.lo
  rw [← c.hs] at this
  nlinarith

theorem Low.s_hi (c : Low F x s) : s ≤ (2 : ℝ) ^ (F.emax - 4) := by
  have := c.B.hm; have := c.B.hf
  have hs := c.s0
  have hp := r2 (F.emax - 4)
  by_contra hc
  have hc := not_le.1 hc
  have h1 := c.x_hi
  rw [← c.hs] at h1
  have h2 : 2 * (2 : ℝ) ^ F.emax ≤ (2 : ℝ) ^ (F.emax - 4) * (2 : ℝ) ^ (F.emax - 4) := by
    rw [← r2add, show 2 * (2 : ℝ) ^ F.emax = (2 : ℝ) ^ (1 + F.emax) by rw [r2add, zpow_one]]
    exact r2le (by omega)
  nlinarith

theorem Low.ee_le (c : Low F x s) : ee F ≤ uu F * s ^ 2 / 4 := by
  have h : ee F = uu F * ((2 : ℝ) ^ (F.emin + 2) / 4) := by
    unfold ee uu
    rw [show F.emin - (F.f : ℤ) - 1 = (-(F.f : ℤ) - 1) + F.emin by ring, r2add, r2add F.emin 2]; norm_num
  rw [h, c.hs, mul_div_assoc]
  exact mul_le_mul_of_nonneg_left (by have := c.lo; linarith) (uu_pos F).le

theorem newton_num {u ρ δ η n : ℝ} (hu0 : 0 < u) (hu : u ≤ 1 / 2048) (hρ : |ρ| ≤ 8 * u) (hδ : |δ| ≤ u) (hη : |η| ≤ 20 * u) (hn : |n| ≤ u / 4) :
    |ρ - (ρ + ρ ^ 2 / 2) * (1 + δ) * (1 + η) + n * (1 + η) / 2| ≤ u / 4 := by
  have e : ρ - (ρ + ρ ^ 2 / 2) * (1 + δ) * (1 + η) + n * (1 + η) / 2 =
      -(ρ ^ 2 / 2) + (-((ρ + ρ ^ 2 / 2) * (δ + η + δ * η)) + (n / 2 + n * η / 2)) := by ring
  have h1 : |ρ ^ 2| ≤ 64 * u ^ 2 := by rw [sq]; refine le_trans (am hρ hρ) (by nlinarith)
  have hu2 : u ^ 2 ≤ u / 2048 := by nlinarith
  have h2 : |ρ ^ 2 / 2| ≤ 32 * u ^ 2 := by rw [abs_div, abs_of_pos (by norm_num : (0 : ℝ) < 2)]; linarith
  have h3 : |ρ + ρ ^ 2 / 2| ≤ 8.02 * u := le_trans (aa hρ h2) (by norm_num; linarith)
  have h4 : |δ + η + δ * η| ≤ 21.01 * u := by
    refine le_trans (aa (aa hδ hη) (am hδ hη)) ?_
    norm_num; nlinarith
  have h5 := am h3 h4
  have h6 : |n / 2 + n * η / 2| ≤ u / 8 + u / 8 * (20 * u) := by
    refine aa ?_ ?_
    · rw [abs_div, abs_of_pos (by norm_num : (0 : ℝ) < 2)]; linarith
    · rw [abs_div, abs_of_pos (by norm_num : (0 : ℝ) < 2)]
      have := am hn hη
      linarith
  rw [e]
  refine le_trans (aa ((abs_neg _).trans_le h2) (aa ((abs_neg _).trans_le h5) h6)) ?_
  norm_num; nlinarith

set_option maxHeartbeats 1000000 in
/-- the correction of an approximation of the root, before and after its rounding -/
theorem newton_step (c : Low F x s) {S H : Val} {ρ η : ℝ} (hS : Fin' F S) (hSv : rv S = s * (1 + ρ)) (hρ : |ρ| ≤ 8 * uu F)
    (hH : Fin' F H) (hHv : 2 * s * rv H = 1 + η) (hη : |η| ≤ 20 * uu F) :
    Fin' F (ffma F (fmsn F S S x) H S) ∧ (∃ z : ℝ, rv (ffma F (fmsn F S S x) H S) = roundUnb F .RN z ∧ |z - s| ≤ (2 : ℝ) ^ (-(F.f : ℤ) - 3) * |s|) ∧
    ∃ ρ', rv (ffma F (fmsn F S S x) H S) = s * (1 + ρ') ∧ |ρ'| ≤ 2 * uu F := by
  have he := c.B.he2
  have hu := c.B.u_small
  have hu0 := uu_pos F
  have hs0 := c.s0
  have hslo := c.s_lo
  have hshi := c.s_hi
  have hee := c.ee_le
  have hpe := r2 F.emax
  have hpm := r2 F.emin
  set u := uu F with hu_
  obtain ⟨n1, n2⟩ := rv_neg hS
  have harg : rv (fneg S) * rv S + rv x = -(s ^ 2 * (2 * ρ + ρ ^ 2)) := by rw [n2, hSv, ← c.hs]; ring
  have hrr : |2 * ρ + ρ ^ 2| ≤ 1 / 2 := by
    obtain ⟨a1, a2⟩ := abs_le.1 hρ
    rw [abs_le]; constructor <;> nlinarith
  obtain ⟨f1, δ, ν, hδ, hν, v1⟩ := fma_rel he n1 hS c.hx (by
    rw [harg, abs_neg]
    have : |s ^ 2| ≤ 2 * (2 : ℝ) ^ F.emax := by rw [c.hs, abs_of_pos (by rw [← c.hs]; positivity)]; exact c.x_hi
    refine le_trans (am this hrr) (by linarith))
  rw [harg] at v1
  change rv (fmsn F S S x) = _ at v1
  change Fin' F (fmsn F S S x) at f1
  have hHv' : rv H = (1 + η) / (2 * s) := by rw [eq_div_iff (by positivity)]; linarith
  set w := ν / s ^ 2 with hw
  have hw4 : |w| ≤ u / 4 := by
    rw [hw, abs_div, abs_of_pos (by positivity : (0 : ℝ) < s ^ 2), div_le_iff₀ (by positivity)]
    refine le_trans hν (le_trans hee (le_of_eq ?_)); ring
  set ζ := ρ - (ρ + ρ ^ 2 / 2) * (1 + δ) * (1 + η) + w * (1 + η) / 2 with hζ
  have hz : rv (fmsn F S S x) * rv H + rv S = s * (1 + ζ) := by
    rw [v1, hHv', hSv, hζ, hw]; field_simp; ring
  have hζb : |ζ| ≤ u / 4 := newton_num hu0 hu hρ hδ hη hw4
  obtain ⟨z1, z2⟩ := abs_le.1 hζb
  have hzlo : s / 2 ≤ s * (1 + ζ) := by nlinarith
  have hzhi : s * (1 + ζ) ≤ 2 * s := by nlinarith
  have hem : (2 : ℝ) ^ F.emax = 16 * (2 : ℝ) ^ (F.emax - 4) := by
    rw [show F.emax = 4 + (F.emax - 4) by ring, r2add]; norm_num
  have hemn : (2 : ℝ) ^ (F.emin + 2) = 4 * (2 : ℝ) ^ F.emin := by rw [r2add]; norm_num; ring
  have hpp := r2 (F.emax - 4)
  obtain ⟨f2, v2⟩ := ffma_fin he f1 hH hS (by rw [hz, abs_of_pos (by linarith)]; linarith)
  rw [hz] at v2
  obtain ⟨d, hd, e2⟩ := ru_norm (F := F) (z := s * (1 + ζ)) (by rw [abs_of_pos (by linarith)]; linarith)
  refine ⟨f2, ⟨_, v2, ?_⟩, (1 + ζ) * (1 + d) - 1, by rw [v2, e2]; ring, ?_⟩
  · have : (2 : ℝ) ^ (-(F.f : ℤ) - 3) = u / 4 := by
      rw [hu_]; unfold uu; rw [show -(F.f : ℤ) - 3 = (-(F.f : ℤ) - 1) + (-2) by ring, r2add]; norm_num; ring
    rw [this, show s * (1 + ζ) - s = ζ * s by ring, abs_mul]
    exact mul_le_mul_of_nonneg_right hζb (abs_nonneg _)
  · rw [show (1 + ζ) * (1 + d) - 1 = ζ + (d + ζ * d) by ring]
    refine le_trans (aa hζb (aa hd (am hζb hd))) ?_
    have : u / 4 * u ≤ u / 4 * 1 := mul_le_mul_of_nonneg_left (by linarith) (by linarith)
    linarith

theorem eta_num {u p δ t5 t6 : ℝ} (hu0 : 0 < u) (hu : u ≤ 1 / 2048) (hp : |p| ≤ 6 * u) (hδ : |δ| ≤ u) (h5 : |t5| ≤ u) (h6 : |t6| ≤ 9 * u) :
    |(1 - (1 + p) ^ 2 * (1 + t5)) / 2| ≤ 7 * u ∧ |(1 + p) * (1 + t6) * (1 + δ) - 1| ≤ 20 * u := by
  have hu2 : u ^ 2 ≤ u / 2048 := by nlinarith
  constructor
  · have e : (1 - (1 + p) ^ 2 * (1 + t5)) / 2 = -(p + (p * p / 2 + t5 * ((1 + p) * (1 + p)) / 2)) := by ring
    have h1 : |1 + p| ≤ 1.01 := le_trans (aa (le_of_eq abs_one) hp) (by norm_num; linarith)
    rw [e]
    refine (abs_neg _).trans_le (le_trans (aa hp (aa (A := 18 * u ^ 2) (B := 0.6 * u) ?_ ?_)) (by norm_num; linarith))
    · rw [abs_div, abs_of_pos (by norm_num : (0 : ℝ) < 2)]; have := am hp hp; linarith
    · rw [abs_div, abs_of_pos (by norm_num : (0 : ℝ) < 2)]; have := am h5 (am h1 h1); norm_num at this ⊢; linarith
  · have e : (1 + p) * (1 + t6) * (1 + δ) - 1 = p + (t6 + (p * t6 + δ * ((1 + p) * (1 + t6)))) := by ring
    have h1 : |1 + p| ≤ 1.01 := le_trans (aa (le_of_eq abs_one) hp) (by norm_num; linarith)
    have h2 : |1 + t6| ≤ 1.01 := le_trans (aa (le_of_eq abs_one) h6) (by norm_num; linarith)
    rw [e]
    refine le_trans (aa hp (aa h6 (aa (am hp h6) (am hδ (am h1 h2))))) ?_
    norm_num; nlinarith

set_option maxHeartbeats 1000000 in
/-- the last correction rounds a number close to the root -/
theorem correct_near (c : Low F x s) {a h : Val} (ha : Fin' F a) (hp : |rv a * s - 1| ≤ 6 * uu F) (hh : Fin' F h) (hhv : rv h = rv x / 2) :
    Fin' F (sqrtCorrect F x h a) ∧ ∃ z : ℝ, rv (sqrtCorrect F x h a) = roundUnb F .RN z ∧ |z - s| ≤ (2 : ℝ) ^ (-(F.f : ℤ) - 3) * |s| := by
  have he := c.B.he2
  have hu := c.B.u_small
  have hu0 := uu_pos F
  have hs0 := c.s0
  have hslo := c.s_lo
  have hshi := c.s_hi
  have hee := c.B.ee_le
  have hpe := r2 F.emax
  have hpm := r2 F.emin
  obtain ⟨g1, g2⟩ := half_fin c.B
  have hem : (2 : ℝ) ^ F.emax = 16 * (2 : ℝ) ^ (F.emax - 4) := by
    rw [show F.emax = 4 + (F.emax - 4) by ring, r2add]; norm_num
  have hemn : (2 : ℝ) ^ (F.emin + 2) = 4 * (2 : ℝ) ^ F.emin := by rw [r2add]; norm_num; ring
  have hpp := r2 (F.emax - 4)
  have hE : (2 : ℝ) ^ (F.emin + 3) * (2 : ℝ) ^ (F.emax - 4) = 1 := by
    rw [← r2add, show F.emin + 3 + (F.emax - 4) = 0 by unfold Fmt.emin; ring, zpow_zero]
  have hE1 : (2 : ℝ) ^ (F.emin + 3) = 8 * (2 : ℝ) ^ F.emin := by rw [r2add]; norm_num; ring
  have hE2 : (2 : ℝ) ^ (F.emin + 1) = 2 * (2 : ℝ) ^ F.emin := by rw [r2add, zpow_one]; ring
  have hE3 : (2 : ℝ) ^ F.emin * (2 : ℝ) ^ F.emax = 2 := by
    rw [← r2add, show F.emin + F.emax = 1 by unfold Fmt.emin; ring, zpow_one]
  set u := uu F with hu_
  set A := rv a with hA
  set p := A * s - 1 with hp_
  have hAs : A * s = 1 + p := by rw [hp_]; ring
  obtain ⟨p1, p2⟩ := abs_le.1 hp
  have hA0 : 0 < A := by
    have : 0 < A * s := by rw [hAs]; linarith
    exact pos_of_mul_pos_left this hs0.le
  have hAlo : 4 * (2 : ℝ) ^ F.emin ≤ A := by
    have h1 : A * s ≤ A * (2 : ℝ) ^ (F.emax - 4) := mul_le_mul_of_nonneg_left hshi hA0.le
    rw [hE1] at hE
    have h2 : (8 * (2 : ℝ) ^ F.emin / 2) * (2 : ℝ) ^ (F.emax - 4) ≤ A * (2 : ℝ) ^ (F.emax - 4) := by linarith
    have := le_of_mul_le_mul_right h2 hpp
    linarith
  have hAhi : A ≤ (2 : ℝ) ^ F.emax := by
    have h1 : A * (2 : ℝ) ^ (F.emin + 2) ≤ A * s := mul_le_mul_of_nonneg_left hslo hA0.le
    rw [hemn] at h1
    have h2 : A * (2 : ℝ) ^ F.emin ≤ (2 : ℝ) ^ F.emax * (2 : ℝ) ^ F.emin := by linarith
    exact le_of_mul_le_mul_right h2 hpm
  obtain ⟨fH, vH⟩ := half_mul c.B ha (by rw [← hA, abs_of_pos hA0]; linarith)
  rw [← hA] at vH
  -- first approximation
  have hxA : rv x * A = s * (1 + p) := by rw [← c.hs, ← hAs]; ring
  have b1 : s / 2 ≤ s * (1 + p) := by
    have : s * (1 / 2) ≤ s * (1 + p) := mul_le_mul_of_nonneg_left (by linarith) hs0.le
    linarith
  have b2 : s * (1 + p) ≤ 2 * s := by
    have : s * (1 + p) ≤ s * 2 := mul_le_mul_of_nonneg_left (by linarith) hs0.le
    linarith
  obtain ⟨fS, vS⟩ := fmul_val he c.hx ha (by rw [← hA, hxA, abs_of_pos (by linarith)]; linarith)
  rw [← hA, hxA] at vS
  obtain ⟨d0, hd0, e0⟩ := ru_norm (F := F) (z := s * (1 + p)) (by rw [abs_of_pos (by linarith)]; linarith)
  have vS' : rv (fmul F x a) = s * (1 + (p + (d0 + p * d0))) := by rw [vS, e0]; ring
  have hρ0 : |p + (d0 + p * d0)| ≤ 8 * u := by
    refine le_trans (aa hp (aa hd0 (am hp hd0))) ?_
    nlinarith
  obtain ⟨q1, _, ρ1, q2, q3⟩ := newton_step c fS vS' hρ0 fH (η := p) (by rw [vH, ← hAs]; ring) (le_trans hp (by linarith))
  -- the half reciprocal
  have hAh : A * rv h = s * (1 + p) / 2 := by rw [hhv, ← c.hs, ← hAs]; ring
  obtain ⟨f5, v5⟩ := fmul_val he ha hh (by rw [← hA, hAh, abs_of_pos (by linarith)]; linarith)
  rw [← hA, hAh] at v5
  obtain ⟨d5, hd5, e5⟩ := ru_norm (F := F) (z := s * (1 + p) / 2) (by rw [abs_of_pos (by linarith)]; linarith)
  have h6a : rv (fneg (fmul F a h)) * A + 1 / 2 = (1 - (1 + p) ^ 2 * (1 + d5)) / 2 := by
    rw [(rv_neg f5).2, v5, e5, show -(s * (1 + p) / 2 * (1 + d5)) * A + 1 / 2 = (1 - (A * s) * (1 + p) * (1 + d5)) / 2 by ring, hAs]; ring
  have hem1 := c.B.emax_ge
  have hm7 := (eta_num hu0 hu hp (δ := 0) (by simp [hu0.le]) hd5 (t6 := 0) (by simp [hu0.le])).1
  obtain ⟨f6, d6, n6, hd6, hn6, v6⟩ := fma_rel he (rv_neg f5).1 ha g1 (by
    rw [← hA, g2, h6a]; exact le_trans hm7 (by linarith))
  rw [← hA, g2, h6a] at v6
  change rv (fmsn F (fmul F a h) a (.num (1 / 2))) = _ at v6
  change Fin' F (fmsn F (fmul F a h) a (.num (1 / 2))) at f6
  set t6 := fmsn F (fmul F a h) a (.num (1 / 2)) with ht6
  have h6b : |rv t6| ≤ 9 * u := by
    rw [v6]
    refine le_trans (aa (am hm7 (aa (le_of_eq abs_one) hd6)) (le_trans hn6 hee)) ?_
    nlinarith
  obtain ⟨z1, z2⟩ := abs_le.1 h6b
  have hpre : rv t6 * rv (fmul F (.num (1 / 2)) a) + rv (fmul F (.num (1 / 2)) a) = A / 2 * (1 + rv t6) := by rw [vH]; ring
  have hP1 : A / 4 ≤ A / 2 * (1 + rv t6) := by
    have : A / 2 * (1 / 2) ≤ A / 2 * (1 + rv t6) := mul_le_mul_of_nonneg_left (by linarith) (by linarith)
    linarith
  have hP2 : A / 2 * (1 + rv t6) ≤ A := by
    have : A / 2 * (1 + rv t6) ≤ A / 2 * 2 := mul_le_mul_of_nonneg_left (by linarith) (by linarith)
    linarith
  obtain ⟨f7, v7⟩ := ffma_fin he f6 fH fH (by rw [hpre, abs_of_pos (by linarith)]; linarith)
  rw [hpre] at v7
  obtain ⟨d7, hd7, e7⟩ := ru_norm (F := F) (z := A / 2 * (1 + rv t6)) (by rw [abs_of_pos (by linarith)]; linarith)
  have hη := (eta_num hu0 hu hp hd7 hd5 h6b).2
  have vH1 : 2 * s * rv (ffma F t6 (fmul F (.num (1 / 2)) a) (fmul F (.num (1 / 2)) a)) = 1 + ((1 + p) * (1 + rv t6) * (1 + d7) - 1) := by
    rw [v7, e7, ← hAs]; ring
  obtain ⟨r1, _, ρ2, r2', r3⟩ := newton_step c q1 q2 (le_trans q3 (by linarith)) f7 vH1 hη
  obtain ⟨s1, s2, _⟩ := newton_step c r1 r2' (le_trans r3 (by linarith)) f7 vH1 hη
  exact ⟨s1, s2⟩

end

end Verif.Elem
