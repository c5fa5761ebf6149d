import Verif.Trig.SinLemmas

/-! # C83: the argument reduction of the sine and the cosine -/

namespace Verif.Trig

open Verif.Float (Fmt Val)
open Verif.Check
open Verif.Elem

theorem fge_fin {x : Val} {q : ℚ} (h : isNaN x = false) (hi : isInf x = false) : fge x (.num q) = decide (q ≤ numOf x) := by
  cases x <;> simp_all [fge, cLe, isNaN, isInf] <;> rfl

theorem modk_spec (sin : Bool) (k : ℤ) : 0 ≤ modk sin k ∧ modk sin k < 2 ^ 15 ∧ ∃ q : ℤ, k + (if sin then 3 * 2 ^ 13 else 0) = q * 2 ^ 15 + modk sin k := by
  refine ⟨Int.emod_nonneg _ (by norm_num), Int.emod_lt_of_pos _ (by norm_num), (if sin then k + 3 * 2 ^ 13 else k) / 2 ^ 15, ?_⟩
  have := Int.mul_ediv_add_emod (if sin then k + 3 * 2 ^ 13 else k) (2 ^ 15)
  unfold modk
  cases sin <;> simp only [if_true, if_false, Bool.false_eq_true, add_zero] at this ⊢ <;> linarith

/-- the angle that is computed, from the multiple of `pi / 2^14` that is subtracted -/
theorem angle_of {sin : Bool} {k : ℤ} {X : ℝ} {t : ℚ} {err : ℝ} (h : |(t : ℝ) - (X - k * (Real.pi / 2 ^ 14))| ≤ err) :
    SameAngle (X + if sin then 3 * Real.pi / 2 else 0) (modk sin k) t err := by
  obtain ⟨-, -, q, hq⟩ := modk_spec sin k
  refine ⟨q, ?_⟩
  have hq' := congrArg (Int.cast : ℤ → ℝ) hq
  push_cast at hq'
  rw [abs_sub_comm] at h
  have e : X + (if sin then 3 * Real.pi / 2 else 0) - (q * (2 * Real.pi) + (modk sin k * (Real.pi / 2 ^ 14) + t)) = X - k * (Real.pi / 2 ^ 14) - t := by
    have : (modk sin k : ℝ) = k + (if sin then 3 * 2 ^ 13 else 0) - q * 2 ^ 15 := by
      cases sin <;> simp at hq' ⊢ <;> linarith
    rw [this]
    cases sin <;> simp <;> ring
  rw [e]; exact h

theorem angle_mod {sin : Bool} {r : ℤ} : modk sin (if r < 0 then 2 ^ 15 + r else r) = modk sin r := by
  unfold modk
  split_ifs <;> omega

/-- C83: below `2^33` the reduction of the sine and of the cosine returns an index of the table and an argument of at most `2^-13` that are the angle of the
argument, shifted by three quarters of a turn for the sine, up to half an ulp of the argument -/
theorem C83_sincos_std_partial {x : Val} (c : ℚ) (sin : Bool) (hd : b64.Datum x) (hn : isNaN x = false) (hi : isInf x = false) (h : |numOf x| < 2 ^ 33) :
    ∃ (j : ℤ) (t : Val), sincosArg c sin x = some (j, t) ∧ b64.Datum t ∧ isNaN t = false ∧ isInf t = false ∧ 0 ≤ j ∧ j < 2 ^ 15 ∧ |numOf t| ≤ 2 ^ (-13 : ℤ) ∧
      SameAngle ((numOf x : ℝ) + if sin then 3 * Real.pi / 2 else 0) j (numOf t) (2 ^ (-53 : ℤ) * |(numOf x : ℝ)| + 2 ^ (-60 : ℤ)) := by
  have hx : Fin' b64 x := ⟨hd, hn, hi⟩
  have hX : |rv x| ≤ 2 ^ 33 := by unfold rv; rw [← Rat.cast_abs]; exact_mod_cast h.le
  obtain ⟨k, k1, k2, k3⟩ := k_spec hx hX
  obtain ⟨r1, r2, r3, r4⟩ := red_spec hx hX k2 k3
  obtain ⟨p1, p2⟩ := p_bounds
  have hlt : ¬ (2 : ℚ) ^ 33 ≤ numOf x := by have := (abs_lt.1 h).2; linarith
  have e1 : |rv (redCoeff1 k) - k * invHi| ≤ 2 ^ (-53 : ℤ) * |rv x| + 2 ^ (-64 : ℤ) := by
    rw [r1]
    rcases ru_rel b64 ((k : ℝ) * invHi) with hh | hh
    · have hu : uu b64 = 2 ^ (-53 : ℤ) := by unfold uu; rw [f_eq]; norm_num
      rw [hu] at hh
      refine le_trans hh ?_
      have h1 : |(k : ℝ) * invHi| ≤ |rv x| + 2 ^ (-12 : ℤ) := by
        have := abs_add_le (rv x) ((k : ℝ) * invHi - rv x)
        rw [show rv x + ((k : ℝ) * invHi - rv x) = (k : ℝ) * invHi by ring] at this
        linarith
      have h2 := mul_le_mul_of_nonneg_left h1 (show (0 : ℝ) ≤ 2 ^ (-53 : ℤ) by norm_num)
      refine le_trans h2 ?_
      norm_num
      linarith
    · refine le_trans hh ?_
      have : ee b64 ≤ 2 ^ (-64 : ℤ) := by unfold ee; rw [f_eq, emin_eq]; exact r2le (by norm_num)
      have h0 : (0 : ℝ) ≤ 2 ^ (-53 : ℤ) * |rv x| := mul_nonneg (by norm_num) (abs_nonneg _)
      linarith
  have e2 : |rv (redStd x k) - (rv x - k * (Real.pi / 2 ^ 14))| ≤ 2 ^ (-53 : ℤ) * |rv x| + 2 ^ (-60 : ℤ) := by
    rw [abs_le] at r3 e1 ⊢
    norm_num at r3 e1 ⊢
    constructor <;> linarith
  obtain ⟨j1, j2, -⟩ := modk_spec sin k
  refine ⟨modk sin k, redStd x k, ?_, r2.1, r2.2.1, r2.2.2, j1, j2, ?_, angle_of e2⟩
  · unfold sincosArg
    rw [fge_fin hn hi, decide_eq_false hlt, k1]
    rfl
  · have hCP : (2 : ℝ) ^ 14 / Real.pi * (Real.pi / 2 ^ 14) = 1 := by have := Real.pi_pos.ne'; field_simp
    have hD : |(k : ℝ) * (Real.pi / 2 ^ 14) - rv x| ≤ 33 / 64 * (Real.pi / 2 ^ 14) := by
      have : (k : ℝ) * (Real.pi / 2 ^ 14) - rv x = ((k : ℝ) - rv x * (2 ^ 14 / Real.pi)) * (Real.pi / 2 ^ 14) := by linear_combination rv x * hCP
      rw [this, abs_mul, abs_of_pos (show 0 < Real.pi / 2 ^ 14 by norm_num at p1; linarith)]
      refine mul_le_mul_of_nonneg_right (le_trans k2 (by norm_num)) (by norm_num at p1; linarith)
    have hf : |rv (redStd x k)| ≤ 2 ^ (-13 : ℤ) := by
      rw [abs_le] at e2 hD ⊢
      norm_num at e2 hD hX p2 ⊢
      constructor <;> linarith
    unfold rv at hf
    rw [← Rat.cast_abs, r2cast] at hf
    exact_mod_cast hf

/-- such an argument -/
example (c : ℚ) : ∃ (j : ℤ) (t : Val), sincosArg c true (.num 3) = some (j, t) ∧ b64.Datum t ∧ isNaN t = false ∧ isInf t = false ∧ 0 ≤ j ∧ j < 2 ^ 15 ∧
    |numOf t| ≤ 2 ^ (-13 : ℤ) ∧
      SameAngle ((numOf (.num 3) : ℝ) + if true then 3 * Real.pi / 2 else 0) j (numOf t) (2 ^ (-53 : ℤ) * |(numOf (.num 3) : ℝ)| + 2 ^ (-60 : ℤ)) :=
  C83_sincos_std_partial c true (x := .num 3) ⟨⟨3 * 2 ^ 51, 1, by norm_num [b64], by rw [emin_eq]; norm_num, by rw [emax_eq]; norm_num, by norm_num [b64]⟩, by norm_num⟩
    rfl rfl (by show |(3 : ℚ)| < _; norm_num)

/-- C83: on `[2^33, 2^49)` and on `[2^52, 2^72)` the reduction returns the angle of the argument up to `2^-60` -/
theorem C83_sincos_large_partial {c v : ℚ} (sin : Bool) (hc : SincosCst c) (hv : b64.Finite v) (h : 2 ^ 33 ≤ v ∧ v < 2 ^ 49 ∨ 2 ^ 52 ≤ v ∧ v < 2 ^ 72) :
    ∃ (j : ℤ) (t : Val), sincosArg c sin (.num v) = some (j, t) ∧ b64.Datum t ∧ isNaN t = false ∧ isInf t = false ∧ 0 ≤ j ∧ j < 2 ^ 15 ∧ |numOf t| ≤ 2 ^ (-13 : ℤ) ∧
      SameAngle ((v : ℝ) + if sin then 3 * Real.pi / 2 else 0) j (numOf t) (2 ^ (-60 : ℤ)) := by
  have h33 : 2 ^ 33 ≤ v := by rcases h with h | h <;> linarith [h.1]
  have h72 : v < 2 ^ 72 := by rcases h with h | h <;> linarith [h.2]
  obtain ⟨acc, r, a1, a2, a3, a4, a5, a6, m, a7⟩ := C82_sincos_partial hc hv (h.imp (fun h => ⟨by linarith [h.1], h.2⟩) id)
  have hacc : Fin' b64 acc := ⟨a2, a3, a4⟩
  have K := consts
  obtain ⟨p1, p2⟩ := p_bounds
  have e1 := K.eihi
  have e2 := K.eilo
  obtain ⟨f1, v1⟩ := K.ihi
  obtain ⟨f2, v2⟩ := K.ilo
  have hA : |rv acc| ≤ 1 / 2 := by
    have : |((numOf acc : ℚ) : ℝ)| ≤ ((1 / 2 : ℚ) : ℝ) := by rw [← Rat.cast_abs]; exact_mod_cast a6
    push_cast at this
    exact this
  have hCP : (2 : ℝ) ^ 14 / Real.pi * (Real.pi / 2 ^ 14) = 1 := by have := Real.pi_pos.ne'; field_simp
  have hvR : |(v : ℝ)| ≤ 2 ^ 72 := by
    rw [abs_of_pos (by have : (2 : ℝ) ^ 33 ≤ v := by exact_mod_cast h33
                       linarith)]; exact_mod_cast h72.le
  have hcR : |(v : ℝ) * ((c : ℝ) - 2 ^ 14 / Real.pi)| ≤ 2 ^ 72 * 2 ^ (-1400 : ℤ) := by
    rw [abs_mul]; exact mul_le_mul hvR hc (abs_nonneg _) (by norm_num)
  have htiny : (2 : ℝ) ^ 72 * 2 ^ (-1400 : ℤ) ≤ 2 ^ (-100 : ℤ) := by
    rw [show (2 : ℝ) ^ 72 = 2 ^ (72 : ℤ) by norm_cast, ← zpow_add₀ (by norm_num)]
    exact r2le (by norm_num)
  have hcR := le_trans hcR htiny
  have a7R : |(v : ℝ) * c - (m * 2 ^ 15 + (r + rv acc))| ≤ 2 ^ (-49 : ℤ) := by
    have : |((v * c - (m * 2 ^ 15 + (r + numOf acc)) : ℚ) : ℝ)| ≤ (((2 : ℚ) ^ (-49 : ℤ) : ℚ) : ℝ) := by rw [← Rat.cast_abs]; exact_mod_cast a7
    rw [← r2cast] at this
    push_cast at this
    exact this
  set C := (2 : ℝ) ^ 14 / Real.pi
  set P := Real.pi / 2 ^ 14
  set ih : ℝ := (invHi : ℝ)
  set il : ℝ := (invLo : ℝ)
  set A := rv acc
  -- the two products and their sum
  have m1 : |A * ih| ≤ 1 / 2 * (19176 / 10 ^ 8) := by
    rw [abs_mul]
    refine mul_le_mul hA ?_ (abs_nonneg _) (by norm_num)
    rw [abs_le] at e1 ⊢
    norm_num at e1 p1 p2 ⊢
    constructor <;> linarith
  have m2 : |A * il| ≤ 1 / 2 * 2 ^ (-60 : ℤ) := by
    rw [abs_mul]
    refine mul_le_mul hA ?_ (abs_nonneg _) (by norm_num)
    rw [abs_le] at e1 e2 ⊢
    norm_num at e1 e2 ⊢
    constructor <;> linarith
  have hs : |A * (ih + il - P)| ≤ 1 / 2 * 2 ^ (-114 : ℤ) := by
    rw [abs_mul]
    refine mul_le_mul hA ?_ (abs_nonneg _) (by norm_num)
    rw [show ih + il - P = il - (P - ih) by ring]; exact e2
  obtain ⟨r1, -, r2'⟩ := mul_r (-14) hacc f1 (by rw [v1]; refine lt_of_le_of_lt m1 ?_; norm_num) (by norm_num) (by norm_num)
  obtain ⟨s1, -, s2⟩ := mul_r (-61) hacc f2 (by rw [v2]; refine lt_of_le_of_lt m2 ?_; norm_num) (by norm_num) (by norm_num)
  rw [v1] at r2'
  rw [v2] at s2
  have b1 : |rv (fmul b64 acc (cst b64 (invHi : ℝ))) + rv (fmul b64 acc (cst b64 (invLo : ℝ)))| < 2 ^ (-13 : ℤ) := by
    rw [abs_lt]
    rw [abs_le] at m1 m2 r2' s2
    norm_num at m1 m2 r2' s2 ⊢
    constructor <;> linarith
  obtain ⟨t1, t2⟩ := add_r (-14) r1 s1 (by rw [show (-14 + 1 : ℤ) = -13 by norm_num]; exact b1) (by norm_num) (by norm_num)
  set t := fadd b64 (fmul b64 acc (cst b64 (invHi : ℝ))) (fmul b64 acc (cst b64 (invLo : ℝ))) with ht
  have ht1 : |rv t - A * P| ≤ 2 ^ (-65 : ℤ) := by
    rw [abs_le] at t2 s2 r2' hs ⊢
    norm_num at t2 s2 r2' hs ⊢
    constructor <;> linarith
  have hP : 0 < P := by norm_num at p1; linarith
  have hang : |rv t - ((v : ℝ) - ((m * 2 ^ 15 + r : ℤ) : ℝ) * P)| ≤ 2 ^ (-60 : ℤ) := by
    have e : (v : ℝ) - ((m * 2 ^ 15 + r : ℤ) : ℝ) * P - A * P = ((v : ℝ) * c - (m * 2 ^ 15 + (r + A)) - (v : ℝ) * ((c : ℝ) - C)) * P := by
      push_cast
      linear_combination (-(v : ℝ)) * hCP
    have h1 : |(v : ℝ) - ((m * 2 ^ 15 + r : ℤ) : ℝ) * P - A * P| ≤ (2 ^ (-49 : ℤ) + 2 ^ (-100 : ℤ)) * (19175 / 10 ^ 8) := by
      rw [e, abs_mul, abs_of_pos hP]
      refine mul_le_mul ?_ p2.le hP.le (by norm_num)
      exact le_trans (abs_sub _ _) (add_le_add a7R hcR)
    rw [abs_le] at h1 ht1 ⊢
    norm_num at h1 ht1 ⊢
    constructor <;> linarith
  have hmod : modk sin (m * 2 ^ 15 + r) = modk sin (if r < 0 then 2 ^ 15 + r else r) := by
    rw [angle_mod]; unfold modk
    split_ifs <;> omega
  obtain ⟨j1, j2, -⟩ := modk_spec sin (m * 2 ^ 15 + r)
  refine ⟨modk sin (m * 2 ^ 15 + r), t, ?_, t1.1, t1.2.1, t1.2.2, j1, j2, ?_, angle_of hang⟩
  · unfold sincosArg
    rw [fge_fin rfl rfl, decide_eq_true (show (2 : ℚ) ^ 33 ≤ numOf (.num v) from h33), if_pos rfl, a1, hmod]
    rfl
  · have hf : |rv t| ≤ 2 ^ (-13 : ℤ) := by
      rw [abs_le] at m1 m2 r2' s2 t2 ⊢
      norm_num at m1 m2 r2' s2 t2 ⊢
      constructor <;> linarith
    unfold rv at hf
    rw [← Rat.cast_abs, r2cast] at hf
    exact_mod_cast hf

/-- such an argument -/
example {c : ℚ} (hc : SincosCst c) : ∃ (j : ℤ) (t : Val), sincosArg c false (.num (3 * 2 ^ 60)) = some (j, t) ∧ b64.Datum t ∧ isNaN t = false ∧ isInf t = false ∧ 0 ≤ j ∧
    j < 2 ^ 15 ∧ |numOf t| ≤ 2 ^ (-13 : ℤ) ∧ SameAngle (((3 * 2 ^ 60 : ℚ) : ℝ) + if false then 3 * Real.pi / 2 else 0) j (numOf t) (2 ^ (-60 : ℤ)) :=
  C83_sincos_large_partial false hc ⟨3 * 2 ^ 51, 61, by norm_num [b64], by rw [emin_eq]; norm_num, by rw [emax_eq]; norm_num, by norm_num [b64]⟩
    (Or.inr ⟨by norm_num, by norm_num⟩)

theorem near_small {a : Val} (ha : Fin' b64 a) (h : numOf a ≤ -2 ^ 63 - 1) : nearInt a = none := by
  unfold nearInt isInfOrNaN int64
  rw [ha.2.1, ha.2.2]
  simp only [Bool.or_self, Bool.false_eq_true, if_false]
  rw [if_neg]
  intro hh
  have a' := (abs_le.1 (near_le (numOf a))).1
  have b : ((-2 ^ 63 : ℤ) : ℚ) ≤ (nearestZ a : ℚ) := by exact_mod_cast hh.1
  unfold nearestZ at b
  push_cast at b
  linarith

theorem k_none {x : Val} (hx : Fin' b64 x) {B : ℝ} (hX1 : -B ≤ rv x) (hX2 : rv x ≤ -2 ^ 51) (hB : B * 8192 ≤ (2 : ℝ) ^ b64.emax) : kStd x = none := by
  have K := consts
  obtain ⟨c1, c2⟩ := c_bounds
  have e1 := K.ehi
  have e2 := K.elo
  obtain ⟨f1, v1⟩ := K.hi
  obtain ⟨f2, v2⟩ := K.lo
  set X := rv x
  set C := (2 : ℝ) ^ 14 / Real.pi
  set hi' : ℝ := (fracHi : ℝ)
  set lo : ℝ := (fracLo : ℝ)
  have hB0 : 0 < B := by norm_num at hX2; linarith
  have hXB : |X| ≤ B := by rw [abs_le]; norm_num at hX2; constructor <;> linarith
  have hhi : 5214 ≤ hi' ∧ hi' ≤ 5217 := by rw [abs_le] at e1; norm_num at e1; constructor <;> linarith
  have hlo : |lo| ≤ 1 := by rw [abs_le] at e1 e2 ⊢; norm_num at e1 e2 ⊢; constructor <;> linarith
  have m1 : |X * hi'| ≤ B * 5217 := by
    rw [abs_mul, abs_of_pos (show 0 < hi' by linarith [hhi.1])]
    exact mul_le_mul hXB hhi.2 (by linarith [hhi.1]) (le_trans (abs_nonneg _) hXB)
  have m2 : |X * lo| ≤ |X| * 1 := by rw [abs_mul]; exact mul_le_mul_of_nonneg_left hlo (abs_nonneg _)
  have z1 : |rv x * rv (cst b64 (fracHi : ℝ))| ≤ (2 : ℝ) ^ b64.emax := by
    rw [v1]; refine le_trans m1 (le_trans ?_ hB); linarith
  have z2 : |rv x * rv (cst b64 (fracLo : ℝ))| ≤ (2 : ℝ) ^ b64.emax := by
    rw [v2]; refine le_trans m2 (le_trans ?_ hB); linarith
  obtain ⟨a1, a2⟩ := fmul_val he2 hx f1 z1
  obtain ⟨b1, b2⟩ := fmul_val he2 hx f2 z2
  rw [v1] at a2
  rw [v2] at b2
  have hu : uu b64 = 2 ^ (-53 : ℤ) := by unfold uu; rw [f_eq]; norm_num
  have he : ee b64 ≤ 1 := by unfold ee; rw [f_eq, emin_eq]; exact le_trans (r2le (show _ ≤ (0 : ℤ) by norm_num)) (by norm_num)
  have rel : ∀ z : ℝ, |(roundUnb b64 .RN z : ℝ) - z| ≤ 2 ^ (-53 : ℤ) * |z| + 1 := by
    intro z
    have h0 : (0 : ℝ) ≤ 2 ^ (-53 : ℤ) * |z| := mul_nonneg (by norm_num) (abs_nonneg _)
    rcases ru_rel b64 z with hh | hh
    · rw [hu] at hh; linarith
    · linarith
  have ra := rel (X * hi')
  have rb := rel (X * lo)
  rw [← a2] at ra
  rw [← b2] at rb
  set u := rv (fmul b64 x (cst b64 (fracHi : ℝ)))
  set w := rv (fmul b64 x (cst b64 (fracLo : ℝ)))
  have hXn : |X| = -X := abs_of_neg (by norm_num at hX2 ⊢; linarith)
  have hXh : |X * hi'| ≤ -X * 5217 := by
    rw [abs_mul, hXn, abs_of_pos (show 0 < hi' by linarith [hhi.1])]
    exact mul_le_mul_of_nonneg_left hhi.2 (by norm_num at hX2 ⊢; linarith)
  have hXh' : X * hi' ≤ X * 5214 := by norm_num at hX2; nlinarith [hhi.1]
  have hu1 : u ≤ X * 5213 := by
    have h3 := (abs_le.1 ra).2
    norm_num at h3 hX2 hXh
    linarith
  have hu2 : -u ≤ -X * 5218 := by
    have h3 := (abs_le.1 ra).1
    have h4 := (abs_le.1 hXh).1
    norm_num at h3 h4 hX2 hXh ⊢
    linarith
  have hw1 : |w| ≤ -X * 2 := by
    rw [abs_le] at rb ⊢
    rw [hXn] at m2
    have h4 := abs_le.1 m2
    norm_num at rb h4 hX2 m2 ⊢
    constructor <;> linarith
  have hw2 := abs_le.1 hw1
  have z3 : |u + w| ≤ (2 : ℝ) ^ b64.emax := by
    refine le_trans ?_ hB
    rw [abs_le]
    norm_num at hX2 ⊢
    constructor <;> linarith
  have e : ((numOf (fmul b64 x (cst b64 (fracHi : ℝ))) + numOf (fmul b64 x (cst b64 (fracLo : ℝ))) : ℚ) : ℝ) = u + w := by push_cast; rfl
  obtain ⟨g1, g2⟩ := fadd_fin he2 a1 b1 (by rw [e]; exact ru_no_over he2 z3)
  rw [e] at g2
  have rs := rel (u + w)
  rw [← g2] at rs
  have hsum : |u + w| ≤ -X * 5220 := by rw [abs_le]; norm_num at hX2 ⊢; constructor <;> linarith
  have hfin : ((numOf (vxPi x) : ℚ) : ℝ) ≤ X * 5210 := by
    have h3 := (abs_le.1 rs).2
    unfold vxPi
    norm_num at h3 hsum hX2 ⊢
    linarith
  refine near_small g1 ?_
  have : ((numOf (vxPi x) : ℚ) : ℝ) ≤ -2 ^ 63 - 1 := by norm_num at hX2 ⊢; linarith
  exact_mod_cast this

/-- C83, negation: the test that selects the reduction of the large arguments compares the argument, not its magnitude, to `2^33`: below `-2^51` the conversion
to an integer of the other reduction overflows -/
theorem C83_sincos_negative_wrong {x : Val} (c : ℚ) (sin : Bool) (hd : b64.Datum x) (hn : isNaN x = false) (hi : isInf x = false) (h1 : -(2 : ℚ) ^ 1000 ≤ numOf x)
    (h2 : numOf x ≤ -2 ^ 51) : sincosArg c sin x = none := by
  have hx : Fin' b64 x := ⟨hd, hn, hi⟩
  have hlt : ¬ (2 : ℚ) ^ 33 ≤ numOf x := by clear h1; intro h; linarith
  have hnone : kStd x = none := by
    refine k_none hx (B := 2 ^ 1000) (by
      have := (Rat.cast_le (K := ℝ)).2 h1
      rw [Rat.cast_neg, Rat.cast_pow, Rat.cast_ofNat] at this
      exact this) (by unfold rv; exact_mod_cast h2) ?_
    rw [emax_eq, show (2 : ℝ) ^ 1000 = 2 ^ ((1000 : ℕ) : ℤ) from (zpow_natCast 2 1000).symm, show (8192 : ℝ) = 2 ^ (13 : ℤ) by norm_num, ← zpow_add₀ (by norm_num)]
    exact r2le (by norm_num)
  unfold sincosArg
  rw [fge_fin hn hi, decide_eq_false hlt, hnone]
  rfl

/-- a standard test case of ml_sincos.py (line 350) -/
example (c : ℚ) (sin : Bool) : sincosArg c sin (.num (-0x1ab3c84717c7c7 * 2 ^ 10)) = none :=
  C83_sincos_negative_wrong c sin
    ⟨⟨-0x1ab3c84717c7c7, 62, by norm_num [b64], by rw [emin_eq]; norm_num, by rw [emax_eq]; norm_num, by norm_num [b64]⟩, by norm_num⟩ rfl rfl
    (by
      show _ ≤ (-0x1ab3c84717c7c7 * 2 ^ 10 : ℚ)
      have : (2 : ℚ) ^ 63 ≤ 2 ^ 1000 := pow_le_pow_right₀ (by norm_num) (by norm_num)
      refine le_trans (neg_le_neg this) (by norm_num)) (by show (-0x1ab3c84717c7c7 * 2 ^ 10 : ℚ) ≤ _; norm_num)

/-- C83, negation: on `[2^51, 2^52)` and from `2^1012` the reduction overflows or reads out of its tables -/
theorem C83_sincos_large_wrong {c v : ℚ} (sin : Bool) (hc : SincosCst c) (hv : b64.Finite v) (h : 2 ^ 51 ≤ v ∧ v < 2 ^ 52 ∨ 2 ^ 1012 ≤ v) :
    sincosArg c sin (.num v) = none := by
  have h33 : (2 : ℚ) ^ 33 ≤ v := by
    rcases h with h | h
    · linarith [h.1]
    · exact le_trans (pow_le_pow_right₀ (by norm_num) (by norm_num)) h
  have h0 : reduce c 100 14 (.num v) = none := by
    rcases h with h | h
    · exact C82_sincos_overflow_binade_wrong hc hv h.1 h.2
    · exact (C82_sincos_table_wrong hc (by rw [abs_of_nonneg (le_trans (by norm_num) h33)]; exact h) hv).2.2
  unfold sincosArg
  rw [fge_fin rfl rfl, decide_eq_true (show (2 : ℚ) ^ 33 ≤ numOf (.num v) from h33), if_pos rfl, h0]
  rfl

/-- such an argument -/
example {c : ℚ} (hc : SincosCst c) : sincosArg c true (.num (3 * 2 ^ 50)) = none :=
  C83_sincos_large_wrong true hc ⟨3 * 2 ^ 51, 51, by norm_num [b64], by rw [emin_eq]; norm_num, by rw [emax_eq]; norm_num, by norm_num [b64]⟩
    (Or.inl ⟨by norm_num, by norm_num⟩)

theorem invHi_eq : invHi = 221069929750889 * (2 : ℚ) ^ (-60 : ℤ) := by
  have h1 := Real.pi_gt_d20
  have h2 := Real.pi_lt_d20
  obtain ⟨p1, p2⟩ := p_bounds
  have := ru_eq (F := f48) (z := Real.pi / 2 ^ 14) (E := -13) (n := 221069929750889) (by rw [f48_emin]; norm_num)
    (by rw [abs_of_pos (by linarith)]; norm_num at p1 ⊢; linarith) (by rw [abs_of_pos (by linarith)]; norm_num at p2 ⊢; linarith)
    (by show |Real.pi / 2 ^ 14 - ((221069929750889 : ℤ) : ℝ) * 2 ^ (-13 - ((47 : ℕ) : ℤ))| < 2 ^ (-13 - ((47 : ℕ) : ℤ) - 1)
        rw [abs_lt]; norm_num; constructor <;> linarith)
  exact this

/-- C83, negation: the first product of the reduction, that is marked as exact, is not: the argument `4294971459` is reduced with an error of more than `2^-22` -/
theorem C83_sincos_std_wrong (c : ℚ) : ∃ (j : ℤ) (t : Val), sincosArg c false (.num 4294971459) = some (j, t) ∧ ¬ SameAngle 4294971459 j (numOf t) (2 ^ (-22 : ℤ)) := by
  have h1 := Real.pi_gt_d20
  have h2 := Real.pi_lt_d20
  have hx : Fin' b64 (.num 4294971459) :=
    ⟨⟨⟨4294971459 * 2 ^ 20, 32, by norm_num [b64], by rw [emin_eq]; norm_num, by rw [emax_eq]; norm_num, by norm_num [b64]⟩, by norm_num⟩, rfl, rfl⟩
  have hrv : rv (.num 4294971459) = 4294971459 := by show ((4294971459 : ℚ) : ℝ) = _; norm_num
  have hX : |rv (.num 4294971459)| ≤ 2 ^ 33 := by rw [hrv]; norm_num
  obtain ⟨k, k1, k2, k3⟩ := k_spec hx hX
  have hk : k = 22399088660921 := by
    rw [hrv] at k2
    have hb : |(4294971459 : ℝ) * (2 ^ 14 / Real.pi) - 22399088660921| ≤ 1 / 16 := by
      rw [show (4294971459 : ℝ) * (2 ^ 14 / Real.pi) - 22399088660921 = (4294971459 * 2 ^ 14 - 22399088660921 * Real.pi) / Real.pi by field_simp,
        abs_div, abs_of_pos Real.pi_pos, div_le_iff₀ Real.pi_pos, abs_le]
      norm_num
      constructor <;> linarith
    have : |((k - 22399088660921 : ℤ) : ℝ)| < 1 := by
      push_cast
      rw [abs_lt]
      rw [abs_le] at hb k2
      constructor <;> linarith
    have h3 : |k - 22399088660921| < 1 := by exact_mod_cast this
    have := Int.abs_lt_one_iff.1 h3
    omega
  subst hk
  obtain ⟨r1, r2, r3, r4⟩ := red_spec hx hX k2 k3
  have hprod : ((22399088660921 : ℤ) : ℝ) * (invHi : ℝ) = 22399088660921 * (221069929750889 * (2 : ℝ) ^ (-60 : ℤ)) := by rw [invHi_eq]; push_cast; norm_num
  have hrc : rv (redCoeff1 22399088660921) = 4503603992592380 * (2 : ℝ) ^ (-20 : ℤ) := by
    rw [r1, hprod, ru_eq (F := b64) (E := 32) (n := 4503603992592380) (by rw [emin_eq]; norm_num) (by norm_num) (by norm_num) (by rw [f_eq]; norm_num [abs_lt]), f_eq]
    push_cast; norm_num
  rw [hrc, hrv] at r3
  obtain ⟨j1, j2, -⟩ := modk_spec false 22399088660921
  have hj : modk false 22399088660921 = 4537 := by decide
  refine ⟨4537, redStd (.num 4294971459) 22399088660921, ?_, ?_⟩
  · unfold sincosArg
    rw [fge_fin rfl rfl, decide_eq_false (show ¬ (2 : ℚ) ^ 33 ≤ numOf (.num 4294971459) by show ¬ (2 : ℚ) ^ 33 ≤ 4294971459; norm_num), k1]
    show some (modk false 22399088660921, _) = _
    rw [hj]
  · rintro ⟨m, hm⟩
    have e : ((numOf (redStd (.num 4294971459) 22399088660921) : ℚ) : ℝ) = rv (redStd (.num 4294971459) 22399088660921) := rfl
    rw [e] at hm
    set t := rv (redStd (.num 4294971459) 22399088660921)
    have hi' := congrArg (Rat.cast : ℚ → ℝ) invHi_eq
    push_cast at hi'
    rw [hi'] at r3
    have hm' : m = 683565938 := by
      rw [abs_le] at r3 hm
      norm_num at r3 hm
      have a1 : ((m - 683565938 : ℤ) : ℝ) * (2 * Real.pi) < 1 := by push_cast; linarith
      have a2 : -1 < ((m - 683565938 : ℤ) : ℝ) * (2 * Real.pi) := by push_cast; linarith
      have a3 : |((m - 683565938 : ℤ) : ℝ)| < 1 := by
        rw [abs_lt]
        constructor <;> nlinarith
      have h3 : |m - 683565938| < 1 := by exact_mod_cast a3
      have := Int.abs_lt_one_iff.1 h3
      omega
    subst hm'
    rw [abs_le] at r3 hm
    norm_num at r3 hm
    linarith

end Verif.Trig
