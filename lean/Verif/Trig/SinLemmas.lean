import Verif.Trig.SinModel
import Verif.Trig.Sincos
import Verif.Elem.Rel
import Verif.Elem.SqrtWrong

/-! # Errors of the standard reduction of the sine and the cosine -/

namespace Verif.Trig

open Verif.Float (Fmt Val)
open Verif.Check
open Verif.Elem

theorem ru_le {F : Fmt} {z : ℝ} {j : ℤ} (h : |z| < (2 : ℝ) ^ (j + 1)) (hj : F.emin ≤ j) : |(roundUnb F .RN z : ℝ) - z| ≤ (2 : ℝ) ^ (j - F.f - 1) := by
  by_cases hz : z = 0
  · subst hz; simp [roundUnb]; exact (r2 _).le
  refine le_trans (ru_error F z) (r2le ?_)
  have := log_ltR (abs_pos.2 hz) h
  unfold lastPlace; omega

theorem mul_r {a b : Val} (j : ℤ) (ha : Fin' b64 a) (hb : Fin' b64 b) (h : |rv a * rv b| < (2 : ℝ) ^ (j + 1)) (h0 : -1022 ≤ j) (h1 : j + 1 ≤ 1023) :
    Fin' b64 (fmul b64 a b) ∧ rv (fmul b64 a b) = roundUnb b64 .RN (rv a * rv b) ∧ |rv (fmul b64 a b) - rv a * rv b| ≤ (2 : ℝ) ^ (j - 53) := by
  obtain ⟨h2, h3⟩ := fmul_val he2 ha hb (le_trans h.le (by rw [emax_eq]; exact r2le h1))
  refine ⟨h2, h3, ?_⟩
  rw [h3]
  have := ru_le (F := b64) h (by rw [emin_eq]; exact h0)
  rw [f_eq] at this
  exact le_trans this (r2le (by push_cast; omega))

theorem add_r {a b : Val} (j : ℤ) (ha : Fin' b64 a) (hb : Fin' b64 b) (h : |rv a + rv b| < (2 : ℝ) ^ (j + 1)) (h0 : -1022 ≤ j) (h1 : j + 1 ≤ 1023) :
    Fin' b64 (fadd b64 a b) ∧ |rv (fadd b64 a b) - (rv a + rv b)| ≤ (2 : ℝ) ^ (j - 53) := by
  have e : ((numOf a + numOf b : ℚ) : ℝ) = rv a + rv b := by unfold rv; push_cast; rfl
  obtain ⟨h2, h3⟩ := fadd_fin he2 ha hb (by rw [e]; exact ru_no_over he2 (le_trans h.le (by rw [emax_eq]; exact r2le h1)))
  refine ⟨h2, ?_⟩
  have h4 : rv (fadd b64 a b) = roundUnb b64 .RN (rv a + rv b) := by unfold rv at e ⊢; rw [h3, e]
  rw [h4]
  have := ru_le (F := b64) h (by rw [emin_eq]; exact h0)
  rw [f_eq] at this
  exact le_trans this (r2le (by push_cast; omega))

theorem sub_r {a b : Val} (j : ℤ) (ha : Fin' b64 a) (hb : Fin' b64 b) (h : |rv a - rv b| < (2 : ℝ) ^ (j + 1)) (h0 : -1022 ≤ j) (h1 : j + 1 ≤ 1023) :
    Fin' b64 (fsub b64 a b) ∧ |rv (fsub b64 a b) - (rv a - rv b)| ≤ (2 : ℝ) ^ (j - 53) := by
  obtain ⟨h2, h3⟩ := rv_neg hb
  have := add_r j ha h2 (by rw [h3]; exact h) h0 h1
  rw [h3] at this
  exact this

/-! ## The constants -/

theorem c_bounds : (5215 : ℝ) < 2 ^ 14 / Real.pi ∧ (2 : ℝ) ^ 14 / Real.pi < 5216 := by
  have h1 := Real.pi_gt_d6
  have h2 := Real.pi_lt_d6
  constructor
  · rw [lt_div_iff₀ Real.pi_pos]; norm_num; linarith
  · rw [div_lt_iff₀ Real.pi_pos]; norm_num; linarith

theorem p_bounds : (19174 / 10 ^ 8 : ℝ) < Real.pi / 2 ^ 14 ∧ Real.pi / 2 ^ 14 < 19175 / 10 ^ 8 := by
  have h1 := Real.pi_gt_d6
  have h2 := Real.pi_lt_d6
  constructor
  · rw [lt_div_iff₀ (by norm_num)]; norm_num; linarith
  · rw [div_lt_iff₀ (by norm_num)]; norm_num; linarith

theorem f48_emin : f48.emin = -1022 := by decide

theorem f48_unb {z : ℝ} : Unbounded b64 (roundUnb f48 .RN z) := by
  obtain ⟨m, E, h1, h2, h3⟩ := roundUnb_unb f48 .RN z
  rw [h3]
  rw [f48_emin] at h2
  have h1' : |m| < 2 ^ 48 := h1
  exact unb (by norm_num at h1' ⊢; omega) (by show (-1074 : ℤ) ≤ E - ((47 : ℕ) : ℤ); push_cast; omega)

theorem cst_rv {q : ℚ} (hu : Unbounded b64 q) (ho : |(q : ℝ)| ≤ 2 ^ 13) : Fin' b64 (cst b64 (q : ℝ)) ∧ rv (cst b64 (q : ℝ)) = q := by
  have ho' : |q| ≤ 2 ^ 13 := by rw [← Rat.cast_abs] at ho; exact_mod_cast ho
  obtain ⟨h1, h2⟩ := cst_exact hu (le_trans ho' (le_trans (by
    have := Float.zle (show (13 : ℤ) ≤ 1023 by norm_num)
    refine le_trans ?_ this
    norm_num) omega_big))
  exact ⟨h1, by unfold rv; rw [h2]⟩

/-- the four constants -/
structure Consts : Prop where
  hi : Fin' b64 (cst b64 (fracHi : ℝ)) ∧ rv (cst b64 (fracHi : ℝ)) = fracHi
  lo : Fin' b64 (cst b64 (fracLo : ℝ)) ∧ rv (cst b64 (fracLo : ℝ)) = fracLo
  ihi : Fin' b64 (cst b64 (invHi : ℝ)) ∧ rv (cst b64 (invHi : ℝ)) = invHi
  ilo : Fin' b64 (cst b64 (invLo : ℝ)) ∧ rv (cst b64 (invLo : ℝ)) = invLo
  ehi : |(fracHi : ℝ) - 2 ^ 14 / Real.pi| ≤ 2 ^ (-36 : ℤ)
  elo : |(fracLo : ℝ) - (2 ^ 14 / Real.pi - fracHi)| ≤ 2 ^ (-89 : ℤ)
  eihi : |(invHi : ℝ) - Real.pi / 2 ^ 14| ≤ 2 ^ (-61 : ℤ)
  eilo : |(invLo : ℝ) - (Real.pi / 2 ^ 14 - invHi)| ≤ 2 ^ (-114 : ℤ)

theorem consts : Consts := by
  obtain ⟨c1, c2⟩ := c_bounds
  obtain ⟨p1, p2⟩ := p_bounds
  have ehi : |(fracHi : ℝ) - 2 ^ 14 / Real.pi| ≤ 2 ^ (-36 : ℤ) := by
    have := ru_le (F := f48) (z := 2 ^ 14 / Real.pi) (j := 12) (by rw [abs_of_pos (by linarith)]; norm_num; linarith) (by rw [f48_emin]; norm_num)
    exact this
  have eihi : |(invHi : ℝ) - Real.pi / 2 ^ 14| ≤ 2 ^ (-61 : ℤ) := by
    have := ru_le (F := f48) (z := Real.pi / 2 ^ 14) (j := -13) (by rw [abs_of_pos (by linarith)]; norm_num at p2 ⊢; linarith) (by rw [f48_emin]; norm_num)
    exact this
  have elo : |(fracLo : ℝ) - (2 ^ 14 / Real.pi - fracHi)| ≤ 2 ^ (-89 : ℤ) := by
    have := ru_le (F := b64) (z := 2 ^ 14 / Real.pi - fracHi) (j := -36) (by rw [abs_sub_comm]; exact lt_of_le_of_lt ehi (r2lt (by norm_num))) (by rw [emin_eq]; norm_num)
    exact this
  have eilo : |(invLo : ℝ) - (Real.pi / 2 ^ 14 - invHi)| ≤ 2 ^ (-114 : ℤ) := by
    have := ru_le (F := b64) (z := Real.pi / 2 ^ 14 - invHi) (j := -61) (by rw [abs_sub_comm]; exact lt_of_le_of_lt eihi (r2lt (by norm_num))) (by rw [emin_eq]; norm_num)
    exact this
  have b1 := abs_le.1 ehi
  have b2 := abs_le.1 eihi
  have b3 := abs_le.1 elo
  have b4 := abs_le.1 eilo
  norm_num at b1 b2 b3 b4 p1 p2
  refine ⟨cst_rv f48_unb ?_, cst_rv (roundUnb_unb _ _ _) ?_, cst_rv f48_unb ?_, cst_rv (roundUnb_unb _ _ _) ?_, ehi, elo, eihi, eilo⟩
  · rw [abs_le]; constructor <;> norm_num [fracHi] at * <;> linarith
  · rw [abs_le]; constructor <;> norm_num [fracLo] at * <;> linarith
  · rw [abs_le]; constructor <;> norm_num [invHi] at * <;> linarith
  · rw [abs_le]; constructor <;> norm_num [invLo] at * <;> linarith

theorem ofInt_rv {k : ℤ} (hk : |k| ≤ 2 ^ 53) : Fin' b64 (ofInt k) ∧ rv (ofInt k) = k := by
  have hu : Unbounded b64 (k : ℚ) := by simpa using unb (m := k) (q := 0) hk (by norm_num)
  have hq : |(k : ℚ)| ≤ 2 ^ 53 := by exact_mod_cast hk
  obtain ⟨h1, h2⟩ := cst_exact hu (le_trans hq (le_trans (by
    have := Float.zle (show (53 : ℤ) ≤ 1023 by norm_num)
    refine le_trans ?_ this
    norm_num) omega_big))
  refine ⟨h1, ?_⟩
  unfold cst at h2
  unfold rv ofInt
  rw [h2]; simp

/-- the multiple of `pi / 2^14` that is subtracted -/
theorem k_spec {x : Val} (hx : Fin' b64 x) (h : |rv x| ≤ 2 ^ 33) : ∃ k : ℤ, kStd x = some k ∧ |(k : ℝ) - rv x * (2 ^ 14 / Real.pi)| ≤ 1 / 2 + 1 / 64 ∧ |(k : ℝ)| ≤ 2 ^ 46 := by
  have K := consts
  obtain ⟨c1, c2⟩ := c_bounds
  have e1 := K.ehi
  have e2 := K.elo
  obtain ⟨f1, v1⟩ := K.hi
  obtain ⟨f2, v2⟩ := K.lo
  set X := rv x
  set C := (2 : ℝ) ^ 14 / Real.pi
  set hi : ℝ := (fracHi : ℝ)
  set lo : ℝ := (fracLo : ℝ)
  have hhi : |hi| ≤ 5217 := by rw [abs_le] at e1 ⊢; norm_num at e1 ⊢; constructor <;> linarith
  have hlo : |lo| ≤ 2 ^ (-35 : ℤ) := by rw [abs_le] at e1 e2 ⊢; norm_num at e1 e2 ⊢; constructor <;> linarith
  have m1 : |X * hi| ≤ 2 ^ 33 * 5217 := by rw [abs_mul]; exact mul_le_mul h hhi (abs_nonneg _) (by norm_num)
  have m2 : |X * lo| ≤ 2 ^ 33 * 2 ^ (-35 : ℤ) := by rw [abs_mul]; exact mul_le_mul h hlo (abs_nonneg _) (by norm_num)
  obtain ⟨a1, -, a2⟩ := mul_r 45 hx f1 (by rw [v1]; refine lt_of_le_of_lt m1 ?_; norm_num) (by norm_num) (by norm_num)
  obtain ⟨b1, -, b2⟩ := mul_r (-2) hx f2 (by rw [v2]; refine lt_of_le_of_lt m2 ?_; norm_num) (by norm_num) (by norm_num)
  rw [v1] at a2
  rw [v2] at b2
  have hs : |rv (fmul b64 x (cst b64 (fracHi : ℝ))) + rv (fmul b64 x (cst b64 (fracLo : ℝ)))| ≤ 2 ^ 33 * 5218 := by
    rw [abs_le] at m1 m2 a2 b2 ⊢
    norm_num at m1 m2 a2 b2 ⊢
    constructor <;> linarith
  obtain ⟨w1, w2⟩ := add_r 45 a1 b1 (lt_of_le_of_lt hs (by norm_num)) (by norm_num) (by norm_num)
  have hX : |X * (hi + lo - C)| ≤ 2 ^ 33 * 2 ^ (-89 : ℤ) := by
    rw [abs_mul]
    refine mul_le_mul h ?_ (abs_nonneg _) (by norm_num)
    rw [show hi + lo - C = lo - (C - hi) by ring]; exact e2
  have hw : |rv (vxPi x) - X * C| ≤ 1 / 64 := by
    unfold vxPi
    rw [abs_le] at a2 b2 w2 hX ⊢
    norm_num at a2 b2 w2 hX ⊢
    constructor <;> linarith
  have hwabs : |rv (vxPi x)| ≤ 2 ^ 33 * 5219 := by
    unfold vxPi
    rw [abs_le] at w2 hs ⊢
    norm_num at w2 hs ⊢
    constructor <;> linarith
  have hwq : |numOf (vxPi x)| ≤ 2 ^ 62 := by
    have : |numOf (vxPi x)| ≤ 2 ^ 33 * 5219 := by
      unfold rv at hwabs
      rw [← Rat.cast_abs] at hwabs
      exact_mod_cast hwabs
    refine le_trans this (by norm_num)
  obtain ⟨k, k1, k2, -, -⟩ := near_split (a := vxPi x) w1 hwq
  have k3 : |rv (vxPi x) - k| ≤ 1 / 2 := by
    have : |((numOf (vxPi x) - k : ℚ) : ℝ)| ≤ ((1 / 2 : ℚ) : ℝ) := by rw [← Rat.cast_abs]; exact_mod_cast k2
    push_cast at this
    exact this
  refine ⟨k, k1, ?_, ?_⟩
  · rw [abs_le] at hw k3 ⊢; constructor <;> linarith
  · rw [abs_le] at hwabs k3 ⊢
    norm_num at hwabs k3 ⊢
    constructor <;> linarith

/-- the reduced argument, from the rounded product -/
theorem red_spec {x : Val} (hx : Fin' b64 x) (h : |rv x| ≤ 2 ^ 33) {k : ℤ} (hk : |(k : ℝ) - rv x * (2 ^ 14 / Real.pi)| ≤ 1 / 2 + 1 / 64) (hk46 : |(k : ℝ)| ≤ 2 ^ 46) :
    rv (redCoeff1 k) = roundUnb b64 .RN (k * invHi) ∧ Fin' b64 (redStd x k) ∧
    |rv (redStd x k) - (rv x - rv (redCoeff1 k) - k * (Real.pi / 2 ^ 14 - invHi))| ≤ 2 ^ (-62 : ℤ) ∧ |(k : ℝ) * invHi - rv x| ≤ 2 ^ (-12 : ℤ) := by
  have K := consts
  obtain ⟨p1, p2⟩ := p_bounds
  have e1 := K.eihi
  have e2 := K.eilo
  obtain ⟨f1, v1⟩ := K.ihi
  obtain ⟨f2, v2⟩ := K.ilo
  obtain ⟨g1, g2⟩ := ofInt_rv (k := k) (by
    have : |(k : ℝ)| ≤ 2 ^ 53 := le_trans hk46 (by norm_num)
    exact_mod_cast this)
  obtain ⟨n1, n2⟩ := rv_neg g1
  rw [g2] at n2
  have hCP : (2 : ℝ) ^ 14 / Real.pi * (Real.pi / 2 ^ 14) = 1 := by have := Real.pi_pos.ne'; field_simp
  set X := rv x
  set P := Real.pi / 2 ^ 14
  set ih : ℝ := (invHi : ℝ)
  set il : ℝ := (invLo : ℝ)
  have hD : |(k : ℝ) * P - X| ≤ 33 / 64 * P := by
    have : (k : ℝ) * P - X = ((k : ℝ) - X * (2 ^ 14 / Real.pi)) * P := by linear_combination X * hCP
    rw [this, abs_mul, abs_of_pos (show 0 < P by norm_num at p1; linarith)]
    refine mul_le_mul_of_nonneg_right (le_trans hk (by norm_num)) (by norm_num at p1; linarith)
  have hki : |(k : ℝ) * (ih - P)| ≤ 2 ^ 46 * 2 ^ (-61 : ℤ) := by rw [abs_mul]; exact mul_le_mul hk46 e1 (abs_nonneg _) (by norm_num)
  have hkl : |(k : ℝ) * (il - (P - ih))| ≤ 2 ^ 46 * 2 ^ (-114 : ℤ) := by rw [abs_mul]; exact mul_le_mul hk46 e2 (abs_nonneg _) (by norm_num)
  -- the products
  have m1 : |(k : ℝ) * ih| ≤ 2 ^ 33 + 1 := by
    rw [abs_le] at hD hki h ⊢
    norm_num at hD hki h p2 ⊢
    constructor <;> linarith
  obtain ⟨r1, r1', r2'⟩ := mul_r 33 g1 f1 (by rw [v1, g2]; refine lt_of_le_of_lt m1 ?_; norm_num) (by norm_num) (by norm_num)
  rw [v1, g2] at r2' r1'
  have m2 : |-(k : ℝ) * il| < 2 ^ (-14 : ℤ) := by
    rw [abs_lt]
    rw [abs_le] at hki hkl
    norm_num at hki hkl ⊢
    constructor <;> linarith
  obtain ⟨s1, -, s2⟩ := mul_r (-15) n1 f2 (by rw [v2, n2]; exact m2) (by norm_num) (by norm_num)
  rw [v2, n2] at s2
  change Fin' b64 (redCoeff1 k) at r1
  change rv (redCoeff1 k) = _ at r1'
  change |rv (redCoeff1 k) - _| ≤ _ at r2'
  change Fin' b64 (redCoeff2 k) at s1
  change |rv (redCoeff2 k) - _| ≤ _ at s2
  have hkX : |(k : ℝ) * ih - X| ≤ 2 ^ (-12 : ℤ) := by
    rw [abs_le] at hD hki ⊢
    norm_num at hD hki p2 ⊢
    constructor <;> linarith
  -- the subtraction
  have b1 : |X - rv (redCoeff1 k)| < 2 ^ (-12 : ℤ) := by
    rw [abs_lt]
    rw [abs_le] at hD hki r2'
    norm_num at hD hki r2' p2 ⊢
    constructor <;> linarith
  obtain ⟨q1, q2⟩ := sub_r (-13) hx r1 (by rw [show (-13 + 1 : ℤ) = -12 by norm_num]; exact b1) (by norm_num) (by norm_num)
  set pre := fsub b64 x (redCoeff1 k) with hpre
  have b2 : |rv pre + rv (redCoeff2 k)| < 2 ^ (-11 : ℤ) := by
    rw [abs_lt] at b1 m2 ⊢
    rw [abs_le] at q2 s2
    norm_num at b1 m2 q2 s2 ⊢
    constructor <;> linarith
  obtain ⟨t1, t2⟩ := add_r (-12) q1 s1 (by rw [show (-12 + 1 : ℤ) = -11 by norm_num]; exact b2) (by norm_num) (by norm_num)
  set s := fadd b64 pre (redCoeff2 k) with hs
  have b3 : |rv s - rv pre| < 2 ^ (-13 : ℤ) := by
    rw [abs_lt] at m2 ⊢
    rw [abs_le] at t2 s2
    norm_num at m2 t2 s2 ⊢
    constructor <;> linarith
  obtain ⟨z1, z2⟩ := sub_r (-14) t1 q1 (by rw [show (-14 + 1 : ℤ) = -13 by norm_num]; exact b3) (by norm_num) (by norm_num)
  set z := fsub b64 s pre with hz
  have b4 : |rv (redCoeff2 k) - rv z| < 2 ^ (-64 : ℤ) := by
    rw [abs_lt]
    rw [abs_le] at t2 z2
    norm_num at t2 z2 ⊢
    constructor <;> linarith
  obtain ⟨u1, u2⟩ := sub_r (-65) s1 z1 (by rw [show (-65 + 1 : ℤ) = -64 by norm_num]; exact b4) (by norm_num) (by norm_num)
  set t := fsub b64 (redCoeff2 k) z with ht
  have b5 : |rv s + rv t| < 2 ^ (-10 : ℤ) := by
    rw [abs_lt] at b2 b4 ⊢
    rw [abs_le] at t2 u2
    norm_num at b2 b4 t2 u2 ⊢
    constructor <;> linarith
  obtain ⟨y1, y2⟩ := add_r (-11) t1 u1 (by rw [show (-11 + 1 : ℤ) = -10 by norm_num]; exact b5) (by norm_num) (by norm_num)
  refine ⟨r1', y1, ?_, hkX⟩
  show |rv (fadd b64 s t) - _| ≤ _
  rw [abs_le] at y2 u2 z2 t2 q2 s2 hkl ⊢
  norm_num at y2 u2 z2 t2 q2 s2 hkl ⊢
  constructor <;> linarith

end Verif.Trig
