import Verif.Elem.Spec
import Verif.Elem.ExpRed

/-! # The generated exponential (property C77) -/

namespace Verif.Elem

open Verif.Float (Fmt Val)
open Verif.Check

theorem isReal_iff {F : Fmt} {a : Val} {x : ℝ} : IsReal F a x ↔ Fin' F a ∧ (numOf a : ℝ) = x := by
  unfold IsReal Fin'
  cases a <;> simp [value, isNaN, isInf, numOf, Fmt.Datum, ← EReal.coe_zero, eq_comm]

theorem cst_int {F : Fmt} (he : 2 ≤ F.e) {n : ℤ} (h : |n| ≤ 2 ^ F.e) (hef : F.e ≤ F.f) (heo : (F.e : ℤ) ≤ F.emax) : Fin' F (cst F (n : ℝ)) ∧ numOf (cst F (n : ℝ)) = n := by
  have hu : Unbounded F (n : ℚ) := unb_int he (le_trans h (pow_le_pow_right₀ (by norm_num) (by omega)))
  have hr : roundUnb F .RN (n : ℝ) = n := by have := ru_exact hu; push_cast at this; exact this
  have := cst_fin he (F := F) (x := (n : ℝ)) ?_
  · rwa [hr] at this
  · rw [hr]
    refine abs_le_omega_of he (le_trans ?_ (Float.zle heo))
    rw [Float.znat]; exact_mod_cast h

theorem bounds_small {F : Fmt} (h1 : 2 * F.e + 4 ≤ F.f) (h2 : 2 * (F.f : ℤ) + 2 ≤ F.emax) : |expOver F| ≤ 2 ^ F.e ∧ |expUnder F| ≤ 2 ^ F.e := by
  have he7 := fmt_big h1 h2
  obtain ⟨l1, l3⟩ := l2
  obtain ⟨o1, o2⟩ := over_bounds (F := F)
  obtain ⟨u1, u2⟩ := under_bounds (F := F)
  have hemax : F.emax = 2 ^ (F.e - 1) - 1 := rfl
  have hemin : F.emin = 1 - F.emax := rfl
  have hpe : (2 : ℤ) * 2 ^ (F.e - 1) = 2 ^ F.e := by rw [← pow_succ']; congr 1; omega
  have hem : (F.emax : ℝ) + F.f + 3 ≤ ((2 ^ F.e : ℤ) : ℝ) := by
    have : F.emax + F.f + 3 ≤ 2 ^ F.e := by omega
    exact_mod_cast this
  have hem0 : (1 : ℝ) ≤ F.emax := by have := emax_pos (F := F) (by omega); exact_mod_cast this
  have hf0 : (0 : ℝ) ≤ F.f := Nat.cast_nonneg _
  have heminR : (F.emin : ℝ) = 1 - F.emax := by rw [hemin]; push_cast; ring
  constructor
  · have : |(expOver F : ℝ)| ≤ ((2 ^ F.e : ℤ) : ℝ) := by rw [abs_le]; constructor <;> nlinarith
    exact_mod_cast this
  · have : |(expUnder F : ℝ)| ≤ ((2 ^ F.e : ℤ) : ℝ) := by rw [abs_le]; constructor <;> nlinarith
    exact_mod_cast this

theorem exp_mul_log2 (k : ℤ) : Real.exp (k * Real.log 2) = (2 : ℝ) ^ k := by
  rw [← log_pow2, Real.exp_log (r2 k)]

theorem exp_split (v : ℝ) (k : ℤ) : Real.exp v = Real.exp (v - k * Real.log 2) * (2 : ℝ) ^ k := by
  rw [← exp_mul_log2, ← Real.exp_add]; congr 1; ring

/-- the exponential at two close points -/
theorem exp_close {r r' d : ℝ} (h : |r - r'| ≤ d) (hd : d ≤ 1 / 100) : |Real.exp r' - Real.exp r| ≤ Real.exp r * (d * 1.01) := by
  have h1 : Real.exp r' = Real.exp r * Real.exp (r' - r) := by rw [← Real.exp_add]; congr 1; ring
  have hd' : |r' - r| ≤ d := by rwa [abs_sub_comm]
  have h2 := Real.abs_exp_sub_one_sub_id_le (x := r' - r) (by linarith)
  have h3 : |Real.exp (r' - r) - 1| ≤ d * 1.01 := by
    have t := abs_add_le (Real.exp (r' - r) - 1 - (r' - r)) (r' - r)
    rw [sub_add_cancel] at t
    have : (r' - r) ^ 2 ≤ d * (1 / 100) := by
      rw [← sq_abs]; nlinarith [abs_nonneg (r' - r)]
    linarith
  rw [h1, show Real.exp r * Real.exp (r' - r) - Real.exp r = Real.exp r * (Real.exp (r' - r) - 1) by ring, abs_mul, abs_of_pos (Real.exp_pos r)]
  exact mul_le_mul_of_nonneg_left h3 (Real.exp_pos r).le

/-- an exponential close to zero -/
theorem faithful_zero {F : Fmt} (he : 2 ≤ F.e) {x : ℝ} (h0 : 0 ≤ x) (h : x < (2 : ℝ) ^ (F.emin - F.f)) {r : Val} (hr : value r = some (0 : EReal)) : Faithful F x r := by
  refine faithful_num he (v := 0) (Or.inl ⟨by push_cast; exact h0, fun w hw hwx => ?_⟩) (by rw [hr]; simp)
  by_contra hc
  obtain ⟨n, hn⟩ := unb_min_grid hw
  have := grid_gap (a := 0) (b := n) (q := F.emin - F.f) (v := 0) (by simp) hn (not_le.1 hc)
  have : (2 : ℝ) ^ (F.emin - F.f) ≤ (w : ℝ) := by rw [r2cast]; have := sub_zero w ▸ this; exact_mod_cast this
  linarith

theorem exp_bounds_small {r : ℝ} (h : |r| ≤ 0.36) : (0.6 : ℝ) ≤ Real.exp r ∧ Real.exp r ≤ 1.5 := by
  have h2 := Real.abs_exp_sub_one_sub_id_le (x := r) (by norm_num at h ⊢; linarith)
  obtain ⟨a, b⟩ := abs_le.1 h
  obtain ⟨c, d⟩ := abs_le.1 h2
  constructor
  · have := Real.add_one_le_exp r; norm_num at a ⊢; linarith
  · have : r ^ 2 ≤ 0.36 * 0.36 := by rw [← sq_abs]; nlinarith [abs_nonneg r]
    norm_num at *; linarith

/-- The value of the generated exponential at a number inside the bounds. -/
theorem exp_std {F : Fmt} (h1 : 2 * F.e + 4 ≤ F.f) (h2 : 2 * (F.f : ℤ) + 2 ≤ F.emax) (E : Val → Val → Val) {a : Val} (ha : Fin' F a)
    (hlo : (expUnder F : ℚ) ≤ numOf a) (hhi : numOf a ≤ expOver F) :
    ∃ (k : ℤ) (hi lo : Val), Fin' F hi ∧ Fin' F lo ∧
      |((numOf hi : ℝ) + numOf lo) - (numOf a - k * Real.log 2)| ≤ (2 : ℝ) ^ (2 * ((F.e : ℤ) - F.f)) ∧
      |(numOf a : ℝ) - k * Real.log 2| ≤ Real.log 2 * (1 / 2 + (2 : ℝ) ^ ((F.e : ℤ) - F.f)) ∧
      |(numOf hi : ℝ) + numOf lo| ≤ Real.log 2 / 2 + (2 : ℝ) ^ ((F.e : ℤ) - F.f) ∧
      |(numOf lo : ℝ)| ≤ (2 : ℝ) ^ (2 * (F.e : ℤ) + 1 - F.f) ∧
      ∀ p, F.Finite p → 1 / 2 ≤ p → p ≤ 2 → E hi lo = .num p → expModel F E a = rnd F false ((p * (2 : ℚ) ^ k : ℚ) : ℝ) := by
  have he7 := fmt_big h1 h2
  have he : 2 ≤ F.e := by omega
  obtain ⟨b1, b2⟩ := bounds_small h1 h2
  have co := cst_int he b1 (by omega) (by omega)
  have cu := cst_int he b2 (by omega) (by omega)
  have R := reduction h1 h2 ha hlo hhi
  simp only at R
  obtain ⟨r1, r2', r3, r4, r5, r6, r7, r8, r9, r10⟩ := R
  refine ⟨_, _, _, r5, r6, r9, r8, ?_, r10, ?_⟩
  · obtain ⟨l1, l3⟩ := l2
    have t := abs_add_le (((numOf (fsub F a (fmul F (fnearest (fmul F a (cst F (invLog2 F)))) (cst F (log2Hi F)))) : ℝ) +
      numOf (fmul F (fneg (fnearest (fmul F a (cst F (invLog2 F))))) (cst F (log2Lo F)))) -
        (numOf a - nearestZ (fmul F a (cst F (invLog2 F))) * Real.log 2)) (numOf a - nearestZ (fmul F a (cst F (invLog2 F))) * Real.log 2)
    rw [sub_add_cancel] at t
    have hs : (2 : ℝ) ^ (2 * ((F.e : ℤ) - F.f)) ≤ (2 : ℝ) ^ ((F.e : ℤ) - F.f) * (1 / 4) := by
      rw [two_mul, r2add]
      refine mul_le_mul_of_nonneg_left ?_ (r2 _).le
      have : (2 : ℝ) ^ ((F.e : ℤ) - F.f) ≤ (2 : ℝ) ^ (-2 : ℤ) := r2le (by omega)
      norm_num at this; linarith
    have hp := r2 ((F.e : ℤ) - F.f)
    nlinarith
  · intro p hp hp1 hp2 hE
    unfold expModel
    have n1 : isInfOrNaN a = false := by simp [isInfOrNaN, ha.2.1, ha.2.2]
    have n2 : fgt a (cst F ((expOver F : ℤ) : ℝ)) = false := by
      unfold fgt; rw [flt_fin co.1 ha, co.2]; simpa using hhi
    have n3 : flt a (cst F ((expUnder F : ℤ) : ℝ)) = false := by
      rw [flt_fin ha cu.1, cu.2]; simpa using hlo
    rw [n1, n2, n3]
    simp only [Bool.false_eq_true, if_false]
    unfold expStd
    simp only
    rw [hE]
    exact expResult_eq he (by omega) (by omega) h2 r1 r2' r3 (by omega) hp hp1 hp2

set_option maxHeartbeats 2000000 in
/-- C77.  For every binary format as large as binary32 in proportion, if the evaluation of the polynomial returns a number at less than
31/32 of a unit in the last place from the exponential of the reduced argument (and on the same side of `1`), then the generated
exponential is faithful for EVERY finite input: argument reduction, reconstruction, subnormal results, overflow and underflow included. -/
theorem C77_exp_faithful (F : Fmt) (h1 : 2 * F.e + 7 ≤ F.f) (h2 : 2 * (F.f : ℤ) + 2 ≤ F.emax) (E : Val → Val → Val)
    (hE : ∀ a b x y, IsReal F a x → IsReal F b y → |x + y| ≤ Real.log 2 / 2 + (2 : ℝ) ^ ((F.e : ℤ) - F.f) → |y| ≤ 1 / 50 →
      ∃ p : ℚ, F.Finite p ∧ E a b = .num p ∧
        (Real.exp (x + y) < 1 → p ≤ 1 ∧ |(p : ℝ) - Real.exp (x + y)| ≤ 31 / 32 * (2 : ℝ) ^ (-(F.f : ℤ) - 1)) ∧
        (1 ≤ Real.exp (x + y) → 1 ≤ p ∧ |(p : ℝ) - Real.exp (x + y)| ≤ 31 / 32 * (2 : ℝ) ^ (-(F.f : ℤ)))) :
    ∀ a x, IsReal F a x → Faithful F (Real.exp x) (expModel F E a) := by
  intro a x hax
  obtain ⟨ha, rfl⟩ := isReal_iff.1 hax
  have h1' : 2 * F.e + 4 ≤ F.f := by omega
  have he7 := fmt_big h1' h2
  have he : 2 ≤ F.e := by omega
  obtain ⟨b1, b2⟩ := bounds_small h1' h2
  have co := cst_int he b1 (by omega) (by omega)
  have cu := cst_int he b2 (by omega) (by omega)
  have n1 : isInfOrNaN a = false := by simp [isInfOrNaN, ha.2.1, ha.2.2]
  by_cases ho : (expOver F : ℚ) < numOf a
  · have n2 : fgt a (cst F ((expOver F : ℤ) : ℝ)) = true := by
      unfold fgt; rw [flt_fin co.1 ha, co.2]; simpa using ho
    have : expModel F E a = .plusInf := by unfold expModel; simp [n1, n2]
    rw [this]
    apply faithful_inf he
    have h3 : ((Float.omega F : ℚ) : ℝ) < (2 : ℝ) ^ (F.emax + 1) := by rw [r2cast]; exact_mod_cast omega_lt he
    refine lt_trans h3 ?_
    rw [← exp_mul_log2, Real.exp_lt_exp]
    have h4 : ((expOver F : ℤ) : ℝ) < (numOf a : ℝ) := by exact_mod_cast ho
    have := (over_bounds (F := F)).1
    push_cast
    linarith
  by_cases hu : numOf a < (expUnder F : ℚ)
  · have n2 : fgt a (cst F ((expOver F : ℤ) : ℝ)) = false := by
      unfold fgt; rw [flt_fin co.1 ha, co.2]; simpa using ho
    have n3 : flt a (cst F ((expUnder F : ℤ) : ℝ)) = true := by
      rw [flt_fin ha cu.1, cu.2]; simpa using hu
    have : expModel F E a = .plusZero := by unfold expModel; simp [n1, n2, n3]
    rw [this]
    refine faithful_zero he (Real.exp_pos _).le ?_ rfl
    rw [← exp_mul_log2, Real.exp_lt_exp]
    have h4 : (numOf a : ℝ) < ((expUnder F : ℤ) : ℝ) := by exact_mod_cast hu
    have := (under_bounds (F := F)).1
    push_cast
    linarith
  obtain ⟨k, hi, lo, fhi, flo, d1, d2, d3, d4, hres⟩ := exp_std h1' h2 E ha (not_lt.1 hu) (not_lt.1 ho)
  obtain ⟨p, hp, hEp, c1, c2⟩ := hE hi lo _ _ (isReal_iff.2 ⟨fhi, rfl⟩) (isReal_iff.2 ⟨flo, rfl⟩) d3 (by
    have : (2 : ℝ) ^ (2 * (F.e : ℤ) + 1 - F.f) ≤ (2 : ℝ) ^ (-6 : ℤ) := r2le (by omega)
    norm_num at this; linarith)
  set r := (numOf hi : ℝ) + numOf lo with hr
  set r' := (numOf a : ℝ) - k * Real.log 2 with hr'
  obtain ⟨l1, l3⟩ := l2
  have hsm : (2 : ℝ) ^ ((F.e : ℤ) - F.f) ≤ 1 / 1000 := by
    have : (2 : ℝ) ^ ((F.e : ℤ) - F.f) ≤ (2 : ℝ) ^ (-10 : ℤ) := r2le (by omega)
    norm_num at this; linarith
  set ρ := (2 : ℝ) ^ (-(F.f : ℤ)) with hρ
  have hρ0 : 0 < ρ := r2 _
  have hρ1 : (2 : ℝ) ^ (-(F.f : ℤ) - 1) = ρ / 2 := by
    rw [hρ, show -(F.f : ℤ) = 1 + (-(F.f : ℤ) - 1) by ring, r2add, zpow_one]
    rw [show (1 : ℤ) + (-(F.f : ℤ) - 1) - 1 = -(F.f : ℤ) - 1 by ring]; ring
  have hρs : ρ ≤ 1 / 1000 := by
    have : ρ ≤ (2 : ℝ) ^ (-10 : ℤ) := r2le (by omega)
    norm_num at this; linarith
  have hδ : (2 : ℝ) ^ (2 * ((F.e : ℤ) - F.f)) ≤ ρ / 128 := by
    have a1 : (2 : ℝ) ^ (2 * ((F.e : ℤ) - F.f)) ≤ (2 : ℝ) ^ (-(F.f : ℤ) + -7) := r2le (by omega)
    rw [r2add, ← hρ] at a1
    norm_num at a1; linarith
  rw [hρ1] at c1
  have hcl := exp_close (le_trans d1 hδ) (by linarith)
  have hrb : |r| ≤ 0.36 := by
    norm_num; linarith
  obtain ⟨eb1, eb2⟩ := exp_bounds_small hrb
  have hrb' : |r'| ≤ 0.36 := by
    have : Real.log 2 * (1 / 2 + (2 : ℝ) ^ ((F.e : ℤ) - F.f)) ≤ 0.6931471808 * (1 / 2 + 1 / 1000) :=
      mul_le_mul l3.le (by linarith) (by have := r2 ((F.e : ℤ) - F.f); linarith) (by norm_num)
    norm_num at this ⊢; linarith
  obtain ⟨eb3, eb4⟩ := exp_bounds_small hrb'
  set e := Real.exp r with he_
  set e' := Real.exp r' with he'_
  norm_num at eb1 eb2 eb3 eb4 hcl
  obtain ⟨hc1, hc2⟩ := abs_le.1 hcl
  have hpu := ((finite_iff he).1 hp).1
  -- the two numbers next to one
  have hone : Unbounded F 1 := by simpa using unb_pow (F := F) (k := 0) (by have := emax_pos he; unfold Fmt.emin; omega)
  have gap_up : 1 < p → (1 : ℝ) + ρ ≤ p := by
    intro h
    have := unb_gap hone hpu (E := 0) (by simp) h
    have h3 : ((2 : ℝ) ^ ((0 : ℤ) - F.f)) ≤ (p : ℝ) - 1 := by rw [r2cast]; exact_mod_cast this
    rw [zero_sub, ← hρ] at h3; linarith
  have gap_dn : 1 / 2 ≤ p → p < 1 → (p : ℝ) ≤ 1 - ρ / 2 := by
    intro h0 h
    have := unb_gap hpu hone (E := -1) (by norm_num; linarith) h
    have h3 : ((2 : ℝ) ^ ((-1 : ℤ) - F.f)) ≤ 1 - (p : ℝ) := by rw [r2cast]; exact_mod_cast this
    rw [show (-1 : ℤ) - F.f = -(F.f : ℤ) - 1 by ring, hρ1] at h3; linarith
  have main : (1 / 2 : ℝ) ≤ p ∧ (p : ℝ) < 2 ∧ (|(p : ℝ) - e'| < ρ / 2 ∨ (1 ≤ (p : ℝ) ∧ 1 ≤ e' ∧ |(p : ℝ) - e'| < ρ)) := by
    rcases lt_or_ge e 1 with hlt | hge
    · obtain ⟨p1, p2⟩ := c1 hlt
      obtain ⟨q1, q2⟩ := abs_le.1 p2
      refine ⟨by linarith, by linarith, Or.inl ?_⟩
      rw [abs_lt]; constructor <;> nlinarith
    · obtain ⟨p1, p2⟩ := c2 hge
      obtain ⟨q1, q2⟩ := abs_le.1 p2
      have p1r : (1 : ℝ) ≤ p := by exact_mod_cast p1
      refine ⟨by linarith, by linarith, ?_⟩
      rcases le_or_gt 1 e' with h | h
      · right
        refine ⟨p1r, h, ?_⟩
        rw [abs_lt]; constructor <;> nlinarith
      · left
        have : p = 1 := by
          by_contra hne
          have := gap_up (lt_of_le_of_ne p1 (Ne.symm hne))
          nlinarith
        rw [this]
        push_cast
        rw [abs_lt]; constructor <;> nlinarith
  obtain ⟨m1, m2, m3⟩ := main
  have m1q : 1 / 2 ≤ p := by
    have : ((1 / 2 : ℚ) : ℝ) ≤ p := by push_cast; exact m1
    exact Rat.cast_le.1 this
  have m2q : p < 2 := by exact_mod_cast m2
  rw [hres p hp m1q m2q.le hEp, exp_split _ k]
  have hP := r2 k
  have ecast : ((p * (2 : ℚ) ^ k : ℚ) : ℝ) = p * (2 : ℝ) ^ k := by push_cast; rfl
  have em1 : (2 : ℝ) ^ (k - 1) = 1 / 2 * (2 : ℝ) ^ k := by
    rw [show k - 1 = -1 + k by ring, r2add]; norm_num
  have ep1 : (2 : ℝ) ^ (k + 1) = 2 * (2 : ℝ) ^ k := by
    rw [add_comm, r2add, zpow_one]
  have eρ : (2 : ℝ) ^ (k - F.f) = ρ * (2 : ℝ) ^ k := by
    rw [show k - (F.f : ℤ) = -(F.f : ℤ) + k by ring, r2add]
  have eρ1 : (2 : ℝ) ^ (k - F.f - 1) = ρ / 2 * (2 : ℝ) ^ k := by
    rw [show k - (F.f : ℤ) - 1 = (-(F.f : ℤ) - 1) + k by ring, r2add, hρ1]
  refine faithful_of_close he (J := k) ?_ ?_ ?_ ?_ ?_ false
  · rw [ecast, em1]; exact mul_le_mul_of_nonneg_right m1 hP.le
  · rw [ecast, ep1]; exact mul_lt_mul_of_pos_right m2 hP
  · rw [em1]; exact mul_le_mul_of_nonneg_right (by linarith) hP.le
  · intro hge
    have hpp : 0 < p := by linarith
    refine unb_scale hpu (a := Int.log 2 |p|) (Float.pow_log_le (abs_pos.2 hpp.ne')) ?_
    have h3 := Float.lt_pow_log (a := |p|)
    rw [abs_of_pos hpp] at h3 ⊢
    by_contra hc
    have h4 : (2 : ℚ) ^ (Int.log 2 p + 1 + k) ≤ (2 : ℚ) ^ F.emin := Float.zle (by omega)
    rw [Float.zadd] at h4
    have h5 := mul_lt_mul_of_pos_right h3 (Float.zp k)
    linarith
  · rw [ecast, eρ, eρ1]
    have eabs : |(p : ℝ) * (2 : ℝ) ^ k - e' * (2 : ℝ) ^ k| = |(p : ℝ) - e'| * (2 : ℝ) ^ k := by
      rw [← sub_mul, abs_mul, abs_of_pos hP]
    rw [eabs]
    rcases m3 with h | ⟨h3, h4, h5⟩
    · left; exact mul_lt_mul_of_pos_right h hP
    · right
      refine ⟨?_, ?_, mul_lt_mul_of_pos_right h5 hP⟩
      · nlinarith
      · nlinarith

end Verif.Elem
