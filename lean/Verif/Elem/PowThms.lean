import Verif.Elem.PowModel
import Verif.Elem.PowSpec
import Verif.Elem.Exp2Thms

/-! # Theorems on the generated `pow` (property C89) -/

namespace Verif.Elem

open Verif.Float (Fmt Val)
open Verif.Check

theorem Wide.e5 {F : Fmt} (h : Wide F) : 5 ≤ F.e := by
  have h1 := h.f
  have h3 := h.m
  by_contra hc
  have : (2 : ℤ) ^ (F.e - 1) ≤ 2 ^ 3 := pow_le_pow_right₀ (by norm_num) (by omega)
  unfold Fmt.emax at h3
  norm_num at this
  omega

/-- an odd number of the format is below `2^(f+1)` -/
theorem odd_bound {F : Fmt} {k : ℤ} (h : Unbounded F ((2 * k + 1 : ℤ) : ℚ)) : |2 * k + 1| < 2 ^ (F.f + 1) := by
  obtain ⟨m, E, hm, hE, hv⟩ := h
  rcases le_or_gt 1 (E - F.f) with hc | hc
  · exfalso
    obtain ⟨j, hj⟩ := Int.eq_ofNat_of_zero_le (by omega : 0 ≤ E - F.f - 1)
    have e : (2 : ℚ) ^ (E - F.f) = ((2 * 2 ^ j : ℤ) : ℚ) := by
      rw [show E - (F.f : ℤ) = (j : ℤ) + 1 by omega, zpow_add₀ (by norm_num), zpow_natCast]; push_cast; ring
    rw [e] at hv
    have hv' : 2 * k + 1 = m * (2 * 2 ^ j) := by exact_mod_cast hv
    have : (2 : ℤ) ∣ 2 * k + 1 := ⟨m * 2 ^ j, by rw [hv']; ring⟩
    omega
  · have hle : (2 : ℚ) ^ (E - F.f) ≤ 1 := by
      have := Float.zle (show E - (F.f : ℤ) ≤ 0 by omega)
      rwa [zpow_zero] at this
    have h1 : |((2 * k + 1 : ℤ) : ℚ)| ≤ |(m : ℚ)| := by
      rw [hv, abs_mul, abs_of_pos (Float.zp _)]
      exact mul_le_of_le_one_right (abs_nonneg _) hle
    have h2 : |2 * k + 1| ≤ |m| := by exact_mod_cast h1
    omega

theorem nearestZ_int {y : Val} {n : ℤ} (h : numOf y = n) : nearestZ y = n := by
  unfold nearestZ
  rw [h]
  have : (((n : ℚ)) : ℝ) = (n : ℝ) := by push_cast; rfl
  rw [this]
  simp [toInt]

theorem cst_two {F : Fmt} (hF : Wide F) (hb : (F.f : ℤ) + 2 ≤ F.emax) :
    cst F ((2 : ℝ) ^ (F.f + 2)) = .num ((2 : ℚ) ^ ((F.f : ℤ) + 2)) := by
  have he := hF.e2
  have hpow : (2 : ℝ) ^ (F.f + 2) = (((2 : ℚ) ^ ((F.f : ℤ) + 2) : ℚ) : ℝ) := by push_cast; norm_cast
  have hcu : Unbounded F ((2 : ℚ) ^ ((F.f : ℤ) + 2)) := unb_pow (by have := hF.m; unfold Fmt.emin; omega)
  have hl : |(2 : ℚ) ^ ((F.f : ℤ) + 2)| ≤ Float.omega F := abs_le_omega_of he (by rw [abs_of_pos (Float.zp _)]; exact Float.zle hb)
  rw [hpow]
  exact rnd_exact he _ ((finite_iff he).2 ⟨hcu, hl⟩) (Float.zp _).ne'

theorem nearest_num {v : ℚ} (h : (nearestZ (.num v) : ℚ) = v) (h0 : v ≠ 0) : fnearest (.num v) = .num v := by
  unfold fnearest
  rw [if_neg (by simp [isNaN]), if_neg (by simp [isInf]), if_neg, h]
  intro hc
  rw [hc] at h
  exact h0 (by simpa using h.symm)

private theorem cle_pp : cLe .plusInf .plusInf = true := rfl
private theorem cle_pm : cLe .plusInf .minusInf = false := rfl
private theorem cle_pz : cLe .plusInf .plusZero = false := rfl
private theorem cle_po : cLe .plusInf .minusZero = false := rfl
private theorem cle_pq : cLe .plusInf .qNaN = false := rfl
private theorem cle_ps : cLe .plusInf .sNaN = false := rfl
private theorem cle_pn (b : ℚ) : cLe .plusInf (.num b) = false := rfl
private theorem cle_mp : cLe .minusInf .plusInf = true := rfl
private theorem cle_mm : cLe .minusInf .minusInf = true := rfl
private theorem cle_mz : cLe .minusInf .plusZero = true := rfl
private theorem cle_mo : cLe .minusInf .minusZero = true := rfl
private theorem cle_mq : cLe .minusInf .qNaN = false := rfl
private theorem cle_ms : cLe .minusInf .sNaN = false := rfl
private theorem cle_mn (b : ℚ) : cLe .minusInf (.num b) = true := rfl
private theorem cle_zp : cLe .plusZero .plusInf = true := rfl
private theorem cle_zm : cLe .plusZero .minusInf = false := rfl
private theorem cle_zz : cLe .plusZero .plusZero = true := by simp [cLe, numOf]
private theorem cle_zo : cLe .plusZero .minusZero = true := by simp [cLe, numOf]
private theorem cle_zq : cLe .plusZero .qNaN = false := rfl
private theorem cle_zs : cLe .plusZero .sNaN = false := rfl
private theorem cle_zn (b : ℚ) : cLe .plusZero (.num b) = decide (0 ≤ b) := rfl
private theorem cle_op : cLe .minusZero .plusInf = true := rfl
private theorem cle_om : cLe .minusZero .minusInf = false := rfl
private theorem cle_oz : cLe .minusZero .plusZero = true := by simp [cLe, numOf]
private theorem cle_oo : cLe .minusZero .minusZero = true := by simp [cLe, numOf]
private theorem cle_oq : cLe .minusZero .qNaN = false := rfl
private theorem cle_os : cLe .minusZero .sNaN = false := rfl
private theorem cle_on (b : ℚ) : cLe .minusZero (.num b) = decide (0 ≤ b) := rfl
private theorem cle_qp : cLe .qNaN .plusInf = false := rfl
private theorem cle_qm : cLe .qNaN .minusInf = false := rfl
private theorem cle_qz : cLe .qNaN .plusZero = false := rfl
private theorem cle_qo : cLe .qNaN .minusZero = false := rfl
private theorem cle_qq : cLe .qNaN .qNaN = false := rfl
private theorem cle_qs : cLe .qNaN .sNaN = false := rfl
private theorem cle_qn (b : ℚ) : cLe .qNaN (.num b) = false := rfl
private theorem cle_sp : cLe .sNaN .plusInf = false := rfl
private theorem cle_sm : cLe .sNaN .minusInf = false := rfl
private theorem cle_sz : cLe .sNaN .plusZero = false := rfl
private theorem cle_so : cLe .sNaN .minusZero = false := rfl
private theorem cle_sq : cLe .sNaN .qNaN = false := rfl
private theorem cle_ss : cLe .sNaN .sNaN = false := rfl
private theorem cle_sn (b : ℚ) : cLe .sNaN (.num b) = false := rfl
private theorem cle_np (a : ℚ) : cLe (.num a) .plusInf = true := rfl
private theorem cle_nm (a : ℚ) : cLe (.num a) .minusInf = false := rfl
private theorem cle_nz (a : ℚ) : cLe (.num a) .plusZero = decide (a ≤ 0) := rfl
private theorem cle_no (a : ℚ) : cLe (.num a) .minusZero = decide (a ≤ 0) := rfl
private theorem cle_nq (a : ℚ) : cLe (.num a) .qNaN = false := rfl
private theorem cle_ns (a : ℚ) : cLe (.num a) .sNaN = false := rfl
private theorem cle_nn (a : ℚ) (b : ℚ) : cLe (.num a) (.num b) = decide (a ≤ b) := rfl

attribute [local simp] cle_pp cle_pm cle_pz cle_po cle_pq cle_ps cle_pn cle_mp cle_mm cle_mz cle_mo cle_mq cle_ms cle_mn cle_zp cle_zm cle_zz cle_zo cle_zq cle_zs cle_zn cle_op cle_om cle_oz cle_oo cle_oq cle_os cle_on cle_qp cle_qm cle_qz cle_qo cle_qq cle_qs cle_qn cle_sp cle_sm cle_sz cle_so cle_sq cle_ss cle_sn cle_np cle_nm cle_nz cle_no cle_nq cle_ns cle_nn

/-- the parity test of the generated code: the negative odd integers are missed -/
theorem yIsOdd_iff {F : Fmt} (hF : Wide F) (hb : (F.f : ℤ) + 2 ≤ F.emax) (cv : Val → ℤ) {y : Val} (hy : F.Datum y) :
    yIsOdd F cv y = true ↔ OddInt y ∧ Special.neg y = false := by
  have he := hF.e2
  have h5 := hF.e5
  have nz : ∀ k : ℤ, (0 : ℚ) ≠ ((2 * k + 1 : ℤ) : ℚ) := by
    intro k h
    have : (0 : ℤ) = 2 * k + 1 := by exact_mod_cast h
    omega
  unfold yIsOdd
  rw [cst_two hF hb]
  cases y with
  | plusInf => simp [fabs, sgn, Special.neg, flt, OddInt, Special.finVal]
  | minusInf => simp [fabs, sgn, Special.neg, fneg, flt, OddInt, Special.finVal]
  | qNaN => simp [fabs, sgn, Special.neg, flt, OddInt, Special.finVal]
  | sNaN => simp [fabs, sgn, Special.neg, flt, OddInt, Special.finVal]
  | plusZero =>
    have : nearestZ .plusZero = 0 := nearestZ_int (by simp [numOf])
    have hc : fnearest .plusZero = .plusZero := by unfold fnearest; rw [this]; simp [isNaN, isInf, zeroS, sgn, Special.neg]
    have hc2 : convC F cv .plusZero = 0 := convC_fin (F := F) (n := 0) (a := .plusZero) (fin_zeroS F false) (by simp [numOf]) (by simp)
    rw [hc, hc2]
    simp [OddInt, Special.finVal, Special.neg]
    intro k h; exact nz k (by push_cast; exact h)
  | minusZero =>
    have : nearestZ .minusZero = 0 := nearestZ_int (by simp [numOf])
    have hc : fnearest .minusZero = .minusZero := by unfold fnearest; rw [this]; simp [isNaN, isInf, zeroS, sgn, Special.neg]
    have hc2 : convC F cv .minusZero = 0 := convC_fin (F := F) (n := 0) (a := .minusZero) (fin_zeroS F true) (by simp [numOf]) (by simp)
    rw [hc, hc2]
    simp [OddInt, Special.finVal, Special.neg]
  | num v =>
    obtain ⟨hfin, h0⟩ := hy
    obtain ⟨hu, hl⟩ := (finite_iff he).1 hfin
    have hv : Fin' F (.num v) := ⟨⟨hfin, h0⟩, rfl, rfl⟩
    have hlt : flt (fabs (.num v)) (.num ((2 : ℚ) ^ ((F.f : ℤ) + 2))) = decide (|v| < (2 : ℚ) ^ ((F.f : ℤ) + 2)) := by
      have : fabs (.num v) = .num |v| := by
        unfold fabs sgn Special.neg
        by_cases hc : v < 0
        · simp [hc, fneg, abs_of_neg hc]
        · simp [hc, abs_of_nonneg (not_lt.1 hc)]
      rw [this]
      rw [flt, cle_nn, cle_nn]
      by_cases h : |v| < (2 : ℚ) ^ ((F.f : ℤ) + 2)
      · simp [h, h.le, not_le.2 h, -abs_lt, -abs_le]
      · simp [h, not_lt.1 h, -abs_lt, -abs_le]
    have hbd : (2 : ℤ) ^ (F.f + 2) < 2 ^ (F.e + F.f) := pow_lt_pow_right₀ (by norm_num) (by omega)
    have hz : ((2 : ℚ) ^ ((F.f : ℤ) + 2)) = (((2 : ℤ) ^ (F.f + 2) : ℤ) : ℚ) := by push_cast; norm_cast
    rw [hlt]
    constructor
    · intro h
      simp only [Bool.and_eq_true, decide_eq_true_eq] at h
      obtain ⟨⟨h1, h2⟩, h3⟩ := h
      have hint : (nearestZ (.num v) : ℚ) = v := by
        by_cases hn : nearestZ (.num v) = 0
        · have : fnearest (.num v) = zeroS (sgn (.num v)) := by
            unfold fnearest; rw [if_neg (by simp [isNaN]), if_neg (by simp [isInf]), if_pos hn]
          rw [this] at h2
          cases hs : sgn (.num v) <;> rw [hs] at h2 <;> simp [zeroS, cEq] at h2 <;> exact absurd (le_antisymm h2.2 h2.1) h0
        · have : fnearest (.num v) = .num (nearestZ (.num v)) := by
            unfold fnearest; rw [if_neg (by simp [isNaN]), if_neg (by simp [isInf]), if_neg hn]
          rw [this] at h2
          simp [cEq] at h2
          exact le_antisymm h2.1 h2.2
      rw [nearest_num hint h0] at h3
      set n := nearestZ (.num v) with hn
      have hnb : |n| < 2 ^ (F.e + F.f) := by
        rw [← hint, hz] at h1
        have : |n| < 2 ^ (F.f + 2) := by exact_mod_cast h1
        omega
      rw [convC_fin hv (by simp [numOf, hint]) hnb] at h3
      have hn0 : 0 < n := by
        rcases le_or_gt n 0 with hc | hc
        · exfalso
          have : Int.tmod n 2 ≤ 0 := by
            have := Int.tmod_nonneg 2 (show 0 ≤ -n by omega)
            rw [Int.neg_tmod] at this; omega
          omega
        · exact hc
      have hodd : n = 2 * (n / 2) + 1 := by
        rw [Int.tmod_eq_emod_of_nonneg hn0.le] at h3; omega
      refine ⟨⟨n / 2, ?_⟩, ?_⟩
      · simp only [Special.finVal]; rw [← hodd, hint]
      · have : (0 : ℚ) < v := by rw [← hint]; exact_mod_cast hn0
        simp [Special.neg, this.le]
    · rintro ⟨⟨k, hk⟩, hneg⟩
      simp only [Special.finVal, Option.some.injEq] at hk
      have hpos : 0 ≤ v := by simpa [Special.neg] using hneg
      subst hk
      have hb1 := odd_bound hu
      have hk0 : 0 ≤ 2 * k + 1 := by exact_mod_cast hpos
      have hn : nearestZ (.num ((2 * k + 1 : ℤ) : ℚ)) = 2 * k + 1 := nearestZ_int rfl
      have hb2 : |2 * k + 1| < 2 ^ (F.f + 2) := lt_of_lt_of_le hb1 (pow_le_pow_right₀ (by norm_num) (by omega))
      rw [nearest_num (by rw [hn]) h0, convC_fin hv (n := 2 * k + 1) rfl (by omega)]
      simp only [Bool.and_eq_true, decide_eq_true_eq]
      refine ⟨⟨?_, by simp [cEq]⟩, ?_⟩
      · rw [hz]; exact_mod_cast hb2
      · rw [Int.tmod_eq_emod_of_nonneg hk0]; omega

/-- the inputs where the special cases of the generated code are those of the standard -/
structure PowOk (x y : Val) : Prop where
  zeroInf : ¬ (Special.IsZero x ∧ Special.IsInf y)
  oddNeg : (x = .minusZero ∨ x = .minusInf) → ¬ (OddInt y ∧ Special.neg y = true)
  one : x = .num 1 → Special.IsZero y
  invalid : ∀ v w, Special.finVal x = some v → v < 0 → Special.finVal y = some w → IsInteger y
  nanBase : x = .qNaN → y = .sNaN ∨ Special.IsZero y
  nanExponent : y = .qNaN → x = .sNaN

/-- C89, proved part (the full claim: `PowSpecial` for all the inputs).  For EVERY two data but those excluded by `PowOk`, whatever the approximations of the default path, the
generated `pow` returns the special results of the standard. -/
theorem C89_pow_special_partial (F : Fmt) (h1 : 10 ≤ F.f) (h2 : F.e ≤ F.f) (h3 : (F.f : ℤ) + 2 ≤ F.emax) (L P : Val → Val) (cv : Val → ℤ) (nm x y : Val)
    (hx : F.Datum x) (hy : F.Datum y) (hok : PowOk x y) : PowSpecial x y (powModel F L P cv nm x y) := by
  have hF : Wide F := ⟨h1, h2, by omega⟩
  have hodd := yIsOdd_iff hF h3 cv hy
  obtain ⟨o1, o2, o3, o4, o5, o6⟩ := hok
  have hx0 : ∀ v, x = .num v → v ≠ 0 := by rintro v rfl; exact hx.2
  have hy0 : ∀ v, y = .num v → v ≠ 0 := by rintro v rfl; exact hy.2
  have pos : ∀ w, y = .num w → 0 < w → Special.neg y = false := by rintro w rfl h; simp [Special.neg, h.le]
  have oddT : OddInt y → Special.neg y = false → yIsOdd F cv y = true := fun a b => hodd.2 ⟨a, b⟩
  have oddF : Special.neg y = true → yIsOdd F cv y = false := by
    intro h
    rcases hb : yIsOdd F cv y with _ | _
    · rfl
    · have := (hodd.1 hb).2; rw [h] at this; exact absurd this (by simp)
  have oddInf : Special.IsInf y → yIsOdd F cv y = false := by
    intro h
    rcases hb : yIsOdd F cv y with _ | _
    · rfl
    · obtain ⟨k, hk⟩ := (hodd.1 hb).1
      cases y <;> simp [Special.IsInf, Special.finVal] at h hk
  have oddN : ¬ OddInt y → yIsOdd F cv y = false := by
    intro h
    rcases hb : yIsOdd F cv y with _ | _
    · rfl
    · exact absurd (hodd.1 hb).1 h
  have absv : ∀ v, fabs (.num v) = .num |v| := by
    intro v
    unfold fabs sgn Special.neg
    by_cases hc : v < 0
    · simp [hc, fneg, abs_of_neg hc]
    · simp [hc, abs_of_nonneg (not_lt.1 hc)]
  constructor
  · rintro (rfl | rfl) <;> simp [powModel, powCases]
  · intro hs hzero
    cases y <;> simp [Special.IsZero, Special.finVal] at hzero
    · simp [powModel, powCases, hs, isZero]
    · simp [powModel, powCases, hs, isZero]
    · exact absurd hzero (hy0 _ rfl)
  · intro hz ho hn
    cases y <;> simp [OddInt, Special.finVal, Special.neg] at ho hn
    · obtain ⟨k, hk⟩ := ho
      exfalso
      have : (0 : ℤ) = 2 * k + 1 := by have : (0 : ℚ) = ((2 * k + 1 : ℤ) : ℚ) := by push_cast; exact hk
                                       exact_mod_cast this
      omega
    · rename_i w
      have hw0 := hy0 w rfl
      have hoF := oddF (by simp [Special.neg, hn])
      cases x <;> simp [Special.IsZero, Special.finVal] at hz
      · simp [powModel, powCases, isZero, hw0, hoF, isInf, flt, fgt, cEq, fabs, sgn, Special.neg, hn, hn.le]
      · exact absurd ⟨by simpa [OddInt, Special.finVal] using ho, by simp [Special.neg, hn]⟩ (o2 (Or.inl rfl))
      · exact absurd hz (hx0 _ rfl)
  · intro hz hi; subst hi; exact absurd ⟨hz, by simp [Special.IsInf]⟩ o1
  · intro hz hi; subst hi; exact absurd ⟨hz, by simp [Special.IsInf]⟩ o1
  · intro hz ho hn
    have hoT := oddT ho hn
    cases y <;> simp [OddInt, Special.finVal, Special.neg] at ho hn
    · obtain ⟨k, hk⟩ := ho
      exfalso
      have : (0 : ℤ) = 2 * k + 1 := by have : (0 : ℚ) = ((2 * k + 1 : ℤ) : ℚ) := by push_cast; exact hk
                                       exact_mod_cast this
      omega
    · rename_i w
      have hw0 := hy0 w rfl
      have hwp : 0 < w := lt_of_le_of_ne hn (Ne.symm hw0)
      cases x <;> simp [Special.IsZero, Special.finVal] at hz
      · simp [powModel, powCases, isZero, hw0, hoT, isInf, flt, fgt, cEq, hwp, hwp.le]
      · simp [powModel, powCases, isZero, hw0, hoT, isInf, flt, fgt, cEq, hwp, hwp.le]
      · exact absurd hz (hx0 _ rfl)
  · intro hz w hw hneg hno
    have hoF := oddN hno
    cases y <;> simp [Special.finVal] at hw
    · exact absurd hw hneg.ne'
    · exact absurd hw hneg.ne'
    · subst hw
      rename_i w
      have hw0 := hy0 w rfl
      cases x <;> simp [Special.IsZero, Special.finVal] at hz
      · simp [powModel, powCases, isZero, hw0, hoF, isInf, flt, fgt, cEq, fabs, sgn, Special.neg, hneg, hneg.le]
      · simp [powModel, powCases, isZero, hw0, hoF, isInf, flt, fgt, cEq, fabs, sgn, Special.neg, hneg, hneg.le]
      · exact absurd hz (hx0 _ rfl)
  · intro hz w hw hpos hno
    have hoF := oddN hno
    cases y <;> simp [Special.finVal] at hw
    · exact absurd hw hpos.ne
    · exact absurd hw hpos.ne
    · subst hw
      rename_i w
      have hw0 := hy0 w rfl
      cases x <;> simp [Special.IsZero, Special.finVal] at hz
      · simp [powModel, powCases, isZero, hw0, hoF, isInf, flt, fgt, cEq, fabs, sgn, Special.neg, hpos, hpos.le]
      · simp [powModel, powCases, isZero, hw0, hoF, isInf, flt, fgt, cEq, fabs, sgn, Special.neg, hpos, hpos.le]
      · exact absurd hz (hx0 _ rfl)
  · rintro rfl hi
    cases y <;> simp [Special.IsInf] at hi
    all_goals simp [powModel, powCases, isZero, isInf, cEq]
  · intro hx1 hs
    have hz := o3 hx1
    subst hx1
    cases y <;> simp [Special.IsZero, Special.finVal] at hz
    · simp [powModel, powCases, isZero]
    · simp [powModel, powCases, isZero]
    · exact absurd hz (hy0 _ rfl)
  · intro v hv hlt hyi
    subst hyi
    cases x <;> simp [Special.finVal] at hv
    · exact absurd ⟨by simp [Special.IsZero, Special.finVal], by simp [Special.IsInf]⟩ o1
    · exact absurd ⟨by simp [Special.IsZero, Special.finVal], by simp [Special.IsInf]⟩ o1
    · subst hv
      rename_i v
      have hv0 := hx0 v rfl
      have hm1 : ¬ (v ≤ -1 ∧ -1 ≤ v) := by rintro ⟨a, _⟩; have := (abs_lt.1 hlt).1; linarith
      simp [powModel, powCases, isZero, hv0, isInf, flt, fgt, cEq, absv, hlt, hlt.le, hm1, -abs_lt, -abs_le]
  · intro h hyi
    subst hyi
    rcases h with h | ⟨v, hv, hlt⟩
    · cases x <;> simp [Special.IsInf] at h
      all_goals simp [powModel, powCases, isZero, isInf, flt, fgt, cEq, fabs, sgn, Special.neg, fneg]
    · cases x <;> simp [Special.finVal] at hv
      · subst hv; norm_num at hlt
      · subst hv; norm_num at hlt
      · subst hv
        rename_i v
        have hv0 := hx0 v rfl
        have hm1 : ¬ (v ≤ -1 ∧ -1 ≤ v) := by rintro ⟨a, b⟩; rw [le_antisymm a b] at hlt; norm_num at hlt
        simp [powModel, powCases, isZero, hv0, isInf, flt, fgt, cEq, absv, hlt, hlt.le, not_lt.2 hlt.le, not_le.2 hlt, hm1, -abs_lt, -abs_le, -lt_abs, -le_abs]
  · intro v hv hlt hyi
    subst hyi
    cases x <;> simp [Special.finVal] at hv
    · exact absurd ⟨by simp [Special.IsZero, Special.finVal], by simp [Special.IsInf]⟩ o1
    · exact absurd ⟨by simp [Special.IsZero, Special.finVal], by simp [Special.IsInf]⟩ o1
    · subst hv
      rename_i v
      have hv0 := hx0 v rfl
      have hm1 : ¬ (v ≤ -1 ∧ -1 ≤ v) := by rintro ⟨a, _⟩; have := (abs_lt.1 hlt).1; linarith
      simp [powModel, powCases, isZero, hv0, isInf, flt, fgt, cEq, absv, hlt, hlt.le, hm1, -abs_lt, -abs_le]
  · intro h hyi
    subst hyi
    rcases h with h | ⟨v, hv, hlt⟩
    · cases x <;> simp [Special.IsInf] at h
      all_goals simp [powModel, powCases, isZero, isInf, flt, fgt, cEq, fabs, sgn, Special.neg, fneg]
    · cases x <;> simp [Special.finVal] at hv
      · subst hv; norm_num at hlt
      · subst hv; norm_num at hlt
      · subst hv
        rename_i v
        have hv0 := hx0 v rfl
        have hm1 : ¬ (v ≤ -1 ∧ -1 ≤ v) := by rintro ⟨a, b⟩; rw [le_antisymm a b] at hlt; norm_num at hlt
        simp [powModel, powCases, isZero, hv0, isInf, flt, fgt, cEq, absv, hlt, hlt.le, not_lt.2 hlt.le, not_le.2 hlt, hm1, -abs_lt, -abs_le, -lt_abs, -le_abs]
  · rintro rfl w hw hneg
    cases y <;> simp [Special.finVal] at hw
    · exact absurd hw hneg.ne'
    · exact absurd hw hneg.ne'
    · subst hw
      rename_i w
      simp [powModel, powCases, isZero, hy0 w rfl, isInf, flt, fgt, cEq, fabs, sgn, Special.neg, hneg, hneg.le]
  · rintro rfl w hw hpos
    cases y <;> simp [Special.finVal] at hw
    · exact absurd hw hpos.ne
    · exact absurd hw hpos.ne
    · subst hw
      rename_i w
      simp [powModel, powCases, isZero, hy0 w rfl, isInf, flt, fgt, cEq, fabs, sgn, Special.neg, hpos, hpos.le, not_lt.2 hpos.le]
  · intro hx1 ho hn; exact absurd ⟨ho, hn⟩ (o2 (Or.inr hx1))
  · rintro rfl ho hn
    have hoT := oddT ho hn
    cases y <;> simp [OddInt, Special.finVal, Special.neg] at ho hn
    · obtain ⟨k, hk⟩ := ho
      exfalso
      have : (0 : ℤ) = 2 * k + 1 := by have : (0 : ℚ) = ((2 * k + 1 : ℤ) : ℚ) := by push_cast; exact hk
                                       exact_mod_cast this
      omega
    · rename_i w
      have hw0 := hy0 w rfl
      have hwp : 0 < w := lt_of_le_of_ne hn (Ne.symm hw0)
      simp [powModel, powCases, isZero, hw0, hoT, isInf, flt, fgt, cEq, fabs, sgn, Special.neg, fneg, hwp, hwp.le, not_lt.2 hwp.le]
  · rintro rfl w hw hneg hno
    have hoF := oddN hno
    cases y <;> simp [Special.finVal] at hw
    · exact absurd hw hneg.ne'
    · exact absurd hw hneg.ne'
    · subst hw
      rename_i w
      simp [powModel, powCases, isZero, hy0 w rfl, hoF, isInf, flt, fgt, cEq, fabs, sgn, Special.neg, fneg, hneg, hneg.le]
  · rintro rfl w hw hpos hno
    have hoF := oddN hno
    cases y <;> simp [Special.finVal] at hw
    · exact absurd hw hpos.ne
    · exact absurd hw hpos.ne
    · subst hw
      rename_i w
      simp [powModel, powCases, isZero, hy0 w rfl, hoF, isInf, flt, fgt, cEq, fabs, sgn, Special.neg, fneg, hpos, hpos.le, not_lt.2 hpos.le]
  · intro v w hv hneg hw hni; exact absurd (o4 v w hv hneg hw) hni
  · intro hq hs hz; rcases o5 hq with h | h
    · exact absurd h hs
    · exact absurd h hz
  · intro hq hs _; exact absurd (o6 hq) hs

/-- A base and an exponent of each kind meet the hypothesis. -/
example : PowOk .minusZero (.num 3) ∧ PowOk .minusInf (.num 2) ∧ PowOk (.num (-1)) .plusInf ∧ PowOk .plusInf (.num (-7)) ∧ PowOk .qNaN .plusZero := by
  refine ⟨?_, ?_, ?_, ?_, ?_⟩ <;> constructor <;> simp [Special.IsZero, Special.finVal, Special.IsInf, Special.neg, OddInt, IsInteger] <;> norm_num

end Verif.Elem
