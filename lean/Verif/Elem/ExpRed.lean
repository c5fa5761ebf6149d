import Verif.Elem.ExpLemmas
import Mathlib.Tactic.IntervalCases

/-! # The argument reduction of the exponential -/

namespace Verif.Elem

open Verif.Float (Fmt Val)
open Verif.Check

theorem toInt_le {u : ℝ} {n : ℤ} (h : u ≤ n) : toInt .RN u ≤ n := by
  have h1 : ⌈u⌉ ≤ n := Int.ceil_le.2 h
  have h2 := Int.floor_le_ceil u
  rcases toInt_cases .RN u with e | e <;> rw [e] <;> omega

theorem le_toInt {u : ℝ} {n : ℤ} (h : (n : ℝ) ≤ u) : n ≤ toInt .RN u := by
  have h1 : n ≤ ⌊u⌋ := Int.le_floor.2 h
  have h2 := Int.floor_le_ceil u
  rcases toInt_cases .RN u with e | e <;> rw [e] <;> omega

theorem fmt_big {F : Fmt} (h1 : 2 * F.e + 4 ≤ F.f) (h2 : 2 * (F.f : ℤ) + 2 ≤ F.emax) : 7 ≤ F.e := by
  by_contra hc
  have : F.emax = 2 ^ (F.e - 1) - 1 := rfl
  have he : F.e ≤ 6 := by omega
  interval_cases F.e <;> simp at this <;> omega

theorem log_pow2 (k : ℤ) : Real.log ((2 : ℝ) ^ k) = k * Real.log 2 := Real.log_zpow 2 k

theorem over_bounds {F : Fmt} : ((F.emax : ℝ) + 1) * Real.log 2 ≤ expOver F ∧ (expOver F : ℝ) < ((F.emax : ℝ) + 1) * Real.log 2 + 1 := by
  have e : Real.log (2 * (2 : ℝ) ^ F.emax) = ((F.emax : ℝ) + 1) * Real.log 2 := by
    rw [Real.log_mul (by norm_num) (r2 _).ne', log_pow2]; ring
  unfold expOver
  rw [← e]
  exact ⟨Int.le_ceil _, Int.ceil_lt_add_one _⟩

theorem under_bounds {F : Fmt} : (expUnder F : ℝ) ≤ ((F.emin : ℝ) - F.f) * Real.log 2 ∧ ((F.emin : ℝ) - F.f) * Real.log 2 - 1 < expUnder F := by
  have e : Real.log ((2 : ℝ) ^ (F.emin - F.f)) = ((F.emin : ℝ) - F.f) * Real.log 2 := by
    rw [log_pow2]; push_cast; ring
  unfold expUnder
  rw [← e]
  exact ⟨Int.floor_le _, Int.sub_one_lt_floor _⟩

theorem l2 : (0.6931471803 : ℝ) < Real.log 2 ∧ Real.log 2 < 0.6931471808 := ⟨Real.log_two_gt_d9, Real.log_two_lt_d9⟩

theorem inv_l2 : (1.4426 : ℝ) < 1 / Real.log 2 ∧ 1 / Real.log 2 < 1.4427 := by
  obtain ⟨h1, h2⟩ := l2
  have h0 : 0 < Real.log 2 := by linarith
  constructor
  · rw [lt_div_iff₀ h0]; nlinarith
  · rw [div_lt_iff₀ h0]; nlinarith

theorem abs_lt_cast {q r : ℚ} : |(q : ℝ)| < (r : ℝ) ↔ |q| < r := by
  rw [← Rat.cast_abs]; exact Rat.cast_lt

theorem abs_lt_half {q : ℚ} (h : |(q : ℝ)| < 1 / 2) : |q| < 1 / 2 := by
  apply abs_lt_cast.1; push_cast; exact h

/-- facts on the constants -/
structure Consts (F : Fmt) : Prop where
  he7 : 7 ≤ F.e
  inv_err : |(invLog2 F : ℝ) - 1 / Real.log 2| ≤ (2 : ℝ) ^ (-(F.f : ℤ) - 1)
  inv_lo : (1.44 : ℝ) ≤ invLog2 F
  inv_hi : (invLog2 F : ℝ) ≤ 1.45
  inv_unb : Unbounded F (invLog2 F)
  a_le : ⌈(expOver F * invLog2 F : ℚ)⌉ ≤ F.emax + 3
  b_ge : F.emin - F.f - 3 ≤ ⌊(expUnder F * invLog2 F : ℚ)⌋
  ksup_pos : 1 ≤ kSup F
  ksup_le : kSup F ≤ 2 ^ F.e

theorem consts {F : Fmt} (h1 : 2 * F.e + 4 ≤ F.f) (h2 : 2 * (F.f : ℤ) + 2 ≤ F.emax) : Consts F := by
  have he7 := fmt_big h1 h2
  have hemin : F.emin = 1 - F.emax := rfl
  obtain ⟨l1, l3⟩ := l2
  obtain ⟨i1, i2⟩ := inv_l2
  have hη : (2 : ℝ) ^ (-(F.f : ℤ) - 1) ≤ 1 / 1000 := by
    have : (2 : ℝ) ^ (-(F.f : ℤ) - 1) ≤ (2 : ℝ) ^ (-10 : ℤ) := r2le (by omega)
    norm_num at this; linarith
  have herr : |(invLog2 F : ℝ) - 1 / Real.log 2| ≤ (2 : ℝ) ^ (-(F.f : ℤ) - 1) := by
    have := ru_err_le (F := F) (x := 1 / Real.log 2) (k := 0) (by omega) (by
      rw [abs_of_pos (by linarith), show (2 : ℝ) ^ ((0 : ℤ) + 1) = 2 by norm_num]; linarith)
    rw [show (0 : ℤ) - F.f - 1 = -(F.f : ℤ) - 1 by ring] at this
    exact this
  obtain ⟨e1, e2⟩ := abs_le.1 herr
  have hlo : (1.44 : ℝ) ≤ invLog2 F := by linarith
  have hhi : (invLog2 F : ℝ) ≤ 1.45 := by linarith
  -- the product of the error by a large number
  have hemax : F.emax = 2 ^ (F.e - 1) - 1 := rfl
  have hpe : (2 : ℤ) * 2 ^ (F.e - 1) = 2 ^ F.e := by rw [← pow_succ']; congr 1; omega
  have hpeR : (2 : ℝ) ^ (F.e : ℤ) = ((2 ^ F.e : ℤ) : ℝ) := by push_cast; rw [zpow_natCast]
  have hsmall : (2 : ℝ) ^ (-(F.f : ℤ) - 1) * (2 : ℝ) ^ (F.e : ℤ) ≤ 1 / 1000 := by
    rw [← r2add]
    have : (2 : ℝ) ^ (-(F.f : ℤ) - 1 + F.e) ≤ (2 : ℝ) ^ (-10 : ℤ) := r2le (by omega)
    norm_num at this; linarith
  have hη0 := r2 (-(F.f : ℤ) - 1)
  obtain ⟨o1, o2⟩ := over_bounds (F := F)
  obtain ⟨u1, u2⟩ := under_bounds (F := F)
  have hem : (F.emax : ℝ) + F.f + 3 ≤ (2 : ℝ) ^ (F.e : ℤ) := by
    rw [hpeR]
    have : F.emax + F.f + 3 ≤ 2 ^ F.e := by omega
    exact_mod_cast this
  have hemp : (60 : ℝ) ≤ F.emax := by
    have : (64 : ℤ) ≤ 2 ^ (F.e - 1) := le_trans (by norm_num) (pow_le_pow_right₀ (by norm_num) (show 6 ≤ F.e - 1 by omega))
    have : (60 : ℤ) ≤ F.emax := by omega
    exact_mod_cast this
  have heminR : (F.emin : ℝ) = 1 - F.emax := by rw [hemin]; push_cast; ring
  have hff : (18 : ℝ) ≤ F.f := by have : 18 ≤ F.f := by omega
                                  exact_mod_cast this
  have hinvl : Real.log 2 * (1 / Real.log 2) = 1 := by field_simp
  set η := (2 : ℝ) ^ (-(F.f : ℤ) - 1) with hηd
  set L := Real.log 2 with hL
  set I := (invLog2 F : ℝ) with hI
  have ha : ⌈(expOver F * invLog2 F : ℚ)⌉ ≤ F.emax + 3 := by
    rw [Int.ceil_le]
    have : (expOver F : ℝ) * I ≤ F.emax + 3 := by
      have a1 : (expOver F : ℝ) * I ≤ ((F.emax + 1) * L + 1) * (1 / L + η) := by
        apply mul_le_mul o2.le (by linarith) (by linarith) (by nlinarith)
      have a2 : ((F.emax + 1) * L + 1) * (1 / L + η) = F.emax + 1 + 1 / L + η * ((F.emax + 1) * L + 1) := by
        linear_combination (F.emax + 1 : ℝ) * hinvl
      have a3 : η * ((F.emax + 1) * L + 1) ≤ η * (2 : ℝ) ^ (F.e : ℤ) := mul_le_mul_of_nonneg_left (by nlinarith) hη0.le
      linarith
    have h3 : ((expOver F * invLog2 F : ℚ) : ℝ) ≤ ((F.emax + 3 : ℤ) : ℝ) := by push_cast; exact this
    exact_mod_cast h3
  have hb : F.emin - F.f - 3 ≤ ⌊(expUnder F * invLog2 F : ℚ)⌋ := by
    rw [Int.le_floor]
    have : (F.emin : ℝ) - F.f - 3 ≤ (expUnder F : ℝ) * I := by
      have a1 : (-(expUnder F : ℝ)) * I ≤ ((F.f - F.emin) * L + 1) * (1 / L + η) := by
        apply mul_le_mul (by linarith) (by linarith) (by linarith) (by nlinarith)
      have a2 : ((F.f - F.emin) * L + 1) * (1 / L + η) = F.f - F.emin + 1 / L + η * ((F.f - F.emin) * L + 1) := by
        linear_combination (F.f - F.emin : ℝ) * hinvl
      have a3 : η * ((F.f - F.emin) * L + 1) ≤ η * (2 : ℝ) ^ (F.e : ℤ) := mul_le_mul_of_nonneg_left (by nlinarith) hη0.le
      linarith
    have h3 : ((F.emin - F.f - 3 : ℤ) : ℝ) ≤ ((expUnder F * invLog2 F : ℚ) : ℝ) := by push_cast; exact this
    exact_mod_cast h3
  refine ⟨he7, herr, hlo, hhi, roundUnb_unb F _ _, ha, hb, ?_, ?_⟩
  · unfold kSup
    refine le_trans ?_ (le_max_right _ _)
    rw [Int.one_le_ceil_iff]
    have : (0 : ℝ) < ((expOver F * invLog2 F : ℚ) : ℝ) := by
      push_cast; exact mul_pos (by nlinarith) (by linarith)
    exact_mod_cast this
  · unfold kSup
    have : F.emax + F.f + 3 ≤ 2 ^ F.e := by omega
    exact max_le (by omega) (by omega)

/-- What the argument reduction achieves. -/
theorem reduction {F : Fmt} (h1 : 2 * F.e + 4 ≤ F.f) (h2 : 2 * (F.f : ℤ) + 2 ≤ F.emax) {vx : Val} (hv : Fin' F vx)
    (hlo : (expUnder F : ℚ) ≤ numOf vx) (hhi : numOf vx ≤ expOver F) :
    let k := fnearest (fmul F vx (cst F (invLog2 F)))
    let ik := nearestZ (fmul F vx (cst F (invLog2 F)))
    let hi := fsub F vx (fmul F k (cst F (log2Hi F)))
    let lo := fmul F (fneg k) (cst F (log2Lo F))
    Fin' F k ∧ numOf k = ik ∧ F.emin - F.f - 3 ≤ ik ∧ ik ≤ F.emax + 3 ∧ Fin' F hi ∧ Fin' F lo ∧
      numOf hi = numOf vx - ik * log2Hi F ∧
      |(numOf vx : ℝ) - ik * Real.log 2| ≤ Real.log 2 * (1 / 2 + (2 : ℝ) ^ ((F.e : ℤ) - F.f)) ∧
      |((numOf hi : ℝ) + numOf lo) - (numOf vx - ik * Real.log 2)| ≤ (2 : ℝ) ^ (2 * ((F.e : ℤ) - F.f)) ∧
      |(numOf lo : ℝ)| ≤ (2 : ℝ) ^ (2 * (F.e : ℤ) + 1 - F.f) := by
  intro k ik hi lo
  have C := consts h1 h2
  have he7 := C.he7
  have he : 2 ≤ F.e := by omega
  have hemin : F.emin = 1 - F.emax := rfl
  have heo : (F.e : ℤ) ≤ F.emax := by omega
  obtain ⟨l1, l3⟩ := l2
  set v := numOf vx with hvd
  set I := invLog2 F with hI
  have hI0 : (0 : ℝ) ≤ I := by linarith [C.inv_lo]
  have hI0q : (0 : ℚ) ≤ I := by exact_mod_cast hI0
  -- the constants
  have big : ∀ {q : ℚ}, |q| ≤ (2 : ℚ) ^ (F.e : ℤ) → |q| ≤ Float.omega F := fun h => abs_le_omega_of he (le_trans h (Float.zle heo))
  have one_big : (2 : ℚ) ≤ (2 : ℚ) ^ (F.e : ℤ) := by
    have : (2 : ℚ) ^ (1 : ℤ) ≤ (2 : ℚ) ^ (F.e : ℤ) := Float.zle (by omega)
    simpa using this
  have cI : Fin' F (cst F I) ∧ numOf (cst F I) = I := by
    have hr : roundUnb F .RN ((I : ℚ) : ℝ) = I := ru_exact C.inv_unb
    have := cst_fin he (F := F) (x := (I : ℝ)) (by
      rw [hr]; apply big
      rw [abs_of_nonneg hI0q]
      have : (I : ℝ) ≤ 2 := by linarith [C.inv_hi]
      have : I ≤ 2 := by exact_mod_cast this
      linarith)
    rwa [hr] at this
  -- the range of the integer
  set A := ⌈(expOver F * I : ℚ)⌉ with hA
  set B := ⌊(expUnder F * I : ℚ)⌋ with hB
  have hAK : A ≤ kSup F := le_max_right _ _
  have hBK : -B ≤ kSup F := le_max_left _ _
  have hKe := C.ksup_le
  have hef : (2 : ℤ) ^ F.e ≤ 2 ^ (F.f + 1) := pow_le_pow_right₀ (by norm_num) (by omega)
  have hvA : v * I ≤ A := le_trans (mul_le_mul_of_nonneg_right hhi hI0q) (Int.le_ceil _)
  have hvB : (B : ℚ) ≤ v * I := le_trans (Int.floor_le _) (mul_le_mul_of_nonneg_right hlo hI0q)
  have hA0 : 0 ≤ A := by
    have o := (over_bounds (F := F)).1
    have hem := emax_pos he
    have : (0 : ℝ) ≤ expOver F := by
      refine le_trans (mul_nonneg ?_ (by linarith)) o
      have : (0 : ℤ) ≤ F.emax + 1 := by omega
      exact_mod_cast this
    have : (0 : ℚ) ≤ expOver F := by exact_mod_cast this
    exact Int.ceil_nonneg (mul_nonneg this hI0q)
  have hB0 : B ≤ 0 := by
    have o := (under_bounds (F := F)).1
    have hem := emax_pos he
    have : (expUnder F : ℝ) ≤ 0 := by
      refine le_trans o (mul_nonpos_of_nonpos_of_nonneg ?_ (by linarith))
      have : F.emin - (F.f : ℤ) ≤ 0 := by omega
      exact_mod_cast this
    have : (expUnder F : ℚ) ≤ 0 := by exact_mod_cast this
    have h3 : ((B : ℤ) : ℚ) ≤ 0 := le_trans (Int.floor_le _) (mul_nonpos_of_nonpos_of_nonneg this hI0q)
    exact_mod_cast h3
  have uA : Unbounded F (A : ℚ) := unb_int he (by rw [abs_of_nonneg hA0]; omega)
  have uB : Unbounded F (B : ℚ) := unb_int he (by rw [abs_of_nonpos hB0]; omega)
  set u := roundUnb F .RN ((v * I : ℚ) : ℝ) with hu
  have huA : (u : ℝ) ≤ A := by
    have := ru_between_le (F := F) (x := ((v * I : ℚ) : ℝ)) uA (by exact_mod_cast hvA)
    exact_mod_cast this
  have huB : (B : ℝ) ≤ u := by
    have := ru_between_ge (F := F) (x := ((v * I : ℚ) : ℝ)) uB (by exact_mod_cast hvB)
    exact_mod_cast this
  have hKR : ((kSup F : ℤ) : ℝ) ≤ (2 : ℝ) ^ (F.e : ℤ) := by
    rw [zpow_natCast]; exact_mod_cast hKe
  have hAR : ((A : ℤ) : ℝ) ≤ kSup F := by exact_mod_cast hAK
  have hBR : -((B : ℤ) : ℝ) ≤ kSup F := by exact_mod_cast hBK
  have huE : |u| ≤ (2 : ℚ) ^ (F.e : ℤ) := by
    have : |(u : ℝ)| ≤ (2 : ℝ) ^ (F.e : ℤ) := by rw [abs_le]; constructor <;> linarith
    rw [r2cast] at this; exact_mod_cast this
  have fu := fmul_fin he hv cI.1 (by rw [cI.2]; exact big huE)
  rw [cI.2] at fu
  set ur := fmul F vx (cst F I) with hur
  have hik : ik = toInt .RN ((u : ℚ) : ℝ) := by
    show nearestZ ur = _
    unfold nearestZ; rw [fu.2]
  have hikA : ik ≤ A := by rw [hik]; exact toInt_le huA
  have hikB : B ≤ ik := by rw [hik]; exact le_toInt huB
  have hikK : |ik| ≤ kSup F := by rw [abs_le]; constructor <;> omega
  -- the floating-point integer
  have hkf : Fin' F k ∧ numOf k = ik := by
    show Fin' F (fnearest ur) ∧ numOf (fnearest ur) = ik
    unfold fnearest
    simp only [fu.1.2.1, fu.1.2.2, Bool.false_eq_true, if_false]
    have hz : nearestZ ur = ik := rfl
    rw [hz]
    by_cases h0 : ik = 0
    · rw [if_pos h0, h0]; cases sgn ur <;> simp [zeroS, Fin', Fmt.Datum, isNaN, isInf, numOf]
    · rw [if_neg h0]
      refine ⟨⟨⟨(finite_iff he).2 ⟨unb_int he (by omega), ?_⟩, by exact_mod_cast h0⟩, rfl, rfl⟩, rfl⟩
      apply big
      rw [Float.znat]
      exact_mod_cast le_trans hikK hKe
  -- the precision of the high part of log(2)
  set c := ⌈Real.logb 2 (kSup F)⌉ with hc
  have hK1 : (1 : ℝ) ≤ kSup F := by exact_mod_cast C.ksup_pos
  have hKc : ((kSup F : ℤ) : ℝ) ≤ (2 : ℝ) ^ c := by
    have h3 := Int.le_ceil (Real.logb 2 (kSup F))
    rw [← Real.rpow_intCast]
    exact (Real.logb_le_iff_le_rpow (by norm_num) (by linarith)).1 h3
  have hce : c ≤ F.e := by
    rw [hc, Int.ceil_le, Real.logb_le_iff_le_rpow (by norm_num) (by linarith), Int.cast_natCast, Real.rpow_natCast]
    rw [zpow_natCast] at hKR; exact hKR
  have hc0 : 0 ≤ c := by
    rw [hc]; exact Int.ceil_nonneg (Real.logb_nonneg (by norm_num) hK1)
  have hprec : log2Prec F = F.f - (c + 2) := rfl
  set P := log2Prec F with hP
  have hPpos : 0 ≤ P := by omega
  set N := toInt .RN (Real.log 2 * (2 : ℝ) ^ P) with hN
  have hLhi : log2Hi F = N * (2 : ℚ) ^ (-P) := rfl
  set Lh := log2Hi F with hLh
  have hNle : |N| ≤ 2 ^ P.toNat := by
    have hp := r2 P
    have e : (2 : ℝ) ^ P = ((2 ^ P.toNat : ℤ) : ℝ) := by
      push_cast; rw [← zpow_natCast, Int.toNat_of_nonneg hPpos]
    rw [abs_le]
    constructor
    · refine le_trans (b := 0) ?_ (le_toInt (by push_cast; nlinarith))
      have : (0 : ℤ) < 2 ^ P.toNat := by positivity
      omega
    · apply toInt_le; rw [← e]; nlinarith
  have hLerr : |Real.log 2 - Lh| ≤ (2 : ℝ) ^ (-P - 1) := by
    have h3 := toInt_near (Real.log 2 * (2 : ℝ) ^ P)
    rw [← hN] at h3
    have hp := r2 (-P)
    have e1 : (2 : ℝ) ^ P * (2 : ℝ) ^ (-P) = 1 := by rw [← r2add]; simp
    have e2 : Real.log 2 - Lh = (Real.log 2 * (2 : ℝ) ^ P - N) * (2 : ℝ) ^ (-P) := by
      rw [hLhi]; push_cast; linear_combination (-Real.log 2) * e1
    rw [e2, abs_mul, abs_of_pos hp, show -P - 1 = -1 + -P by ring, r2add]
    have : (2 : ℝ) ^ (-1 : ℤ) = 1 / 2 := by norm_num
    rw [this]
    exact mul_le_mul_of_nonneg_right h3 hp.le
  have hikR : |(ik : ℝ)| ≤ (2 : ℝ) ^ c := by
    have : ((|ik| : ℤ) : ℝ) ≤ kSup F := by exact_mod_cast hikK
    push_cast at this; linarith
  -- the product is exact
  have hprodN : |ik * N| ≤ 2 ^ (F.f + 1) := by
    have h3 : |ik| ≤ 2 ^ c.toNat := by
      rw [show c = ((c.toNat : ℕ) : ℤ) from (Int.toNat_of_nonneg hc0).symm, zpow_natCast] at hikR
      exact_mod_cast hikR
    rw [abs_mul]
    calc |ik| * |N| ≤ 2 ^ c.toNat * 2 ^ P.toNat := mul_le_mul h3 hNle (abs_nonneg _) (by positivity)
      _ = 2 ^ (c.toNat + P.toNat) := (pow_add _ _ _).symm
      _ ≤ 2 ^ (F.f + 1) := pow_le_pow_right₀ (by norm_num) (by omega)
  have hLunb : Unbounded F Lh := by
    rw [hLhi]
    refine unb_of (le_trans hNle (pow_le_pow_right₀ (by norm_num) (by omega))) (by omega)
  have hLabs : |Lh| ≤ 1 := by
    rw [hLhi, abs_mul, abs_of_pos (Float.zp _)]
    have h3 : (|N| : ℚ) ≤ (2 : ℚ) ^ P := by
      rw [show P = ((P.toNat : ℕ) : ℤ) from (Int.toNat_of_nonneg hPpos).symm, zpow_natCast]; exact_mod_cast hNle
    calc (|N| : ℚ) * (2 : ℚ) ^ (-P) ≤ (2 : ℚ) ^ P * (2 : ℚ) ^ (-P) := mul_le_mul_of_nonneg_right h3 (Float.zp _).le
      _ = 1 := by rw [← Float.zadd]; simp
  have cL : Fin' F (cst F Lh) ∧ numOf (cst F Lh) = Lh := by
    have hr : roundUnb F .RN ((Lh : ℚ) : ℝ) = Lh := ru_exact hLunb
    have := cst_fin he (F := F) (x := (Lh : ℝ)) (by rw [hr]; apply big; linarith)
    rwa [hr] at this
  have hprodU : Unbounded F (ik * Lh) := by
    rw [hLhi, ← mul_assoc]
    have := unb_of (F := F) (n := ik * N) (q := -P) hprodN (by omega)
    push_cast at this; exact this
  have hikQ : |(ik : ℚ)| ≤ (2 : ℚ) ^ (F.e : ℤ) := by
    rw [Float.znat]; exact_mod_cast le_trans hikK hKe
  have fp : Fin' F (fmul F k (cst F Lh)) ∧ numOf (fmul F k (cst F Lh)) = ik * Lh := by
    have hr : roundUnb F .RN (((ik : ℚ) * Lh : ℚ) : ℝ) = ik * Lh := ru_exact hprodU
    have := fmul_fin he hkf.1 cL.1 (by
      rw [hkf.2, cL.2, hr]; apply big
      rw [abs_mul]
      calc |(ik : ℚ)| * |Lh| ≤ (2 : ℚ) ^ (F.e : ℤ) * 1 := mul_le_mul hikQ hLabs (abs_nonneg _) (Float.zp _).le
        _ = _ := mul_one _)
    rw [hkf.2, cL.2, hr] at this
    exact this
  -- the distance to the multiple of log(2)
  have hvI : |((v * I : ℚ) : ℝ)| ≤ (2 : ℝ) ^ (F.e : ℤ) := by
    have a1 : ((v * I : ℚ) : ℝ) ≤ A := by exact_mod_cast hvA
    have a2 : (B : ℝ) ≤ ((v * I : ℚ) : ℝ) := by exact_mod_cast hvB
    rw [abs_le]; constructor <;> linarith
  have hvE : |(v : ℝ)| ≤ (2 : ℝ) ^ (F.e : ℤ) := by
    push_cast at hvI
    rw [abs_mul, abs_of_nonneg hI0] at hvI
    have := C.inv_lo
    have h3 : |(v : ℝ)| * 1 ≤ |(v : ℝ)| * I := mul_le_mul_of_nonneg_left (by linarith) (abs_nonneg _)
    linarith
  have hru : |(u : ℝ) - v * I| ≤ (2 : ℝ) ^ ((F.e : ℤ) - F.f - 2) := by
    have := ru_err_le (F := F) (x := ((v * I : ℚ) : ℝ)) (k := (F.e : ℤ) - 1) (by omega) (by rw [sub_add_cancel]; exact hvI)
    rw [show (F.e : ℤ) - 1 - F.f - 1 = (F.e : ℤ) - F.f - 2 by ring] at this
    rw [hu]; push_cast at this ⊢; exact this
  have hti : |(u : ℝ) - ik| ≤ 1 / 2 := by rw [hik]; exact toInt_near _
  have hvinv : |(v : ℝ) * (I - 1 / Real.log 2)| ≤ (2 : ℝ) ^ ((F.e : ℤ) - F.f - 1) := by
    rw [abs_mul, show (F.e : ℤ) - F.f - 1 = F.e + (-(F.f : ℤ) - 1) by ring, r2add]
    exact mul_le_mul hvE C.inv_err (abs_nonneg _) (r2 _).le
  have hsum : (2 : ℝ) ^ ((F.e : ℤ) - F.f - 2) + (2 : ℝ) ^ ((F.e : ℤ) - F.f - 1) ≤ (2 : ℝ) ^ ((F.e : ℤ) - F.f) := by
    have a1 : (2 : ℝ) ^ ((F.e : ℤ) - F.f - 1) = 2 * (2 : ℝ) ^ ((F.e : ℤ) - F.f - 2) := by
      rw [show (F.e : ℤ) - F.f - 1 = 1 + ((F.e : ℤ) - F.f - 2) by ring, r2add, zpow_one]
    have a2 : (2 : ℝ) ^ ((F.e : ℤ) - F.f) = 4 * (2 : ℝ) ^ ((F.e : ℤ) - F.f - 2) := by
      rw [show (F.e : ℤ) - F.f = 2 + ((F.e : ℤ) - F.f - 2) by ring, r2add]; norm_num
    have := r2 ((F.e : ℤ) - F.f - 2)
    linarith
  have hquot : |(v : ℝ) * (1 / Real.log 2) - ik| ≤ 1 / 2 + (2 : ℝ) ^ ((F.e : ℤ) - F.f) := by
    have e : (v : ℝ) * (1 / Real.log 2) - ik = -((v : ℝ) * (I - 1 / Real.log 2)) + (-((u : ℝ) - v * I) + ((u : ℝ) - ik)) := by ring
    rw [e]
    have t1 := abs_add_le (-((v : ℝ) * (I - 1 / Real.log 2))) (-((u : ℝ) - v * I) + ((u : ℝ) - ik))
    have t2 := abs_add_le (-((u : ℝ) - v * I)) ((u : ℝ) - ik)
    rw [abs_neg] at t1 t2
    linarith
  have hL0 : 0 < Real.log 2 := by linarith
  have hdist : |(v : ℝ) - ik * Real.log 2| ≤ Real.log 2 * (1 / 2 + (2 : ℝ) ^ ((F.e : ℤ) - F.f)) := by
    have e : (v : ℝ) - ik * Real.log 2 = Real.log 2 * ((v : ℝ) * (1 / Real.log 2) - ik) := by field_simp
    rw [e, abs_mul, abs_of_pos hL0]
    exact mul_le_mul_of_nonneg_left hquot hL0.le
  have hsm : (2 : ℝ) ^ ((F.e : ℤ) - F.f) ≤ 1 / 1000 := by
    have : (2 : ℝ) ^ ((F.e : ℤ) - F.f) ≤ (2 : ℝ) ^ (-10 : ℤ) := r2le (by omega)
    norm_num at this; linarith
  have hikL : |(ik : ℝ) * (Real.log 2 - Lh)| ≤ (2 : ℝ) ^ (-3 : ℤ) := by
    rw [abs_mul]
    calc |(ik : ℝ)| * |Real.log 2 - Lh| ≤ (2 : ℝ) ^ c * (2 : ℝ) ^ (-P - 1) := mul_le_mul hikR hLerr (abs_nonneg _) (r2 _).le
      _ = (2 : ℝ) ^ (c + (-P - 1)) := (r2add _ _).symm
      _ ≤ _ := r2le (by omega)
  have hhiR : |((v - ik * Lh : ℚ) : ℝ)| < 1 / 2 := by
    have e : ((v - ik * Lh : ℚ) : ℝ) = ((v : ℝ) - ik * Real.log 2) + ik * (Real.log 2 - Lh) := by push_cast; ring
    rw [e]
    have t := abs_add_le ((v : ℝ) - ik * Real.log 2) (ik * (Real.log 2 - Lh))
    rw [show (2 : ℝ) ^ (-3 : ℤ) = 1 / 8 by norm_num] at hikL
    have : Real.log 2 * (1 / 2 + (2 : ℝ) ^ ((F.e : ℤ) - F.f)) ≤ 0.6931471808 * (1 / 2 + 1 / 1000) :=
      mul_le_mul l3.le (by linarith) (by have := r2 ((F.e : ℤ) - F.f); linarith) (by norm_num)
    norm_num at this
    linarith
  have hhiU : Unbounded F (v - ik * Lh) := by
    have hvu := (fin_unb he hv).1
    by_cases h0 : ik = 0
    · rw [h0]; simpa using hvu
    · have hv4 : (2 : ℚ) ^ (-2 : ℤ) ≤ |v| := by
        by_contra hcon
        apply h0
        have h3 : |(v : ℝ)| < 1 / 4 := by
          have : |v| < 1 / 4 := by have := not_le.1 hcon; norm_num at this; linarith
          have := abs_lt_cast.2 this
          push_cast at this; exact this
        have h4 : |((v * I : ℚ) : ℝ)| ≤ 0.37 := by
          push_cast; rw [abs_mul, abs_of_nonneg hI0]
          have := C.inv_hi
          nlinarith [abs_nonneg (v : ℝ)]
        have h5 := ru_err_le (F := F) (x := ((v * I : ℚ) : ℝ)) (k := -2) (by omega) (by norm_num at h4 ⊢; linarith)
        have h6 : (2 : ℝ) ^ (-2 - (F.f : ℤ) - 1) ≤ 1 / 1000 := by
          have : (2 : ℝ) ^ (-2 - (F.f : ℤ) - 1) ≤ (2 : ℝ) ^ (-10 : ℤ) := r2le (by omega)
          norm_num at this; linarith
        rw [← hu] at h5
        have h7 : |(u : ℝ)| < 1 / 2 := by
          obtain ⟨a1, a2⟩ := abs_le.1 h4
          obtain ⟨b1, b2⟩ := abs_le.1 h5
          generalize ((v * I : ℚ) : ℝ) = t at a1 a2 b1 b2
          rw [abs_lt]; constructor <;> norm_num at a1 a2 ⊢ <;> linarith
        obtain ⟨c1, c2⟩ := abs_lt.1 h7
        obtain ⟨d1, d2⟩ := abs_le.1 hti
        have e1 : (-1 : ℝ) < ik := by linarith
        have e2 : (ik : ℝ) < 1 := by linarith
        have e3 : -1 < ik := by exact_mod_cast e1
        have e4 : ik < 1 := by exact_mod_cast e2
        omega
      obtain ⟨a, ha⟩ := unb_grid hvu hv4
      obtain ⟨b, hb⟩ := grid_coarse (ik * N) (show -2 - (F.f : ℤ) ≤ -P by omega)
      have e : v - ik * Lh = ((a - b : ℤ) : ℚ) * (2 : ℚ) ^ (-2 - (F.f : ℤ)) := by
        rw [hLhi, ← mul_assoc]; push_cast at hb ⊢; rw [hb]; linear_combination ha
      have hlt : |v - ik * Lh| < 1 / 2 := abs_lt_half hhiR
      rw [e] at hlt ⊢
      apply unb_of _ (by omega)
      rw [abs_mul, abs_of_pos (Float.zp _)] at hlt
      have hp := Float.zp (-2 - (F.f : ℤ))
      have e2 : (2 : ℚ) ^ (F.f + 1) * (2 : ℚ) ^ (-2 - (F.f : ℤ)) = 1 / 2 := by
        rw [← Float.znat, ← Float.zadd, show ((F.f + 1 : ℕ) : ℤ) + (-2 - (F.f : ℤ)) = -1 by push_cast; ring]; norm_num
      rw [← e2, mul_lt_mul_iff_of_pos_right hp] at hlt
      have : |a - b| < 2 ^ (F.f + 1) := by exact_mod_cast hlt
      exact this.le
  have fhi : Fin' F hi ∧ numOf hi = v - ik * Lh := by
    have hr : roundUnb F .RN ((v - ik * Lh : ℚ) : ℝ) = v - ik * Lh := ru_exact hhiU
    have := fsub_fin he hv fp.1 (by
      rw [fp.2, hr]; apply big
      have : |v - ik * Lh| < 1 / 2 := abs_lt_half hhiR
      linarith)
    rw [fp.2, hr] at this
    exact this
  -- the low part
  set l := log2Lo F with hl
  have hlerr : |(l : ℝ) - (Real.log 2 - Lh)| ≤ (2 : ℝ) ^ (-P - F.f - 3) := by
    have := ru_err_le (F := F) (x := Real.log 2 - Lh) (k := -P - 2) (by omega) (by rw [show -P - 2 + 1 = -P - 1 by ring]; exact hLerr)
    rw [show -P - 2 - (F.f : ℤ) - 1 = -P - F.f - 3 by ring] at this
    exact this
  have hlabs : |l| ≤ (2 : ℚ) ^ (-P - 1) := ru_abs_le (by omega) hLerr
  have hlU : Unbounded F l := roundUnb_unb F _ _
  have hp1 : (2 : ℚ) ^ (-P - 1) ≤ 1 := by
    have : (2 : ℚ) ^ (-P - 1) ≤ (2 : ℚ) ^ (0 : ℤ) := Float.zle (by omega)
    simpa using this
  have cl : Fin' F (cst F l) ∧ numOf (cst F l) = l := by
    have hr : roundUnb F .RN ((l : ℚ) : ℝ) = l := ru_exact hlU
    have := cst_fin he (F := F) (x := (l : ℝ)) (by rw [hr]; apply big; linarith)
    rwa [hr] at this
  have fk := fneg_fin hkf.1
  have hlop : |(((-(ik : ℚ)) * l : ℚ) : ℝ)| ≤ (2 : ℝ) ^ (c - P - 1) := by
    push_cast
    rw [abs_mul, abs_neg]
    have : |(l : ℝ)| ≤ (2 : ℝ) ^ (-P - 1) := by rw [r2cast]; exact_mod_cast hlabs
    calc |(ik : ℝ)| * |(l : ℝ)| ≤ (2 : ℝ) ^ c * (2 : ℝ) ^ (-P - 1) := mul_le_mul hikR this (abs_nonneg _) (r2 _).le
      _ = _ := by rw [← r2add]; congr 1; ring
  have flo : Fin' F lo ∧ numOf lo = roundUnb F .RN (((-(ik : ℚ)) * l : ℚ) : ℝ) := by
    have := fmul_fin he fk.1 cl.1 (by
      rw [fk.2, hkf.2, cl.2]; apply big
      refine le_trans (ru_abs_le (k := c - P - 1) (by omega) hlop) (Float.zle (by omega)))
    rw [fk.2, hkf.2, cl.2] at this
    exact this
  have hloerr : |((numOf lo : ℚ) : ℝ) - (-(ik : ℝ)) * l| ≤ (2 : ℝ) ^ (c - P - F.f - 3) := by
    have := ru_err_le (F := F) (x := (((-(ik : ℚ)) * l : ℚ) : ℝ)) (k := c - P - 2) (by omega) (by rw [show c - P - 2 + 1 = c - P - 1 by ring]; exact hlop)
    rw [show c - P - 2 - (F.f : ℤ) - 1 = c - P - F.f - 3 by ring] at this
    rw [flo.2]; push_cast at this ⊢; exact this
  refine ⟨hkf.1, hkf.2, le_trans C.b_ge hikB, le_trans hikA C.a_le, fhi.1, flo.1, fhi.2, hdist, ?_, ?_⟩
  rotate_left
  · have h3 : |numOf lo| ≤ (2 : ℚ) ^ (2 * (F.e : ℤ) + 1 - F.f) := by
      rw [flo.2]; exact le_trans (ru_abs_le (k := c - P - 1) (by omega) hlop) (Float.zle (by omega))
    rw [r2cast]; exact_mod_cast h3
  have e : ((numOf hi : ℝ) + numOf lo) - (v - ik * Real.log 2) =
      (ik : ℝ) * (-((l : ℝ) - (Real.log 2 - Lh))) + (((numOf lo : ℚ) : ℝ) - (-(ik : ℝ)) * l) := by
    rw [fhi.2]; push_cast; ring
  rw [e]
  have t := abs_add_le ((ik : ℝ) * (-((l : ℝ) - (Real.log 2 - Lh)))) (((numOf lo : ℚ) : ℝ) - (-(ik : ℝ)) * l)
  have t1 : |(ik : ℝ) * (-((l : ℝ) - (Real.log 2 - Lh)))| ≤ (2 : ℝ) ^ (c - P - F.f - 3) := by
    rw [abs_mul, abs_neg, show c - P - (F.f : ℤ) - 3 = c + (-P - F.f - 3) by ring, r2add]
    exact mul_le_mul hikR hlerr (abs_nonneg _) (r2 _).le
  have t2 : (2 : ℝ) ^ (c - P - F.f - 3) ≤ (2 : ℝ) ^ (2 * ((F.e : ℤ) - F.f) - 1) := r2le (by omega)
  have t3 : (2 : ℝ) ^ (2 * ((F.e : ℤ) - F.f)) = 2 * (2 : ℝ) ^ (2 * ((F.e : ℤ) - F.f) - 1) := by
    rw [show 2 * ((F.e : ℤ) - F.f) = 1 + (2 * ((F.e : ℤ) - F.f) - 1) by ring, r2add, zpow_one]; congr 3; ring
  linarith

end Verif.Elem
