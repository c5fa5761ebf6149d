import Verif.Rootn.Lemmas

namespace Verif.Rootn

open Verif.Float (Fmt Val)
open Verif.Elem
open Verif.Check
open Verif.Atan (fadd_val fdiv_val)

theorem fin_one {F : Fmt} (hF : Format F) : Fin' F (.num 1) := by
  have := fin_int hF.wide.e2 (n := 1) (Wide.small hF.wide (n := 1) (by norm_num) (by norm_num)).1 (by have := hF.big; simp; omega) (by norm_num)
  simpa using this

theorem fin_mone {F : Fmt} (hF : Format F) : Fin' F (.num (-1)) := (fneg_fin (fin_one hF)).1

/-- the factor of the subnormal numbers -/
theorem factor {F : Fmt} (hF : Format F) : cst F ((2 : ℝ) ^ (F.f + 1)) = .num ((2 : ℚ) ^ (F.f + 1)) := by
  have he := hF.wide.e2
  have h1 : (2 : ℝ) ^ (F.f + 1) = (((2 : ℚ) ^ (F.f + 1) : ℚ) : ℝ) := by push_cast; rfl
  have hg := hF.gap
  unfold cst
  rw [h1]
  refine rnd_exact he _ ((finite_iff he).2 ⟨?_, ?_⟩) (by positivity)
  · have := unb_pow (F := F) (k := ((F.f + 1 : ℕ) : ℤ)) (by have : F.emin = 1 - F.emax := rfl; omega)
    rwa [zpow_natCast] at this
  · rw [abs_of_pos (by positivity)]
    refine le_trans ?_ (omega_ge he)
    rw [← zpow_natCast]
    exact Float.zle (by push_cast; omega)

/-- what the extraction of the mantissa and of the exponent gives, subnormal numbers included -/
theorem decomp {F : Fmt} (hF : Format F) (nm : Val) {v : ℚ} (hv : F.Finite v) (h0 : v ≠ 0) :
    ∃ w : ℚ, corrected F (.num v) = .num w ∧ w ≠ 0 ∧ (w < 0 ↔ v < 0) ∧ correctedE F (.num v) = Int.log 2 |v| ∧
      mantOf F nm (.num w) = .num (|v| * (2 : ℚ) ^ (-Int.log 2 |v|)) ∧ |(Int.log 2 |v|)| ≤ F.emax + F.f + 1 := by
  have he := hF.wide.e2
  have hem : F.emin = 1 - F.emax := rfl
  have hpos : 0 < |v| := abs_pos.2 h0
  obtain ⟨hu, ho⟩ := (finite_iff he).1 hv
  have hlow : (2 : ℚ) ^ (F.emin - F.f) ≤ |v| := by
    obtain ⟨k, hk⟩ := unb_min_grid hu
    have hk0 : k ≠ 0 := by rintro rfl; apply h0; rw [hk]; simp
    have : (1 : ℚ) ≤ |(k : ℚ)| := by exact_mod_cast Int.one_le_abs hk0
    rw [hk, abs_mul, abs_of_pos (Float.zp _)]
    have := Float.zp (F.emin - F.f)
    nlinarith
  have hl1 : F.emin - F.f ≤ Int.log 2 |v| := Float.le_log hpos hlow
  have hl2 : Int.log 2 |v| ≤ F.emax := by
    have h3 := lt_of_le_of_lt ho (omega_lt he)
    have := Float.pow_log_le hpos
    by_contra hc
    have : (2 : ℚ) ^ (F.emax + 1) ≤ (2 : ℚ) ^ Int.log 2 |v| := Float.zle (by omega)
    linarith
  have hb : |(Int.log 2 |v|)| ≤ F.emax + F.f + 1 := abs_le.2 ⟨by omega, by omega⟩
  by_cases hs : |v| < (2 : ℚ) ^ F.emin
  · have hsub : isSubnormal F (.num v) = true := decide_eq_true hs
    have hpp : (0 : ℚ) < 2 ^ (F.f + 1) := by positivity
    have hlog : Int.log 2 |v * 2 ^ (F.f + 1)| = Int.log 2 |v| + (F.f + 1) := by
      have h1 := Float.pow_log_le hpos
      have h2 := Float.lt_pow_log (a := |v|)
      have e : (2 : ℚ) ^ (F.f + 1) = 2 ^ ((F.f : ℤ) + 1) := by rw [← zpow_natCast]; push_cast; rfl
      refine Float.log_eq ?_ ?_
      · rw [abs_mul, abs_of_pos hpp, Float.zadd, e]
        exact mul_le_mul_of_nonneg_right h1 (by positivity)
      · rw [abs_mul, abs_of_pos hpp, show Int.log 2 |v| + ((F.f : ℤ) + 1) + 1 = (Int.log 2 |v| + 1) + (F.f + 1) by ring, Float.zadd, e]
        exact mul_lt_mul_of_pos_right h2 (by positivity)
    have hge : (2 : ℚ) ^ F.emin ≤ |v * 2 ^ (F.f + 1)| := by
      have e : (2 : ℚ) ^ (F.f + 1) = 2 ^ ((F.f : ℤ) + 1) := by rw [← zpow_natCast]; push_cast; rfl
      rw [abs_mul, abs_of_pos hpp, e]
      have h1 : (2 : ℚ) ^ F.emin ≤ 2 ^ (F.emin - F.f) * 2 ^ ((F.f : ℤ) + 1) := by rw [← Float.zadd]; exact Float.zle (by omega)
      exact h1.trans (mul_le_mul_of_nonneg_right hlow (by positivity))
    have hw0 : v * 2 ^ (F.f + 1) ≠ 0 := mul_ne_zero h0 hpp.ne'
    have hwu : Unbounded F (v * 2 ^ (F.f + 1)) := by
      obtain ⟨n, q, h1, h2, h3⟩ := hu
      refine ⟨n, q + (F.f + 1), h1, by omega, ?_⟩
      rw [h3, mul_assoc, ← zpow_natCast, ← Float.zadd]; congr 2; push_cast; ring
    have hwf : F.Finite (v * 2 ^ (F.f + 1)) := by
      refine (finite_iff he).2 ⟨hwu, le_trans ?_ (omega_ge he)⟩
      rw [abs_mul, abs_of_pos hpp]
      have e : (2 : ℚ) ^ (F.f + 1) = 2 ^ ((F.f : ℤ) + 1) := by rw [← zpow_natCast]; push_cast; rfl
      calc |v| * 2 ^ (F.f + 1) ≤ 2 ^ F.emin * 2 ^ ((F.f : ℤ) + 1) := by rw [e]; exact mul_le_mul_of_nonneg_right hs.le (by positivity)
        _ = 2 ^ (F.emin + (F.f + 1)) := (Float.zadd _ _).symm
        _ ≤ _ := Float.zle (by have := hF.gap; omega)
    have hc : corrected F (.num v) = .num (v * 2 ^ (F.f + 1)) := by
      unfold corrected
      rw [hsub, if_pos rfl, factor hF]
      unfold fmul
      simp only [isNaN, isInf, Bool.or_self, Bool.false_eq_true, if_false, numOf]
      exact rnd_exact he _ hwf hw0
    refine ⟨_, hc, hw0, ⟨fun h => neg_of_mul_neg_left h hpp.le, fun h => mul_neg_of_neg_of_pos h hpp⟩, ?_, ?_, hb⟩
    · unfold correctedE
      rw [hsub, if_pos rfl, hc]
      show (if _ then _ else _) - ((F.f : ℤ) + 1) = _
      rw [if_neg (not_lt.2 hge), hlog]; ring
    · show (if _ then _ else _) = _
      rw [if_neg (not_lt.2 hge), hlog, abs_mul, abs_of_pos hpp]
      congr 1
      rw [← zpow_natCast, mul_assoc, ← Float.zadd]; congr 2; push_cast; ring
  · have hsub : isSubnormal F (.num v) = false := decide_eq_false hs
    have hc : corrected F (.num v) = .num v := by unfold corrected; rw [hsub]; rfl
    refine ⟨v, hc, h0, Iff.rfl, ?_, ?_, hb⟩
    · unfold correctedE
      rw [hsub, if_neg (by simp), hc]
      show (if _ then _ else _) = _
      rw [if_neg hs]
    · show (if _ then _ else _) = _
      rw [if_neg hs]

/-- the mantissa is a number of the format -/
theorem mant_fin {F : Fmt} (hF : Format F) {v : ℚ} (hv : F.Finite v) (h0 : v ≠ 0) :
    IsReal F (.num (|v| * (2 : ℚ) ^ (-Int.log 2 |v|))) ((|v| * (2 : ℚ) ^ (-Int.log 2 |v|) : ℚ) : ℝ) ∧
      1 ≤ |v| * (2 : ℚ) ^ (-Int.log 2 |v|) ∧ |v| * (2 : ℚ) ^ (-Int.log 2 |v|) < 2 := by
  have he := hF.wide.e2
  have hem : F.emin = 1 - F.emax := rfl
  have hbig := hF.big
  have hpos : 0 < |v| := abs_pos.2 h0
  obtain ⟨hu, ho⟩ := (finite_iff he).1 hv
  have h1 := Float.pow_log_le hpos
  have h2 := Float.lt_pow_log (a := |v|)
  have hz := Float.zp (-Int.log 2 |v|)
  have g1 : 1 ≤ |v| * (2 : ℚ) ^ (-Int.log 2 |v|) := by
    have := mul_le_mul_of_nonneg_right h1 hz.le
    rwa [← Float.zadd, add_neg_cancel, zpow_zero] at this
  have g2 : |v| * (2 : ℚ) ^ (-Int.log 2 |v|) < 2 := by
    have := mul_lt_mul_of_pos_right h2 hz
    rwa [← Float.zadd, show Int.log 2 |v| + 1 + -Int.log 2 |v| = 1 by ring, zpow_one] at this
  have hua : Unbounded F |v| := by
    rcases abs_choice v with h | h <;> rw [h]
    · exact hu
    · exact unb_neg hu
  have hmu : Unbounded F (|v| * (2 : ℚ) ^ (-Int.log 2 |v|)) :=
    unb_scale hua (a := Int.log 2 |v|) (by rw [abs_abs]; exact h1) (by omega)
  refine ⟨isReal_rv.2 ⟨fin_num he hmu ?_ (by linarith), rfl⟩, g1, g2⟩
  refine abs_le_omega_of he ?_
  rw [abs_of_pos (by linarith)]
  have : (2 : ℚ) ^ (1 : ℤ) ≤ (2 : ℚ) ^ F.emax := Float.zle (by omega)
  rw [zpow_one] at this; linarith

theorem pow_near {δ : ℝ} (h : |δ| ≤ 1) : |(2 : ℝ) ^ δ - 1| ≤ |δ| := by
  obtain ⟨h1, h2⟩ := abs_le.1 h
  have hl : δ * Real.log 2 + 1 ≤ (2 : ℝ) ^ δ := by
    rw [Real.rpow_def_of_pos (by norm_num), mul_comm (Real.log 2)]; exact Real.add_one_le_exp _
  have l1 : Real.log 2 ≤ 1 := by have := Real.log_two_lt_d9; linarith
  have l0 : 0 ≤ Real.log 2 := Real.log_nonneg (by norm_num)
  rcases le_total 0 δ with hd | hd
  · have hb := rpow_one_add_le_one_add_mul_self (s := 1) (by norm_num) hd h2
    norm_num at hb
    rw [abs_of_nonneg hd, abs_le]
    constructor <;> nlinarith
  · have hb : (2 : ℝ) ^ δ ≤ 1 := Real.rpow_le_one_of_one_le_of_nonpos (by norm_num) hd
    rw [abs_of_nonpos hd, abs_le]
    constructor <;> nlinarith

/-- the quotient of the logarithm by the order -/
theorem log_part {F : Fmt} (hF : Format F) {n : ℤ} (hn : 2 ≤ |n|) (hn' : |n| ≤ 2 ^ 63) {l : Val} {t η : ℝ} (hl : Fin' F l) (ht0 : 0 ≤ t) (ht1 : t ≤ 1)
    (hη : η ≤ 1 / 64) (h : |rv l - t| ≤ η) :
    Fin' F (fdiv F l (cst F (n : ℝ))) ∧ |rv (fdiv F l (cst F (n : ℝ))) - t / n| ≤ η + 5 / 4 * uu F ∧ |rv (fdiv F l (cst F (n : ℝ)))| ≤ 3 / 4 := by
  have he := hF.wide.e2
  have h0 : n ≠ 0 := by rintro rfl; simp at hn
  obtain ⟨n1, n2, -⟩ := order_conv hF h0 hn'
  have hu := uu_small hF
  have hu0 := uu_pos F
  have hee0 := ee_pos F
  have hee : ee F ≤ uu F * (1 / 1000000) := (ee_small hF).trans (mul_le_mul_of_nonneg_left (by norm_num) hu0.le)
  have hbig := emax_big hF
  have hnR : (2 : ℝ) ≤ |(n : ℝ)| := by exact_mod_cast hn
  have hnr0 : (n : ℝ) ≠ 0 := by exact_mod_cast h0
  generalize cst F (n : ℝ) = nF at *
  obtain ⟨N, hN⟩ : ∃ N, N = rv nF := ⟨_, rfl⟩
  rw [← hN] at n2
  have Nb : |(n : ℝ)| * (1 - uu F) ≤ |N| := by
    have := abs_sub_abs_le_abs_sub (n : ℝ) N
    rw [abs_sub_comm] at this; linarith
  have N1 : 1999 / 1000 ≤ |N| := by nlinarith only [Nb, hu, hnR]
  have Npos : 0 < |N| := by linarith
  have N0 : N ≠ 0 := abs_pos.1 Npos
  have hη0 : 0 ≤ η := (abs_nonneg _).trans h
  have lb : |rv l| ≤ 1 + 1 / 64 := by
    have := abs_sub_abs_le_abs_sub (rv l) t
    rw [abs_of_nonneg ht0] at this; linarith
  have qb : |rv l / N| ≤ 51 / 100 := by rw [abs_div, div_le_iff₀ Npos]; linarith
  obtain ⟨a1, a2⟩ := fdiv_val he hl n1 (by rw [← hN]; exact N0) (by
    rw [← hN]; refine qb.trans ?_; refine le_trans ?_ hbig; norm_num)
  rw [← hN] at a2
  have a3 := ru_abs F (rv l / N)
  rw [← a2] at a3
  have a4 := mul_le_mul_of_nonneg_left qb hu0.le
  have e1 : rv l / N - t / n = (rv l - t) / N + t * ((n - N) / (N * n)) := by field_simp; ring
  have b1 : |(rv l - t) / N| ≤ 51 / 100 * η := by
    rw [abs_div, div_le_iff₀ Npos]
    have : η * (1999 / 1000) ≤ η * |N| := mul_le_mul_of_nonneg_left N1 hη0
    linarith
  have b2 : |t * (((n : ℝ) - N) / (N * n))| ≤ 51 / 100 * uu F := by
    rw [abs_mul, abs_of_nonneg ht0, abs_div, abs_mul, abs_sub_comm]
    have hnp : 0 < |(n : ℝ)| := by linarith
    have h1 : |N - n| / (|N| * |(n : ℝ)|) ≤ 51 / 100 * uu F := by
      rw [div_le_iff₀ (by positivity)]
      have : uu F * |(n : ℝ)| * (1999 / 1000) ≤ uu F * |(n : ℝ)| * |N| := mul_le_mul_of_nonneg_left N1 (by positivity)
      have h2 : 0 ≤ uu F * |(n : ℝ)| := by positivity
      linarith
    have h3 : 0 ≤ |N - n| / (|N| * |(n : ℝ)|) := by positivity
    nlinarith only [h1, h3, ht0, ht1]
  have b3 := abs_add_le ((rv l - t) / N) (t * (((n : ℝ) - N) / (N * n)))
  rw [← e1] at b3
  have b4 := abs_sub_le (rv (fdiv F l nF)) (rv l / N) (t / n)
  refine ⟨a1, by linarith, ?_⟩
  have := abs_sub_abs_le_abs_sub (rv (fdiv F l nF)) (rv l / N)
  linarith

/-- the exponential of a reduced argument -/
theorem exp_part {F : Fmt} (hF : Format F) {P : Val → Val} {cv : Val → ℤ}
    (hP : ∀ a r, IsReal F a r → |r| ≤ 1 / 16 → ∃ q, IsReal F (P a) q ∧ |q - ((2 : ℝ) ^ r - 1)| ≤ (2 : ℝ) ^ (-(F.f : ℤ) - 3))
    {a : Val} (ha : Fin' F a) (h : |rv a| ≤ 3 / 4) :
    ∃ b, exp2Model F P cv a = some b ∧ Fin' F b ∧ |rv b - (2 : ℝ) ^ rv a| ≤ 4 * uu F * (2 : ℝ) ^ rv a := by
  obtain ⟨h1, h2⟩ := abs_le.1 h
  have hbig := hF.big
  have hem : F.emin = 1 - F.emax := rfl
  have hb1 : (120 : ℝ) ≤ F.emax := by exact_mod_cast hbig
  have hb2 : (F.emin : ℝ) = 1 - F.emax := by rw [hem]; push_cast; ring
  have hf0 : (0 : ℝ) ≤ F.f := Nat.cast_nonneg _
  obtain ⟨b, y, c1, c2, c3⟩ := C88_exp2_error_partial F hF.wide.f hF.wide.e hF.wide.m P cv hP a (rv a) (isReal_rv.2 ⟨ha, rfl⟩) (by linarith) (by linarith)
  obtain ⟨d1, rfl⟩ := isReal_rv.1 c2
  refine ⟨b, c1, d1, ?_⟩
  have hmax : max ((2 : ℝ) ^ rv a) ((2 : ℝ) ^ F.emin) = (2 : ℝ) ^ rv a := by
    apply max_eq_left
    rw [← Real.rpow_intCast]
    exact Real.rpow_le_rpow_of_exponent_le (by norm_num) (by linarith)
  have h4 : (2 : ℝ) ^ (1 - (F.f : ℤ)) = 4 * uu F := by
    unfold uu
    rw [show (1 : ℤ) - F.f = 2 + (-(F.f : ℤ) - 1) by ring, r2add]; norm_num
  rw [hmax, h4] at c3
  exact c3

end Verif.Rootn
