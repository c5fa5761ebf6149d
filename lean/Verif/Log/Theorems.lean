import Verif.Log.Main

/-! C109: the generated natural logarithm. -/

namespace Verif.Log

open Verif.Float (Fmt Val)
open Verif.Blocks

/-- binary32 -/
def f32 : Fmt := ⟨8, 23⟩

/-- binary64 -/
def f64 : Fmt := ⟨11, 52⟩

/-- **C109**, special values: for every format, polynomial and datum the special cases of IEEE-754 are met, with their exceptions. -/
theorem C109_special (F : Fmt) (rnd P : ℚ → ℚ) (a : Val) (ha : F.Datum a) :
    LogSpecial a (genLog F rnd P a).1 (genLog F rnd P a).2 := by
  have hneg : ∀ v : ℚ, v < 0 → genLog F rnd P (.num v) = (.qNaN, [.invalid]) := by
    intro v hv
    have : Elem.flt (.num v) .plusZero = true := by
      simp only [Elem.flt, Check.cLe, Special.finVal, Bool.and_eq_true, Bool.not_eq_true', decide_eq_true_eq, decide_eq_false_iff_not]
      exact ⟨hv.le, not_le.2 hv⟩
    unfold genLog; rw [if_pos this]
  constructor
  · rintro rfl; exact ⟨rfl, rfl⟩
  · rintro rfl; exact ⟨rfl, rfl⟩
  · intro hn hz
    cases a with
    | minusInf => exact ⟨rfl, rfl⟩
    | minusZero => exact absurd rfl hz
    | num v =>
      rw [hneg v (by simpa [Special.neg] using hn)]; exact ⟨rfl, rfl⟩
    | _ => simp [Special.neg] at hn
  · intro hz
    cases a with
    | plusZero => exact ⟨rfl, rfl⟩
    | minusZero => exact ⟨rfl, rfl⟩
    | num v => exact absurd (by simpa [Special.IsZero, Special.finVal] using hz) ha.2
    | _ => simp [Special.IsZero, Special.finVal] at hz
  · rintro rfl; exact ⟨rfl, rfl⟩

example : f32.Datum (.num (-3)) ∧ Special.neg (.num (-3)) = true :=
  ⟨⟨⟨-3, 23, by norm_num [f32], by norm_num [f32, Fmt.emin, Fmt.emax], by norm_num [f32, Fmt.emax], by norm_num [f32]⟩, by norm_num⟩, by
    simp [Special.neg]⟩

/-- the formats for which the scheme is designed: binary32, binary64 and what lies between -/
structure Suitable (F : Fmt) : Prop where
  e : 8 ≤ F.e
  lo : F.e + 15 ≤ F.f
  f : 23 ≤ F.f
  hi : F.f ≤ 99

theorem suitable32 : Suitable f32 := ⟨by decide, by decide, by decide, by decide⟩
theorem suitable64 : Suitable f64 := ⟨by decide, by decide, by decide, by decide⟩

theorem finite_rep {F : Fmt} {x : ℚ} (h : F.Finite x) : Rep (F.f + 1) ⊥ x := by
  obtain ⟨m, E, hm, -, -, rfl⟩ := h
  exact ⟨m, E - F.f, hm, bot_le, rfl⟩

theorem Rep_shift {p : ℕ} {x : ℚ} (h : Rep p ⊥ x) (e : ℤ) : Rep p ⊥ (x * 2 ^ e) := by
  obtain ⟨m, f, hm, -, rfl⟩ := h
  exact ⟨m, f + e, hm, bot_le, by rw [zpow_add₀ (by norm_num)]; ring⟩

theorem log_shift {x : ℚ} (hx : 0 < x) (n : ℤ) : Int.log 2 (x * 2 ^ n) = Int.log 2 x + n := by
  have hy : 0 < x * 2 ^ n := mul_pos hx (zpow_pos (by norm_num) _)
  have h1 := Int.zpow_log_le_self (b := 2) (by norm_num) hx
  have h2 := Int.lt_zpow_succ_log_self (b := 2) (by norm_num) x
  push_cast at h1 h2
  have hp : (0 : ℚ) < 2 ^ n := zpow_pos (by norm_num) _
  have a := (Int.zpow_le_iff_le_log (R := ℚ) (b := 2) (by norm_num) (x := Int.log 2 x + n) hy).1 (by
    push_cast; rw [zpow_add₀ (by norm_num)]; exact mul_le_mul_of_nonneg_right h1 hp.le)
  have b := (Int.lt_zpow_iff_log_lt (R := ℚ) (b := 2) (by norm_num) (x := Int.log 2 x + n + 1) hy).1 (by
    push_cast; rw [show Int.log 2 x + n + 1 = (Int.log 2 x + 1) + n by ring, zpow_add₀ (by norm_num)]
    exact mul_lt_mul_of_pos_right h2 hp)
  omega

/-- range of the exponent of a positive number -/
theorem exp_range {F : Fmt} {x : ℚ} (h : F.Finite x) (hx : 0 < x) : F.emin - F.f ≤ Int.log 2 x ∧ Int.log 2 x ≤ F.emax := by
  obtain ⟨m, E, hm, h1, h2, rfl⟩ := h
  have hw : (0 : ℚ) < 2 ^ (E - F.f) := zpow_pos (by norm_num) _
  have hm0 : 1 ≤ m := by
    have : (0 : ℚ) < m := by by_contra h; push Not at h; nlinarith
    exact_mod_cast this
  rw [abs_of_pos (by omega)] at hm
  have hm1 : (1 : ℚ) ≤ m := by exact_mod_cast hm0
  have hm2 : (m : ℚ) < 2 ^ (F.f + 1) := by exact_mod_cast hm
  constructor
  · refine (Int.zpow_le_iff_le_log (R := ℚ) (b := 2) (by norm_num) hx).1 ?_
    push_cast
    calc (2 : ℚ) ^ (F.emin - F.f) ≤ 2 ^ (E - F.f) := zpow_le_zpow_right₀ (by norm_num) (by omega)
      _ ≤ m * 2 ^ (E - F.f) := le_mul_of_one_le_left hw.le hm1
  · have := (Int.lt_zpow_iff_log_lt (R := ℚ) (b := 2) (by norm_num) (x := E + 1) hx).1 (by
      push_cast
      calc (m : ℚ) * 2 ^ (E - F.f) < 2 ^ (F.f + 1) * 2 ^ (E - F.f) := mul_lt_mul_of_pos_right hm2 hw
        _ = 2 ^ (E + 1) := by rw [← zpow_natCast, ← zpow_add₀ (by norm_num)]; congr 1; push_cast; ring)
    omega

/-- The generated function on a positive number, from the significand that the seed sees. -/
theorem genLog_err {F : Fmt} (hF : Suitable F) {rnd P : ℚ → ℚ} (hr : Nearest (F.f + 1) ⊥ rnd) {η : ℝ} (hP : PolyOk (F.f + 1) η P)
    (hη : η ≤ 1 / 64) {x : ℚ} (hx : F.Finite x) (h0 : 0 < x) (hc : Coherent (x * 2 ^ (-Int.log 2 x))) :
    ∃ r, Special.finVal (genLog F rnd P (.num x)).1 = some r ∧ (genLog F rnd P (.num x)).2 = [] ∧
      |(r : ℝ) - Real.log x| ≤ 2 * (2 : ℝ) ^ (-((F.f + 1 : ℕ) : ℤ)) * |Real.log x| + 1 / 64 * ((2 : ℝ) ^ (-((F.f + 1 : ℕ) : ℤ)) + η) := by
  obtain ⟨e1, e2⟩ := exp_range hx h0
  obtain ⟨f1, f2, f3, f4⟩ := hF
  have hhi : hiSize F = F.f - (F.e + 1) := rfl
  have hph : F.f + 1 - hiSize F = (F.e - 1) + 3 := by omega
  have hem : F.emax = 2 ^ (F.e - 1) - 1 := rfl
  have hen : F.emin = 1 - F.emax := rfl
  have h128 : (128 : ℤ) ≤ 2 ^ (F.e - 1) := by
    calc (128 : ℤ) = 2 ^ 7 := by norm_num
      _ ≤ 2 ^ (F.e - 1) := pow_le_pow_right₀ (by norm_num) (by omega)
  have hval : ∀ v : ℚ, Special.finVal (toVal v) = some v := by
    intro v; unfold toVal; split_ifs with h
    · rw [h]; rfl
    · rfl
  have hlt : Elem.flt (.num x) .plusZero = false := by
    simp only [Elem.flt, Check.cLe, Special.finVal, Bool.and_eq_false_iff, Bool.not_eq_false', decide_eq_true_eq, decide_eq_false_iff_not]
    exact Or.inl (not_le.2 h0)
  have hz : Elem.isZero (.num x) = false := by simp [Elem.isZero, h0.ne']
  have hpow : (2 : ℤ) ^ (F.e - 1 + 3) = 8 * 2 ^ (F.e - 1) := by rw [pow_add]; ring
  by_cases hs : |x| < (2 : ℚ) ^ F.emin
  · have hE : genLog F rnd P (.num x) = (toVal (reduced (F.f + 1) (hiSize F) rnd P (rnd (x * 2 ^ 100)) (-100)), []) := by
      unfold genLog
      rw [hlt]
      simp [Elem.isInfOrNaN, Elem.isNaN, Elem.isInf, Elem.isSubnormal, hs, hz, Check.numOf]
    rw [hE]
    refine ⟨_, hval _, rfl, ?_⟩
    have hsh : x * 2 ^ 100 = x * 2 ^ (100 : ℤ) := by norm_cast
    rw [hsh, rnd_exact hr (Rep_shift (finite_rep hx) 100)]
    have hlg := log_shift h0 100
    have hpos : 0 < x * 2 ^ (100 : ℤ) := mul_pos h0 (zpow_pos (by norm_num) _)
    have hsig : x * 2 ^ (100 : ℤ) * 2 ^ (-Int.log 2 (x * 2 ^ (100 : ℤ))) = x * 2 ^ (-Int.log 2 x) := by
      rw [hlg, mul_assoc, ← zpow_add₀ (by norm_num)]; congr 2; ring
    have := reduced_err (p := F.f + 1) (h := hiSize F) (by omega) (by omega) (by omega) hr hP hη hpos (by rw [hsig]; exact hc)
      (corr := -100) (by
        rw [hlg, hph, hpow, show Int.log 2 x + 100 + -100 = Int.log 2 x by ring]
        have : |Int.log 2 x| ≤ 2 ^ (F.e - 1) + 99 := abs_le.2 ⟨by omega, by omega⟩
        omega)
    have hx' : (0 : ℝ) < x := by exact_mod_cast h0
    have hl : Real.log ((x * 2 ^ (100 : ℤ) : ℚ) : ℝ) + ((-100 : ℤ) : ℝ) * Real.log 2 = Real.log x := by
      rw [Rat.cast_mul, Rat.cast_zpow, Rat.cast_ofNat, Real.log_mul hx'.ne' (zpow_pos (by norm_num) _).ne', Real.log_zpow]; push_cast; ring
    rwa [hl] at this
  · have hE : genLog F rnd P (.num x) = (toVal (reduced (F.f + 1) (hiSize F) rnd P x 0), []) := by
      unfold genLog
      rw [hlt]
      simp [Elem.isInfOrNaN, Elem.isNaN, Elem.isInf, Elem.isSubnormal, hs, Check.numOf]
    rw [hE]
    refine ⟨_, hval _, rfl, ?_⟩
    have := reduced_err (p := F.f + 1) (h := hiSize F) (by omega) (by omega) (by omega) hr hP hη h0 hc
      (corr := 0) (by
        rw [hph, hpow, add_zero]
        have : |Int.log 2 x| ≤ 2 ^ (F.e - 1) + 99 := abs_le.2 ⟨by omega, by omega⟩
        omega)
    simpa using this

/-- **C109**, binary32: for every positive number, subnormal or not, every rounding to nearest and every polynomial whose evaluation is within
`η` of `log(1+r)/r - 1` on the reduced arguments, the result is within `2^-23 |log x| + (2^-24 + η)/64` of the logarithm.  Missing for the
advertised faithful rounding: a bound relative to `|log x|` near one (see `C109_near_one_wrong`). -/
theorem C109_binary32_partial {rnd P : ℚ → ℚ} (hr : Nearest 24 ⊥ rnd) {η : ℝ} (hP : PolyOk 24 η P) (hη : η ≤ 1 / 64) {x : ℚ}
    (hx : f32.Finite x) (h0 : 0 < x) :
    ∃ r, Special.finVal (genLog f32 rnd P (.num x)).1 = some r ∧ (genLog f32 rnd P (.num x)).2 = [] ∧
      |(r : ℝ) - Real.log x| ≤ (2 : ℝ) ^ (-23 : ℤ) * |Real.log x| + ((2 : ℝ) ^ (-24 : ℤ) + η) / 64 := by
  obtain ⟨r, a, b, c⟩ := genLog_err suitable32 hr hP hη hx h0
    (coherent_of_rep (sig_range h0).2 (Rep_shift (finite_rep hx) _))
  refine ⟨r, a, b, c.trans (le_of_eq ?_)⟩
  norm_num [f32]; ring

/-- the significand of `x` -/
def Significand (x m : ℚ) : Prop := 1 ≤ m ∧ m < 2 ∧ ∃ e : ℤ, x = m * 2 ^ e

theorem significand_eq {x m : ℚ} (h : Significand x m) : m = x * 2 ^ (-Int.log 2 x) := by
  obtain ⟨h1, h2, e, rfl⟩ := h
  rw [log_shift (by linarith) e, log_one h1 h2, mul_assoc, ← zpow_add₀ (by norm_num)]
  simp

theorem round24_err {m : ℚ} (h1 : 1 ≤ m) (h2 : m < 2) : |m - roundNearest 24 ⊥ m| ≤ 2 ^ (-24 : ℤ) := by
  have hl : Int.log 2 |m| = 0 := by rw [abs_of_pos (by linarith)]; exact log_one h1 h2
  have he : roundNearest 24 ⊥ m = (round (m / (2 : ℚ) ^ (-23 : ℤ)) : ℤ) * (2 : ℚ) ^ (-23 : ℤ) := by
    show (round (m / (2 : ℚ) ^ (Int.log 2 |m| - (24 : ℕ) + 1)) : ℤ) * (2 : ℚ) ^ (Int.log 2 |m| - (24 : ℕ) + 1) = _
    rw [hl]; norm_num
  rw [he]
  have h := abs_sub_round (m / (2 : ℚ) ^ (-23 : ℤ))
  have hw : (0 : ℚ) < (2 : ℚ) ^ (-23 : ℤ) := zpow_pos (by norm_num) _
  generalize round (m / (2 : ℚ) ^ (-23 : ℤ)) = n at *
  have e1 : m - n * (2 : ℚ) ^ (-23 : ℤ) = (m / (2 : ℚ) ^ (-23 : ℤ) - n) * (2 : ℚ) ^ (-23 : ℤ) := by
    rw [sub_mul, div_mul_cancel₀ _ hw.ne']
  rw [e1, abs_mul, abs_of_pos hw]
  calc _ ≤ 1 / 2 * (2 : ℚ) ^ (-23 : ℤ) := mul_le_mul_of_nonneg_right h hw.le
    _ = _ := by norm_num

/-- **C109**, binary64 and the other formats: the same bound when the significand is not within `2^-23` below a multiple of `1/128`. -/
theorem C109_wide_partial {F : Fmt} (hF : Suitable F) {rnd P : ℚ → ℚ} (hr : Nearest (F.f + 1) ⊥ rnd) {η : ℝ} (hP : PolyOk (F.f + 1) η P)
    (hη : η ≤ 1 / 64) {x m : ℚ} (hx : F.Finite x) (h0 : 0 < x) (hm : Significand x m)
    (hg : ∀ j : ℕ, m < 1 + j / 128 → m + 2 ^ (-23 : ℤ) ≤ 1 + j / 128) :
    ∃ r, Special.finVal (genLog F rnd P (.num x)).1 = some r ∧ (genLog F rnd P (.num x)).2 = [] ∧
      |(r : ℝ) - Real.log x| ≤ 2 * (2 : ℝ) ^ (-((F.f + 1 : ℕ) : ℤ)) * |Real.log x| + 1 / 64 * ((2 : ℝ) ^ (-((F.f + 1 : ℕ) : ℤ)) + η) := by
  refine genLog_err hF hr hP hη hx h0 ?_
  rw [← significand_eq hm]
  obtain ⟨h1, h2, -⟩ := hm
  obtain ⟨i1, i2, i3⟩ := index_spec h1 h2
  have he := abs_le.1 (round24_err h1 h2)
  have hn := roundNearest_nearest (p := 24) (by norm_num) ⊥ m
  have hlo : 1 + (index m : ℚ) / 128 ≤ roundNearest 24 ⊥ m := by
    by_contra hlt
    push Not at hlt
    have hrep : Rep 24 ⊥ (1 + (index m : ℚ) / 128) :=
      ⟨128 + index m, -7, by rw [abs_of_nonneg (by omega)]; norm_num; omega, bot_le, by push_cast; norm_num; ring⟩
    have := hn.2 _ hrep
    rw [abs_of_pos (by linarith), abs_of_nonneg (by linarith)] at this
    linarith
  have hhi : roundNearest 24 ⊥ m < 1 + ((index m : ℚ) + 1) / 128 := by
    have := hg (index m + 1) (by push_cast; exact i3)
    push_cast at this
    norm_num at this he
    linarith [he.1]
  have i1' : (index m : ℚ) + 1 ≤ 128 := by exact_mod_cast i1
  have hc2 : roundNearest 24 ⊥ m < 2 := by linarith
  refine ⟨hc2, ?_⟩
  generalize roundNearest 24 ⊥ m = c at *
  show ⌊(c - 1) * 128⌋₊ = index m
  rw [Nat.floor_eq_iff (by have : (0 : ℚ) ≤ index m := by positivity
                           linarith)]
  constructor <;> linarith

/-- **C109**, binary64: for every rounding to nearest and every polynomial, as good as it may be, the generated logarithm of
`3/2 - 2^-40` is wrong by more than `2^-8`: the seed rounds its operand to binary32 and looks up the next entry, the table of logarithms does not. -/
theorem C109_binary64_wrong {rnd P : ℚ → ℚ} (hr : Nearest 53 ⊥ rnd) {η : ℝ} (hP : PolyOk 53 η P) (hη : η ≤ 1 / 64) :
    f64.Finite (3 / 2 - 2 ^ (-40 : ℤ)) ∧ ∃ r, Special.finVal (genLog f64 rnd P (.num (3 / 2 - 2 ^ (-40 : ℤ)))).1 = some r ∧
      (2 : ℝ) ^ (-8 : ℤ) < |(r : ℝ) - Real.log (3 / 2 - (2 : ℝ) ^ (-40 : ℤ))| := by
  refine ⟨⟨3 * 2 ^ 51 - 2 ^ 12, 0, by norm_num [f64], by norm_num [f64, Fmt.emin, Fmt.emax], by norm_num [f64, Fmt.emax], by norm_num [f64]⟩, ?_⟩
  obtain ⟨m, hm⟩ : ∃ m : ℚ, m = 3 / 2 - 2 ^ (-40 : ℤ) := ⟨_, rfl⟩
  have hmR : (3 / 2 - (2 : ℝ) ^ (-40 : ℤ)) = (m : ℝ) := by rw [hm]; push_cast; norm_num
  rw [← hm, hmR]
  have b1 : 1 ≤ m := by rw [hm]; norm_num
  have b2 : m < 2 := by rw [hm]; norm_num
  have b3 : m < 3 / 2 := by rw [hm]; norm_num
  have b4 : 3 / 2 - 1 / 1000000 < m := by rw [hm]; norm_num
  have b3' : (m : ℝ) < 3 / 2 := by have := (Rat.cast_lt (K := ℝ)).2 b3; push_cast at this; linarith
  have b4' : (3 / 2 - 1 / 1000000 : ℝ) < m := by have := (Rat.cast_lt (K := ℝ)).2 b4; push_cast at this; linarith
  have hlog := log_one b1 b2
  have hE : genLog f64 rnd P (.num m) = (toVal (reduced 53 40 rnd P m 0), []) := by
    have hlt : Elem.flt (.num m) .plusZero = false := by
      simp only [Elem.flt, Check.cLe, Special.finVal, Bool.and_eq_false_iff, Bool.not_eq_false', decide_eq_true_eq, decide_eq_false_iff_not]
      exact Or.inl (not_le.2 (show (0 : ℚ) < m by linarith))
    have hs : ¬ |m| < (2 : ℚ) ^ f64.emin := by
      rw [abs_of_pos (by linarith)]; push Not
      have : (2 : ℚ) ^ f64.emin ≤ 2 ^ (0 : ℤ) := zpow_le_zpow_right₀ (by norm_num) (by norm_num [f64, Fmt.emin, Fmt.emax])
      linarith [this.trans_eq (zpow_zero _)]
    unfold genLog
    rw [hlt]
    simp only [Bool.false_eq_true, if_false, Elem.isInfOrNaN, Elem.isNaN, Elem.isInf, Bool.or_self, Elem.isSubnormal, hs, decide_false, Check.numOf]
    rfl
  have hidx : index m = 63 := by
    show ⌊(m - 1) * 128⌋₊ = 63
    rw [Nat.floor_eq_iff (by linarith)]; push_cast; constructor <;> linarith
  have hround : roundNearest 24 ⊥ m = 3 / 2 := by
    have hl : Int.log 2 |m| = 0 := by rw [abs_of_pos (by linarith)]; exact hlog
    show (round (m / (2 : ℚ) ^ (Int.log 2 |m| - (24 : ℕ) + 1)) : ℤ) * (2 : ℚ) ^ (Int.log 2 |m| - (24 : ℕ) + 1) = _
    rw [hl]
    have : round (m / (2 : ℚ) ^ ((0 : ℤ) - (24 : ℕ) + 1)) = 12582912 := by
      rw [round_eq, Int.floor_eq_iff, hm]; norm_num
    rw [this]; norm_num
  have hidx2 : index (3 / 2) = 64 := by
    show ⌊((3 / 2 : ℚ) - 1) * 128⌋₊ = 64
    rw [Nat.floor_eq_iff (by norm_num)]; norm_num
  have hseed : seed m = seedTab 64 := by
    unfold seed
    simp only
    rw [hround, log_one (by norm_num) (by norm_num)]
    simp [hidx2]
  have hA : argRed 53 m = 341 / 512 := by
    unfold argRed
    rw [if_neg (by rw [hidx]; norm_num), hseed, clear_seed (by norm_num) (by norm_num) (by norm_num)]
    norm_num [seedTab]
  have hT : seedTab 63 = 343 / 512 := by norm_num [seedTab]
  have htho : decide (rnReal 53 (Real.sqrt 2) < m) = true := by
    apply decide_eq_true
    have := (threshold (p := 53) (by norm_num)).2
    have : (rnReal 53 (Real.sqrt 2) : ℝ) < m := by norm_num at this; linarith
    exact_mod_cast this
  refine ⟨reduced 53 40 rnd P m 0, ?_, ?_⟩
  · rw [hE]; unfold toVal
    show Special.finVal (if _ then _ else _) = _
    split_ifs with h
    · rw [h]; rfl
    · rfl
  have hR : reduced 53 40 rnd P m 0 = split 53 40 rnd P m 1 true := by
    unfold reduced
    simp only
    rw [hlog, neg_zero, zpow_zero, mul_one, htho]
    rfl
  have hsp : split 53 40 rnd P m 1 true = combine rnd 1 (rnReal 40 (Real.log 2)) (rnReal 53 (Real.log 2 - rnReal 40 (Real.log 2)))
      (rnd (argRed 53 m * m - 1)) (P (rnd (argRed 53 m * m - 1))) (logTab 53 40 true (index m)).1 (logTab 53 40 true (index m)).2 := rfl
  rw [hR, hsp, hidx]
  obtain ⟨t1, t2, t3, t4⟩ := tab_err (p := 53) (h := 40) (by norm_num) (by norm_num) (by norm_num) (tho := true) (i := 63) (by norm_num) (by norm_num)
  have hred : |argRed 53 m * m - 1| ≤ 5 / 512 := by rw [hA, abs_le]; constructor <;> linarith
  have main := split_gen (p := 53) (h := 40) (by norm_num) (by norm_num) (by norm_num) hr hP hη hred (k := 1) (by norm_num) t1 t2 t3 t4
  generalize (combine rnd 1 (rnReal 40 (Real.log 2)) (rnReal 53 (Real.log 2 - rnReal 40 (Real.log 2))) (rnd (argRed 53 m * m - 1))
    (P (rnd (argRed 53 m * m - 1))) (logTab 53 40 true 63).1 (logTab 53 40 true 63).2 : ℝ) = C at *
  rw [hA, hT] at main
  have hm0 : (0 : ℝ) < m := by linarith
  have hL : ((1 : ℤ) : ℝ) * Real.log 2 + Real.log (((341 / 512 : ℚ) : ℝ) * m) - Real.log ((if true = true then 2 else 1) * ((343 / 512 : ℚ) : ℝ)) =
      Real.log m - Real.log (343 / 341) := by
    push_cast
    rw [Real.log_mul (by norm_num) hm0.ne', if_pos rfl, Real.log_mul (by norm_num) (by norm_num),
      show (343 / 512 : ℝ) = 343 / 341 * (341 / 512) by norm_num, Real.log_mul (by norm_num) (by norm_num)]
    ring
  rw [hL] at main
  have l1 := Real.one_sub_inv_le_log_of_pos (show (0 : ℝ) < 343 / 341 by norm_num)
  have l2 := Real.log_le_sub_one_of_pos (show (0 : ℝ) < 343 / 341 by norm_num)
  have l3 := Real.log_nonneg (show (1 : ℝ) ≤ m by linarith)
  have l4 := Real.log_le_sub_one_of_pos hm0
  have hbig : |Real.log m - Real.log (343 / 341)| ≤ 1 := by
    norm_num at l1 l2
    rw [abs_le]; constructor <;> linarith
  have hu : (2 : ℝ) ^ (-((53 : ℕ) : ℤ)) ≤ 1 / 16777216 := zp24 (by norm_num)
  have hu0 : 0 < (2 : ℝ) ^ (-((53 : ℕ) : ℤ)) := zpow_pos (by norm_num) _
  generalize (2 : ℝ) ^ (-((53 : ℕ) : ℤ)) = u at *
  have hm1 : u * |Real.log m - Real.log (343 / 341)| ≤ 1 / 16777216 * 1 := mul_le_mul hu hbig (abs_nonneg _) (by norm_num)
  have habs : ((|1| : ℤ) : ℝ) = 1 := by norm_num
  rw [habs] at main
  have hfin : |C - (Real.log m - Real.log (343 / 341))| ≤ 1 / 1000 := by linarith
  have := abs_le.1 hfin
  rw [lt_abs]
  right
  norm_num at l1 ⊢
  linarith [this.2]

/-- **C109**: the logarithm of one is zero, without exception, whatever the polynomial. -/
theorem C109_one {F : Fmt} (hF : Suitable F) {rnd P : ℚ → ℚ} (hr : Nearest (F.f + 1) ⊥ rnd) (hP : ∀ r, Rep (F.f + 1) ⊥ (P r)) :
    genLog F rnd P (.num 1) = (.plusZero, []) := by
  have h128 : (128 : ℤ) ≤ 2 ^ (F.e - 1) := by
    calc (128 : ℤ) = 2 ^ 7 := by norm_num
      _ ≤ 2 ^ (F.e - 1) := pow_le_pow_right₀ (by norm_num) (by have := hF.e; omega)
  have hlt : Elem.flt (.num 1) .plusZero = false := by
    simp only [Elem.flt, Check.cLe, Special.finVal, Bool.and_eq_false_iff, Bool.not_eq_false', decide_eq_true_eq, decide_eq_false_iff_not]
    exact Or.inl (not_le.2 (show (0 : ℚ) < 1 by norm_num))
  have hs : ¬ |(1 : ℚ)| < (2 : ℚ) ^ F.emin := by
    rw [abs_one]; push Not
    have : (2 : ℚ) ^ F.emin ≤ 2 ^ (0 : ℤ) := zpow_le_zpow_right₀ (by norm_num) (by
      have : F.emin = 1 - (2 ^ (F.e - 1) - 1) := rfl
      omega)
    rwa [zpow_zero] at this
  have hE : genLog F rnd P (.num 1) = (toVal (reduced (F.f + 1) (hiSize F) rnd P 1 0), []) := by
    unfold genLog
    rw [hlt]
    simp only [Bool.false_eq_true, if_false, Elem.isInfOrNaN, Elem.isNaN, Elem.isInf, Bool.or_self, Elem.isSubnormal, hs, decide_false, Check.numOf]
  rw [hE]
  have htho : decide (rnReal (F.f + 1) (Real.sqrt 2) < 1) = false := by
    apply decide_eq_false
    intro hlt
    have := (threshold (p := F.f + 1) (by have := hF.f; omega)).1
    have h' : (rnReal (F.f + 1) (Real.sqrt 2) : ℝ) < 1 := by exact_mod_cast hlt
    norm_num at this; linarith
  have hR : reduced (F.f + 1) (hiSize F) rnd P 1 0 = 0 := by
    unfold reduced
    simp only
    rw [show Int.log 2 (1 : ℚ) = 0 from log_one le_rfl (by norm_num), neg_zero, zpow_zero, mul_one, htho]
    unfold split
    simp only
    have hi : index 1 = 0 := by norm_num [index]
    have ha : argRed (F.f + 1) 1 = 1 := by unfold argRed; rw [if_pos hi]
    rw [hi, ha, show (1 : ℚ) * 1 - 1 = 0 by norm_num, rnd_exact hr (Rep_zero _ _)]
    have hk : (0 : ℤ) + 0 + (if false = true then 1 else 0) = 0 := rfl
    rw [hk, show logTab (F.f + 1) (hiSize F) false 0 = (0, 0) from rfl]
    simp only
    have := combine_err (p := F.f + 1) (by have := hF.f; omega) hr rfl (k := 0) (lh := rnReal (hiSize F) (Real.log 2))
      (ll := rnReal (F.f + 1) (Real.log 2 - rnReal (hiSize F) (Real.log 2))) (red := 0) (P := P 0) (th := 0) (tl := 0)
      (Rep_zero _ _) (hP 0) (Rep_zero _ _) (by rw [Int.cast_zero, zero_mul]; exact Rep_zero _ _) (Or.inl rfl)
    simp only [Int.cast_zero, zero_mul, add_zero, sub_zero, abs_zero, mul_zero] at this
    exact abs_nonpos_iff.1 this
  rw [hR]; rfl

/-- **C109**: from one to `1 + 1/128` the error is relative: at most `2^(2-p) + 2 η` for a significand of `p` digits. -/
theorem C109_above_one {F : Fmt} (hF : Suitable F) {rnd P : ℚ → ℚ} (hr : Nearest (F.f + 1) ⊥ rnd) {η : ℝ} (hP : PolyOk (F.f + 1) η P)
    (hη : η ≤ 1 / 64) {x : ℚ} (hx : F.Finite x) (h1 : 1 ≤ x) (h2 : x < 129 / 128) :
    ∃ r, Special.finVal (genLog F rnd P (.num x)).1 = some r ∧
      |(r : ℝ) - Real.log x| ≤ (4 * (2 : ℝ) ^ (-((F.f + 1 : ℕ) : ℤ)) + 2 * η) * |Real.log x| := by
  have h128 : (128 : ℤ) ≤ 2 ^ (F.e - 1) := by
    calc (128 : ℤ) = 2 ^ 7 := by norm_num
      _ ≤ 2 ^ (F.e - 1) := pow_le_pow_right₀ (by norm_num) (by have := hF.e; omega)
  have hlt : Elem.flt (.num x) .plusZero = false := by
    simp only [Elem.flt, Check.cLe, Special.finVal, Bool.and_eq_false_iff, Bool.not_eq_false', decide_eq_true_eq, decide_eq_false_iff_not]
    exact Or.inl (not_le.2 (show (0 : ℚ) < x by linarith))
  have hs : ¬ |x| < (2 : ℚ) ^ F.emin := by
    rw [abs_of_pos (by linarith)]; push Not
    have : (2 : ℚ) ^ F.emin ≤ 2 ^ (0 : ℤ) := zpow_le_zpow_right₀ (by norm_num) (by
      have : F.emin = 1 - (2 ^ (F.e - 1) - 1) := rfl
      omega)
    rw [zpow_zero] at this; linarith
  have hE : genLog F rnd P (.num x) = (toVal (reduced (F.f + 1) (hiSize F) rnd P x 0), []) := by
    unfold genLog
    rw [hlt]
    simp only [Bool.false_eq_true, if_false, Elem.isInfOrNaN, Elem.isNaN, Elem.isInf, Bool.or_self, Elem.isSubnormal, hs, decide_false, Check.numOf]
  rw [hE]
  have hx129 : (x : ℝ) < 129 / 128 := by have := (Rat.cast_lt (K := ℝ)).2 h2; push_cast at this; linarith
  have hx1 : (1 : ℝ) ≤ x := by exact_mod_cast h1
  have htho : decide (rnReal (F.f + 1) (Real.sqrt 2) < x) = false := by
    apply decide_eq_false
    intro hlt
    have := (threshold (p := F.f + 1) (by have := hF.f; omega)).1
    have h' : (rnReal (F.f + 1) (Real.sqrt 2) : ℝ) < x := by exact_mod_cast hlt
    norm_num at this; linarith
  -- `x - 1` is a number of the format
  have hrep : Rep (F.f + 1) ⊥ (x - 1) := by
    obtain ⟨m, E, hm, -, -, he⟩ := hx
    rcases le_or_gt 0 (E - F.f) with hE | hE
    · obtain ⟨n, hn⟩ := Int.eq_ofNat_of_zero_le hE
      have hint : x = ((m * 2 ^ n : ℤ) : ℚ) := by rw [he, hn]; push_cast; rfl
      have : (m * 2 ^ n : ℤ) = 1 := by
        rw [hint] at h1 h2
        have a : (1 : ℤ) ≤ m * 2 ^ n := by exact_mod_cast h1
        have b : ((m * 2 ^ n : ℤ) : ℚ) < 2 := by linarith
        have b' : (m * 2 ^ n : ℤ) < 2 := by exact_mod_cast b
        omega
      rw [hint, this]; norm_num; exact Rep_zero _ _
    · obtain ⟨n, hn⟩ : ∃ n : ℕ, E - F.f = -(n : ℤ) := ⟨(F.f - E).toNat, by omega⟩
      refine ⟨m - 2 ^ n, E - F.f, ?_, bot_le, ?_⟩
      · have hw : (0 : ℚ) < 2 ^ n := by positivity
        have hxe : x * 2 ^ n = m := by rw [he, hn, zpow_neg, zpow_natCast]; field_simp
        have a : (2 : ℚ) ^ n ≤ m := by rw [← hxe]; exact le_mul_of_one_le_left hw.le h1
        have a' : (2 : ℤ) ^ n ≤ m := by exact_mod_cast a
        have hp : (0 : ℤ) < 2 ^ n := by positivity
        rw [abs_of_nonneg (by omega)]
        rw [abs_of_nonneg (by omega)] at hm
        omega
      · push_cast
        rw [sub_mul, he, hn, zpow_neg, zpow_natCast, mul_inv_cancel₀ (by positivity)]
  have hR : reduced (F.f + 1) (hiSize F) rnd P x 0 = combine rnd 0 (rnReal (hiSize F) (Real.log 2))
      (rnReal (F.f + 1) (Real.log 2 - rnReal (hiSize F) (Real.log 2))) (x - 1) (P (x - 1)) 0 0 := by
    unfold reduced
    simp only
    rw [show Int.log 2 x = 0 from log_one h1 (by linarith), neg_zero, zpow_zero, mul_one, htho]
    unfold split
    simp only
    have hi : index x = 0 := by
      show ⌊(x - 1) * 128⌋₊ = 0
      rw [Nat.floor_eq_iff (by linarith)]; push_cast; constructor <;> linarith
    have ha : argRed (F.f + 1) x = 1 := by unfold argRed; rw [if_pos hi]
    rw [hi, ha, one_mul, rnd_exact hr hrep]
    rfl
  refine ⟨reduced (F.f + 1) (hiSize F) rnd P x 0, ?_, ?_⟩
  · unfold toVal
    show Special.finVal (if _ then _ else _) = _
    split_ifs with h
    · rw [h]; rfl
    · rfl
  rw [hR]
  have hc := combine_err (p := F.f + 1) (by have := hF.f; omega) hr rfl (k := 0) (lh := rnReal (hiSize F) (Real.log 2))
    (ll := rnReal (F.f + 1) (Real.log 2 - rnReal (hiSize F) (Real.log 2))) (red := x - 1) (P := P (x - 1)) (th := 0) (tl := 0)
    hrep (hP.rep _) (Rep_zero _ _) (by rw [Int.cast_zero, zero_mul]; exact Rep_zero _ _) (Or.inl rfl)
  simp only [Int.cast_zero, zero_mul, add_zero, sub_zero, abs_zero, mul_zero, zero_add] at hc
  have hsm : |x - 1| ≤ 1 / 64 := by rw [abs_of_nonneg (by linarith)]; linarith
  obtain ⟨p1, p2⟩ := poly_err hP hη hsm
  obtain ⟨C, hC⟩ : ∃ C : ℚ, C = combine rnd 0 (rnReal (hiSize F) (Real.log 2))
      (rnReal (F.f + 1) (Real.log 2 - rnReal (hiSize F) (Real.log 2))) (x - 1) (P (x - 1)) 0 0 := ⟨_, rfl⟩
  rw [← hC] at hc ⊢
  obtain ⟨M, hM⟩ : ∃ M : ℚ, M = x - 1 + (x - 1) * P (x - 1) := ⟨_, rfl⟩
  rw [← hM] at hc p1 p2
  have hcR : |(C : ℝ) - M| ≤ (2 : ℝ) ^ (-((F.f + 1 : ℕ) : ℤ)) * |(M : ℝ)| +
      40 * (2 : ℝ) ^ (-((F.f + 1 : ℕ) : ℤ)) * (2 : ℝ) ^ (-((F.f + 1 : ℕ) : ℤ)) * |(M : ℝ)| := by
    simpa only [Rat.cast_abs, Rat.cast_add, Rat.cast_sub, Rat.cast_mul, Rat.cast_zpow, Rat.cast_ofNat] using (Rat.cast_le (K := ℝ)).2 hc
  have hu : (2 : ℝ) ^ (-((F.f + 1 : ℕ) : ℤ)) ≤ 1 / 16777216 := zp24 (by have := hF.f; omega)
  have hu0 : 0 < (2 : ℝ) ^ (-((F.f + 1 : ℕ) : ℤ)) := zpow_pos (by norm_num) _
  generalize (2 : ℝ) ^ (-((F.f + 1 : ℕ) : ℤ)) = u at *
  have hη0 : 0 ≤ η := (abs_nonneg _).trans (hP.err (1 / 64) (by norm_num) (by norm_num))
  have hlog1 := Real.one_sub_inv_le_log_of_pos (show (0 : ℝ) < x by linarith)
  have hcast : ((x - 1 : ℚ) : ℝ) = x - 1 := by push_cast; ring
  rw [hcast, show (1 : ℝ) + (x - 1) = x by ring, abs_of_nonneg (show (0 : ℝ) ≤ x - 1 by linarith)] at p1
  rw [hcast, abs_of_nonneg (show (0 : ℝ) ≤ x - 1 by linarith)] at p2
  have hrl : (x : ℝ) - 1 ≤ 129 / 128 * Real.log x := by
    have hinv : 1 - (x : ℝ)⁻¹ = (x - 1) / x := by field_simp
    rw [hinv, div_le_iff₀ (by linarith)] at hlog1
    have := Real.log_nonneg hx1
    nlinarith
  have hl0 := Real.log_nonneg hx1
  rw [abs_of_nonneg hl0]
  generalize Real.log (x : ℝ) = L at *
  have q1 : |(M : ℝ)| ≤ 9 / 8 * L := by linarith
  have q2 : ((x : ℝ) - 1) * η ≤ 129 / 128 * L * η := mul_le_mul_of_nonneg_right hrl hη0
  have q3 : u * |(M : ℝ)| ≤ u * (9 / 8 * L) := mul_le_mul_of_nonneg_left q1 hu0.le
  have q4 : u * u * |(M : ℝ)| ≤ 1 / 16777216 * (u * |(M : ℝ)|) := by
    rw [mul_assoc]; exact mul_le_mul_of_nonneg_right hu (by positivity)
  have q5 := abs_add_le ((C : ℝ) - M) (M - L)
  rw [sub_add_sub_cancel] at q5
  have q6 : 0 ≤ u * L := by positivity
  have q7 : 0 ≤ L * η := by positivity
  nlinarith only [hcR, p1, q2, q3, q4, q5, q6, q7]

/-- rounding error when the binade is known -/
theorem rnReal_err' (d : ℕ) {x : ℝ} {e : ℤ} (h : |x| < (2 : ℝ) ^ (e + 1)) : |(rnReal d x : ℝ) - x| ≤ (2 : ℝ) ^ (e - d) := by
  rcases eq_or_ne x 0 with rfl | hx
  · simp [rnReal]; positivity
  have hax : 0 < |x| := abs_pos.2 hx
  have hle : Int.log 2 |x| ≤ e := by
    have := (Int.lt_zpow_iff_log_lt (R := ℝ) (b := 2) (by norm_num) (x := e + 1) hax).1 (by exact_mod_cast h)
    omega
  unfold rnReal
  generalize Int.log 2 |x| = e' at *
  have hw : (0 : ℝ) < (2 : ℝ) ^ (e' - d + 1) := zpow_pos (by norm_num) _
  have hr := abs_sub_round (x / (2 : ℝ) ^ (e' - d + 1))
  generalize round (x / (2 : ℝ) ^ (e' - d + 1)) = n at *
  have e1 : ((((n : ℤ) : ℚ) * (2 : ℚ) ^ (e' - d + 1) : ℚ) : ℝ) - x = -((x / (2 : ℝ) ^ (e' - d + 1) - n) * (2 : ℝ) ^ (e' - d + 1)) := by
    push_cast
    rw [sub_mul, div_mul_cancel₀ _ hw.ne']; ring
  rw [e1, abs_neg, abs_mul, abs_of_pos hw]
  calc |x / (2 : ℝ) ^ (e' - d + 1) - n| * (2 : ℝ) ^ (e' - d + 1) ≤ 1 / 2 * (2 : ℝ) ^ (e' - d + 1) := mul_le_mul_of_nonneg_right hr hw.le
    _ = (2 : ℝ) ^ (e' - d) := by rw [zpow_add_one₀ (by norm_num : (2 : ℝ) ≠ 0)]; ring
    _ ≤ _ := zpow_le_zpow_right₀ (by norm_num) (by omega)

/-- no number of 24 digits strictly between two neighbours of the binade of `2^-10` -/
theorem rep_gap {P : ℚ} (h : Rep 24 ⊥ P) : P ≤ -16733142 / 8589934592 ∨ -16733141 / 8589934592 ≤ P := by
  by_contra hc
  push Not at hc
  obtain ⟨c1, c2⟩ := hc
  obtain ⟨n, e, hn, -, rfl⟩ := h
  have hn1 := abs_lt.1 hn
  have hw : (0 : ℚ) < 2 ^ e := zpow_pos (by norm_num) _
  rcases le_or_gt (-33) e with he | he
  · obtain ⟨k, rfl⟩ : ∃ k : ℕ, e = k - 33 := ⟨(e + 33).toNat, by omega⟩
    have h3 : (n : ℚ) * 2 ^ ((k : ℤ) - 33) = ((n * 2 ^ k : ℤ) : ℚ) / 8589934592 := by
      rw [zpow_sub₀ (by norm_num), zpow_natCast]; push_cast; norm_num; ring
    rw [h3] at c1 c2
    have d1 : (-16733142 : ℚ) < ((n * 2 ^ k : ℤ) : ℚ) := by
      rw [lt_div_iff₀ (by norm_num)] at c1; linarith
    have d2 : ((n * 2 ^ k : ℤ) : ℚ) < -16733141 := by
      rw [div_lt_iff₀ (by norm_num)] at c2; linarith
    have d1' : (-16733142 : ℤ) < n * 2 ^ k := by exact_mod_cast d1
    have d2' : n * 2 ^ k < (-16733141 : ℤ) := by exact_mod_cast d2
    omega
  · have h4 : (2 : ℚ) ^ e ≤ 2 ^ (-34 : ℤ) := zpow_le_zpow_right₀ (by norm_num) (by omega)
    have h5 : (-16777216 : ℚ) < n := by exact_mod_cast hn1.1
    have h6 : (2 : ℚ) ^ (-34 : ℤ) = 1 / 17179869184 := by norm_num
    rw [h6] at h4
    nlinarith

/-- **C109**, binary32: whatever polynomial of binary32 coefficients is used and however it is evaluated, as long as its value is a binary32
number, the generated logarithm of `1 - 2^-23` has a relative error of more than `2^-20`, that is more than eight units in the last place: the
product by the reduced argument, close to `2^-8`, cannot be accurate enough for the cancellation with the logarithm of the seed. -/
theorem C109_near_one_wrong {rnd P : ℚ → ℚ} (hr : Nearest 24 ⊥ rnd) (hP : ∀ r, Rep 24 ⊥ (P r)) :
    f32.Finite (1 - 2 ^ (-23 : ℤ)) ∧ ∃ r, Special.finVal (genLog f32 rnd P (.num (1 - 2 ^ (-23 : ℤ)))).1 = some r ∧
      (2 : ℝ) ^ (-20 : ℤ) * |Real.log (1 - (2 : ℝ) ^ (-23 : ℤ))| < |(r : ℝ) - Real.log (1 - (2 : ℝ) ^ (-23 : ℤ))| := by
  refine ⟨⟨2 ^ 23 - 1, 0, by norm_num [f32], by norm_num [f32, Fmt.emin, Fmt.emax], by norm_num [f32, Fmt.emax], by norm_num [f32]⟩, ?_⟩
  have hxq : (1 - 2 ^ (-23 : ℤ) : ℚ) = 8388607 / 8388608 := by norm_num
  have hxr : (1 - (2 : ℝ) ^ (-23 : ℤ)) = 8388607 / 8388608 := by norm_num
  rw [hxq, hxr]
  have hE : genLog f32 rnd P (.num (8388607 / 8388608)) = (toVal (reduced 24 14 rnd P (8388607 / 8388608) 0), []) := by
    have hlt : Elem.flt (.num (8388607 / 8388608)) .plusZero = false := by
      simp only [Elem.flt, Check.cLe, Special.finVal, Bool.and_eq_false_iff, Bool.not_eq_false', decide_eq_true_eq, decide_eq_false_iff_not]
      exact Or.inl (not_le.2 (show (0 : ℚ) < 8388607 / 8388608 by norm_num))
    have hs : ¬ |(8388607 / 8388608 : ℚ)| < (2 : ℚ) ^ f32.emin := by
      rw [abs_of_pos (by norm_num)]; push Not
      have : (2 : ℚ) ^ f32.emin ≤ 2 ^ (-1 : ℤ) := zpow_le_zpow_right₀ (by norm_num) (by norm_num [f32, Fmt.emin, Fmt.emax])
      exact this.trans (by norm_num)
    unfold genLog
    rw [hlt]
    simp only [Bool.false_eq_true, if_false, Elem.isInfOrNaN, Elem.isNaN, Elem.isInf, Bool.or_self, Elem.isSubnormal, hs, decide_false, Check.numOf]
    rfl
  rw [hE]
  refine ⟨reduced 24 14 rnd P (8388607 / 8388608) 0, ?_, ?_⟩
  · unfold toVal
    show Special.finVal (if _ then _ else _) = _
    split_ifs with h
    · rw [h]; rfl
    · rfl
  obtain ⟨m, hm⟩ : ∃ m : ℚ, m = 8388607 / 4194304 := ⟨_, rfl⟩
  have b1 : 1 ≤ m := by rw [hm]; norm_num
  have b2 : m < 2 := by rw [hm]; norm_num
  have hidx : index m = 127 := by
    show ⌊(m - 1) * 128⌋₊ = 127
    rw [Nat.floor_eq_iff (by linarith), hm]; norm_num
  have hA : argRed 24 m = 257 / 512 := by
    rw [argRed_eq (by norm_num) b1 b2 (coherent_of_rep b2 ⟨8388607, -22, by norm_num, bot_le, by rw [hm]; norm_num⟩), hidx]
    norm_num [seedTab]
  have htho : decide (rnReal 24 (Real.sqrt 2) < m) = true := by
    apply decide_eq_true
    have h1 := (threshold (p := 24) (by norm_num)).2
    have : (rnReal 24 (Real.sqrt 2) : ℝ) < m := by rw [hm]; push_cast; norm_num at h1 ⊢; linarith
    exact_mod_cast this
  obtain ⟨ρ, hρ⟩ : ∃ ρ : ℚ, ρ = 16776702 / 4294967296 := ⟨_, rfl⟩
  have hρrep : Rep 24 ⊥ ρ := ⟨16776702, -32, by norm_num, bot_le, by rw [hρ]; norm_num⟩
  have hρe : argRed 24 m * m - 1 = ρ := by rw [hA, hm, hρ]; norm_num
  obtain ⟨v, hv⟩ : ∃ v : ℝ, v = Real.log (257 / 256) := ⟨_, rfl⟩
  have hT : logTab 24 14 true 127 = (rnReal 14 v, rnReal 24 (v - rnReal 14 v)) := by
    unfold logTab
    rw [if_neg (by norm_num)]
    simp only [if_true]
    rw [show (2 : ℝ) * (seedTab 127 : ℝ) = 257 / 256 by norm_num [seedTab], ← hv]
  have hR : reduced 24 14 rnd P (8388607 / 8388608) 0 = combine rnd 0 (rnReal 14 (Real.log 2))
      (rnReal 24 (Real.log 2 - rnReal 14 (Real.log 2))) ρ (P ρ) (rnReal 14 v) (rnReal 24 (v - rnReal 14 v)) := by
    unfold reduced
    simp only
    rw [show Int.log 2 (8388607 / 8388608 : ℚ) = -1 from log_half (by norm_num) (by norm_num),
      show (8388607 / 8388608 : ℚ) * 2 ^ (-(-1 : ℤ)) = m by rw [hm]; norm_num, htho]
    unfold split
    simp only
    rw [hρe, rnd_exact hr hρrep, hidx, hT]
    rfl
  rw [hR]
  have hc := combine_err (p := 24) (by norm_num) hr rfl (k := 0) (lh := rnReal 14 (Real.log 2))
    (ll := rnReal 24 (Real.log 2 - rnReal 14 (Real.log 2))) (red := ρ) (P := P ρ) (th := rnReal 14 v) (tl := rnReal 24 (v - rnReal 14 v))
    hρrep (hP ρ) (Rep_mono (by norm_num) (rnReal_rep (by norm_num) v)) (by rw [Int.cast_zero, zero_mul]; exact Rep_zero _ _) (Or.inl rfl)
  have hgap := rep_gap (hP ρ)
  generalize combine rnd 0 (rnReal 14 (Real.log 2)) (rnReal 24 (Real.log 2 - rnReal 14 (Real.log 2))) ρ (P ρ) (rnReal 14 v)
    (rnReal 24 (v - rnReal 14 v)) = C at *
  generalize P ρ = Q at *
  -- the entry of the table
  have v1 : v ≤ 1 / 256 := by rw [hv]; have := Real.log_le_sub_one_of_pos (show (0 : ℝ) < 257 / 256 by norm_num); norm_num at this ⊢; linarith
  have v2 : 0 ≤ v := by rw [hv]; exact Real.log_nonneg (by norm_num)
  have v3 : v < 1 / 256 := by rw [hv]; have := Real.log_lt_sub_one_of_pos (show (0 : ℝ) < 257 / 256 by norm_num) (by norm_num); norm_num at this ⊢; linarith
  have t1 := rnReal_err' 14 (x := v) (e := -9) (by rw [abs_of_nonneg v2]; norm_num; linarith)
  have t2 := rnReal_err' 24 (x := v - rnReal 14 v) (e := -23) (by rw [abs_sub_comm]; refine t1.trans_lt ?_; norm_num)
  simp only [Int.cast_zero, zero_mul, zero_add, abs_zero] at hc
  generalize rnReal 24 (v - rnReal 14 v) = tl at *
  generalize rnReal 14 v = th at *
  have hcR : |(C : ℝ) - (ρ + ρ * Q - th - tl)| ≤ (2 : ℝ) ^ (-((24 : ℕ) : ℤ)) * |(ρ : ℝ) + ρ * Q - th - tl| +
      6 * (2 : ℝ) ^ (-((24 : ℕ) : ℤ)) * |(tl : ℝ)| + 40 * (2 : ℝ) ^ (-((24 : ℕ) : ℤ)) * (2 : ℝ) ^ (-((24 : ℕ) : ℤ)) * (|(th : ℝ)| + |(ρ : ℝ) + ρ * Q|) := by
    simpa only [Rat.cast_abs, Rat.cast_add, Rat.cast_sub, Rat.cast_mul, Rat.cast_zpow, Rat.cast_ofNat] using (Rat.cast_le (K := ℝ)).2 hc
  have hu : (2 : ℝ) ^ (-((24 : ℕ) : ℤ)) = 1 / 16777216 := by norm_num
  rw [hu] at hcR
  -- the logarithms
  obtain ⟨g, hg⟩ : ∃ g : ℝ, g = Real.log (1 + 16776702 / 4294967296) := ⟨_, rfl⟩
  have hser := Real.abs_log_sub_add_sum_range_le (x := -(16776702 / 4294967296 : ℝ)) (by rw [abs_neg, abs_of_pos] <;> norm_num) 6
  rw [sub_neg_eq_add, ← hg, abs_neg, abs_of_pos (show (0 : ℝ) < 16776702 / 4294967296 by norm_num)] at hser
  simp only [Finset.sum_range_succ, Finset.sum_range_zero] at hser
  norm_num at hser
  have hser' := abs_le.1 hser
  have g1 : g ≤ 16776702 / 4294967296 * (1 + -16733141 / 8589934592) - 38 / 140737488355328 := by
    refine le_of_sub_nonneg ?_
    have := hser'.2
    norm_num at this ⊢
    linarith
  have g2 : 16776702 / 4294967296 * (1 + -16733142 / 8589934592) + 51 / 2 / 140737488355328 ≤ g := by
    refine le_of_sub_nonneg ?_
    have := hser'.1
    norm_num at this ⊢
    linarith
  have hL : Real.log (8388607 / 8388608) = g - v := by
    rw [hg, hv, ← Real.log_div (by norm_num) (by norm_num)]; norm_num
  have hL0 := Real.one_sub_inv_le_log_of_pos (show (0 : ℝ) < 8388607 / 8388608 by norm_num)
  have hL1 := Real.log_nonpos (show (0 : ℝ) ≤ 8388607 / 8388608 by norm_num) (by norm_num)
  rw [hL] at hL0 hL1 ⊢
  norm_num at hL0 t1 t2
  rw [abs_of_nonpos hL1]
  have t1' := abs_le.1 t1
  have t2' := abs_le.1 t2
  -- the error of the polynomial
  obtain ⟨D, hD⟩ : ∃ D : ℝ, D = ρ + ρ * Q - g := ⟨_, rfl⟩
  have hDb : D ≤ -(51 / 2 / 140737488355328) ∨ 38 / 140737488355328 ≤ D := by
    have hρR : (ρ : ℝ) = 16776702 / 4294967296 := by rw [hρ]; push_cast; rfl
    rcases hgap with h | h
    · left
      have h' : (Q : ℝ) ≤ -16733142 / 8589934592 := by have := (Rat.cast_le (K := ℝ)).2 h; push_cast at this; linarith
      rw [hD, hρR]; linarith
    · right
      have h' : (-16733141 / 8589934592 : ℝ) ≤ Q := by have := (Rat.cast_le (K := ℝ)).2 h; push_cast at this; linarith
      rw [hD, hρR]; linarith
  have hM : (ρ : ℝ) + ρ * Q = D + g := by rw [hD]; ring
  rw [hM] at hcR
  have a1 : |D + g - th - tl| ≤ |D| + (v - g) + 1 / 140737488355328 := by
    have := abs_add_le D (g - th - tl)
    rw [show D + (g - th - tl) = D + g - th - tl by ring] at this
    have h2 : |g - th - tl| ≤ (v - g) + 1 / 140737488355328 := abs_le.2 ⟨by linarith [t2'.1], by linarith [t2'.2]⟩
    linarith
  have a2 : |D + g| ≤ |D| + 1 / 128 := by
    have := abs_add_le D g
    have h2 : |g| ≤ 1 / 128 := abs_le.2 ⟨by linarith, by linarith⟩
    linarith
  have a3 : |(tl : ℝ)| ≤ 1 / 8388608 + 1 / 140737488355328 := abs_le.2 ⟨by linarith [t1'.2, t2'.1], by linarith [t1'.1, t2'.2]⟩
  have a4 : |(th : ℝ)| ≤ 1 / 128 := abs_le.2 ⟨by linarith [t1'.1], by linarith [t1'.2]⟩
  have hfin : |(C : ℝ) - (g - v + D)| ≤ 1 / 16777216 * |D| * (1 + 1 / 100000) + 42 / 5 / 140737488355328 := by
    have := abs_add_le ((C : ℝ) - (D + g - th - tl)) (v - th - tl)
    rw [show (C : ℝ) - (D + g - th - tl) + (v - th - tl) = C - (g - v + D) by ring] at this
    have h2 : |v - th - tl| ≤ 1 / 140737488355328 := abs_le.2 ⟨by linarith [t2'.2], by linarith [t2'.1]⟩
    have := abs_nonneg D
    linarith
  have hf := abs_le.1 hfin
  rw [lt_abs]
  rcases hDb with h | h
  · right
    rw [abs_of_nonpos (by linarith)] at hf
    norm_num
    linarith [hf.2]
  · left
    rw [abs_of_nonneg (by linarith)] at hf
    norm_num
    linarith [hf.1]

/-- the hypotheses on the polynomial can be met: `-r/2`, rounded, is within `1/4000` -/
theorem half_ok : PolyOk 24 (1 / 4000) (fun r => roundNearest 24 ⊥ (-r / 2)) where
  rep := fun r => (roundNearest_nearest (by norm_num) ⊥ _).1
  err := by
    intro r h0 hr
    have h0' : (r : ℝ) ≠ 0 := by exact_mod_cast h0
    have hrR : |(r : ℝ)| ≤ 1 / 64 := by have := (Rat.cast_le (K := ℝ)).2 hr; push_cast at this; linarith
    have hpos : 0 < |(r : ℝ)| := abs_pos.2 h0'
    have hs := Real.abs_log_sub_add_sum_range_le (x := -(r : ℝ)) (by rw [abs_neg]; linarith) 2
    simp only [Finset.sum_range_succ, Finset.sum_range_zero, abs_neg, sub_neg_eq_add] at hs
    norm_num at hs
    have e1 : -(r : ℝ) + r ^ 2 / 2 + Real.log (1 + r) = r * (Real.log (1 + r) / r - 1 + r / 2) := by field_simp; ring
    rw [e1, abs_mul] at hs
    have h2 : |Real.log (1 + r) / r - 1 + r / 2| ≤ 1 / 4032 := by
      have : |(r : ℝ)| ^ 3 / (1 - |(r : ℝ)|) ≤ |(r : ℝ)| * (1 / 4032) := by
        rw [div_le_iff₀ (by linarith)]
        nlinarith [mul_le_mul hrR hrR hpos.le (by norm_num)]
      exact le_of_mul_le_mul_left (hs.trans this) hpos
    have h3 := (rnd_rel (p := 24) (by norm_num) (roundNearest_nearest (by norm_num) ⊥) (-r / 2)).1
    generalize roundNearest 24 ⊥ (-r / 2) = q at *
    have h4 : |(-(r : ℝ) / 2 - q)| ≤ 1 / 16777216 * |(-(r : ℝ) / 2)| := by
      have := (Rat.cast_le (K := ℝ)).2 h3
      norm_num at this ⊢
      linarith
    have h5 : |(-(r : ℝ) / 2)| ≤ 1 / 128 := by rw [abs_div, abs_neg, abs_of_pos (show (0 : ℝ) < 2 by norm_num)]; linarith
    have h6 := abs_le.1 h2
    have h7 := abs_le.1 h4
    exact abs_le.2 ⟨by linarith [h6.2, h7.2], by linarith [h6.1, h7.1]⟩

example : ∃ r, Special.finVal (genLog f32 (roundNearest 24 ⊥) (fun r => roundNearest 24 ⊥ (-r / 2)) (.num 3)).1 = some r ∧
    |(r : ℝ) - Real.log 3| ≤ (2 : ℝ) ^ (-23 : ℤ) * |Real.log 3| + ((2 : ℝ) ^ (-24 : ℤ) + 1 / 4000) / 64 := by
  obtain ⟨r, a, -, c⟩ := C109_binary32_partial (roundNearest_nearest (by norm_num) ⊥) half_ok (by norm_num) (x := 3)
    ⟨3 * 2 ^ 22, 1, by norm_num [f32], by norm_num [f32, Fmt.emin, Fmt.emax], by norm_num [f32, Fmt.emax], by norm_num [f32]⟩ (by norm_num)
  exact ⟨r, a, by simpa using c⟩

example : f32.Finite (257 / 256) ∧ (1 : ℚ) ≤ 257 / 256 ∧ (257 / 256 : ℚ) < 129 / 128 :=
  ⟨⟨257 * 2 ^ 15, 0, by norm_num [f32], by norm_num [f32, Fmt.emin, Fmt.emax], by norm_num [f32, Fmt.emax], by norm_num [f32]⟩,
    by norm_num, by norm_num⟩

end Verif.Log
