import Verif.Trig.Theorems

/-! # C82: the reduction with the parameters of the sine and the cosine -/

namespace Verif.Trig

open Verif.Float (Fmt Val)
open Verif.Check
open Verif.Elem
open Verif.Rem (truncQ rr)

/-! ## ml_sincos.py:285, `k = 14` and `n = 100` -/

/-- ml_sincos.py:285 the constant is `2^14/pi`, to 1500 bits -/
def SincosCst (c : ℚ) : Prop := |(c : ℝ) - 2 ^ 14 / Real.pi| ≤ 2 ^ (-1400 : ℤ)

theorem sincos_bounds {c : ℚ} (h : SincosCst c) : (21361414 : ℚ) / 4096 ≤ c ∧ c < 21361415 / 4096 := by
  unfold SincosCst at h
  have h1 := Real.pi_gt_d20
  have h2 := Real.pi_lt_d20
  have hp := Real.pi_pos
  have h3 : (2 : ℝ) ^ (-1400 : ℤ) ≤ 2 ^ (-40 : ℤ) := zpow_le_zpow_right₀ (by norm_num) (by norm_num)
  have h4 := abs_le.1 (le_trans h h3)
  have h5 : (21361414 : ℝ) / 4096 + 2 ^ (-40 : ℤ) ≤ 2 ^ 14 / Real.pi := by
    rw [le_div_iff₀ hp]
    norm_num
    nlinarith
  have h6 : (2 : ℝ) ^ 14 / Real.pi + 2 ^ (-40 : ℤ) < 21361415 / 4096 := by
    have : (2 : ℝ) ^ 14 / Real.pi < 21361415 / 4096 - 2 ^ (-40 : ℤ) := by
      rw [div_lt_iff₀ hp]
      norm_num
      nlinarith
    linarith
  constructor
  · have : ((21361414 / 4096 : ℚ) : ℝ) ≤ (c : ℝ) := by push_cast; linarith [h4.1]
    exact_mod_cast this
  · have : (c : ℝ) < ((21361415 / 4096 : ℚ) : ℝ) := by push_cast; linarith [h4.2]
    exact_mod_cast this

theorem sincos_msb {c : ℚ} (h : SincosCst c) : cstMsb c = 12 := by
  obtain ⟨h1, h2⟩ := sincos_bounds h
  unfold cstMsb
  rw [abs_of_pos (by linarith)]
  exact Float.log_eq (by norm_num; linarith) (by norm_num; linarith)

theorem sincos_chunk {c : ℚ} (h : SincosCst c) : localCst c (tmpCst c 0) 0 = 21361414 / 4096 := by
  obtain ⟨h1, h2⟩ := sincos_bounds h
  have hw : wt c 0 = -12 := by unfold wt; rw [sincos_msb h]; norm_num
  rw [local_eq (by simp [tmpCst]; linarith), hw]
  have hf : ⌊tmpCst c 0 / (2 : ℚ) ^ (-12 : ℤ)⌋ = 21361414 := by
    rw [Int.floor_eq_iff]
    simp only [tmpCst]
    norm_num
    constructor <;> linarith
  rw [hf]; norm_num

theorem sincos_ctx {c v : ℚ} (h : SincosCst c) (hv : b64.Finite v) (h1 : 1 ≤ |v|) (hE : |v| < 2 ^ 100) : Ctx c 100 14 (.num v) := by
  obtain ⟨b1, b2⟩ := sincos_bounds h
  refine ctx_of hv h1 (by linarith) (by linarith) (by norm_num) (by norm_num) (lt_of_lt_of_le hE ?_)
  rw [← zpow_natCast]
  exact Float.zle (by norm_num)

/-- C82, the code is wrong: with the constant and the parameters of the sine and the cosine, the reduction of every argument in `[2^77, 2^78)` whose last bit
is set is wrong by half a period, an odd multiple of `2^14` -/
theorem C82_sincos_half_turn_wrong {c v : ℚ} (hc : SincosCst c) (hv : b64.Finite v) (h1 : (2 : ℚ) ^ 77 ≤ v) (h2 : v < 2 ^ 78) {X : ℤ} (hX : v = X * 2 ^ 25) (hodd : Odd X) :
    ∃ (acc : Val) (r : ℤ), reduce c 100 14 (.num v) = some (acc, r) ∧ |numOf acc| ≤ 1 / 2 ∧
      ∃ m : ℤ, Odd m ∧ |(v : ℝ) * (2 ^ 14 / Real.pi) - (m * 2 ^ 14 + (r + (numOf acc : ℚ)))| ≤ 2 ^ (-48 : ℤ) := by
  have hv0 : 0 < v := lt_of_lt_of_le (by norm_num) h1
  have h := sincos_ctx hc hv (by rw [abs_of_pos hv0]; linarith) (by rw [abs_of_pos hv0]; linarith)
  have hE : vxExp (.num v) = 77 := by
    show Int.log 2 |v| = 77
    rw [abs_of_pos hv0]
    exact Float.log_eq (by exact_mod_cast h1) (by norm_num at h2 ⊢; linarith)
  have hm := sincos_msb hc
  have hi : msbIndex c 14 (.num v) = ((1 : ℕ) : ℤ) := by
    unfold msbIndex msbExp; rw [hE, hm, p_eq, cs_eq]; decide
  obtain ⟨⟨acc, r⟩, f1, f2, f3, f4, q, f5⟩ := h.reduce hi (fun j hj _ => by
    obtain ⟨s1, s2⟩ := h.sizes j
    have hw : wt c j ≤ -36 := by unfold wt; rw [hm]; omega
    refine ⟨(2 : ℚ) ^ (61 : ℤ), (2 : ℚ) ^ (60 : ℤ), (Float.zp _).le, fun hw' => le_trans s1 (Float.zle ?_), le_trans s2 (Float.zle ?_), by norm_num⟩
    · rw [hE] at hw' ⊢; unfold wt at hw' hw ⊢; rw [hm] at hw' hw ⊢; omega
    · rw [hE]; omega)
  refine ⟨acc, r, f1, f3, 2 * q + X * 10680707, ?_, ?_⟩
  · exact (even_two_mul q).add_odd (hodd.mul (by decide))
  have e1 : tmpCst c 1 = c - 21361414 / 4096 := by
    show c - localCst c (tmpCst c 0) 0 = _
    rw [sincos_chunk hc]
  rw [e1] at f5
  change |v * (c - 21361414 / 4096) - (q * 2 ^ 15 + (r + numOf acc))| ≤ accuracy 14 100 at f5
  have e2 : v * (c - 21361414 / 4096) - (q * 2 ^ 15 + (r + numOf acc)) = v * c - (((2 * q + X * 10680707 : ℤ) : ℚ) * 2 ^ 14 + (r + numOf acc)) := by
    push_cast; rw [hX]; ring
  rw [e2] at f5
  have ha : accuracy 14 100 ≤ 2 ^ (-49 : ℤ) := by unfold accuracy; norm_num
  have f6 : |((v * c - (((2 * q + X * 10680707 : ℤ) : ℚ) * 2 ^ 14 + (r + numOf acc)) : ℚ) : ℝ)| ≤ ((2 ^ (-49 : ℤ) : ℚ) : ℝ) := by
    rw [← Rat.cast_abs]; exact_mod_cast le_trans f5 ha
  push_cast at f6 ⊢
  have g : |(v : ℝ) * (2 ^ 14 / Real.pi) - v * c| ≤ 2 ^ (-49 : ℤ) := by
    rw [← mul_sub, abs_mul, abs_sub_comm]
    have hvr : |(v : ℝ)| ≤ 2 ^ (78 : ℤ) := by
      have : |v| ≤ 2 ^ 78 := by rw [abs_of_pos hv0]; exact h2.le
      rw [← Rat.cast_abs]
      exact_mod_cast this
    calc |(v : ℝ)| * |(c : ℝ) - 2 ^ 14 / Real.pi| ≤ 2 ^ (78 : ℤ) * 2 ^ (-1400 : ℤ) := mul_le_mul hvr hc (abs_nonneg _) (r2 _).le
      _ = (2 : ℝ) ^ (78 + -1400 : ℤ) := (r2add _ _).symm
      _ ≤ _ := r2le (by norm_num)
  have e3 : (v : ℝ) * (2 ^ 14 / Real.pi) - ((2 * q + X * 10680707) * 2 ^ 14 + (r + (numOf acc : ℚ))) =
      ((v : ℝ) * (2 ^ 14 / Real.pi) - v * c) + (v * c - ((2 * q + X * 10680707) * 2 ^ 14 + (r + (numOf acc : ℚ)))) := by ring
  rw [e3]
  refine le_trans (abs_add_le _ _) ?_
  have e4 : (2 : ℝ) ^ (-48 : ℤ) = 2 ^ (-49 : ℤ) + 2 ^ (-49 : ℤ) := by norm_num
  rw [e4]
  exact add_le_add g f6

/-- such an argument -/
example {c : ℚ} (hc : SincosCst c) : ∃ (acc : Val) (r : ℤ), reduce c 100 14 (.num ((2 ^ 52 + 1) * 2 ^ 25)) = some (acc, r) ∧ |numOf acc| ≤ 1 / 2 ∧
    ∃ m : ℤ, Odd m ∧ |(((2 ^ 52 + 1) * 2 ^ 25 : ℚ) : ℝ) * (2 ^ 14 / Real.pi) - (m * 2 ^ 14 + (r + (numOf acc : ℚ)))| ≤ 2 ^ (-48 : ℤ) :=
  C82_sincos_half_turn_wrong hc ⟨2 ^ 52 + 1, 77, by norm_num [b64], by rw [emin_eq]; norm_num, by rw [emax_eq]; norm_num, by norm_num [b64]⟩ (by norm_num) (by norm_num)
    (X := 2 ^ 52 + 1) (by norm_num) (by decide)

theorem loop_none {c : ℚ} {k : ℕ} {x : Val} (m : ℕ) : ∀ (i : ℤ) (s : Val × ℤ), (∃ j : ℕ, j < m ∧ ∀ s, body c k x (i + j) s = none) → loop c k x m i s = none := by
  induction m with
  | zero => intro i s h; obtain ⟨j, hj, -⟩ := h; omega
  | succ m ih =>
    intro i s h
    obtain ⟨j, hj, hb⟩ := h
    show (body c k x i s).bind _ = none
    cases j with
    | zero => rw [show i = i + ((0 : ℕ) : ℤ) by simp, hb]; rfl
    | succ j =>
      cases body c k x i s with
      | none => rfl
      | some s' =>
        refine ih (i + 1) s' ⟨j, by omega, fun s => ?_⟩
        have := hb s
        push_cast at this
        rw [show i + 1 + (j : ℤ) = i + (j + 1) by ring]; exact this

/-- C82, the code is wrong: with the constant and the parameters of the sine and the cosine, every argument from `2^1012` on makes the loop read its tables past
their end -/
theorem C82_sincos_table_wrong {c v : ℚ} (hc : SincosCst c) (h1 : (2 : ℚ) ^ 1012 ≤ |v|) (h2 : b64.Finite v) : chunkNumber c = 47 ∧ 47 ≤ lsbIndex c 100 (.num v) ∧
    reduce c 100 14 (.num v) = none := by
  have hm := sincos_msb hc
  have hN : chunkNumber c = 47 := by
    unfold chunkNumber cstExpRange
    rw [hm, cs_eq, emin_eq, f_eq, Int.ceil_eq_iff]
    norm_num
  have hpos : 0 < |v| := lt_of_lt_of_le (by positivity) h1
  have hE : 1012 ≤ vxExp (.num v) := by
    show 1012 ≤ Int.log 2 |v|
    exact (Int.zpow_le_iff_le_log (b := 2) (by norm_num) hpos).1 (by exact_mod_cast h1)
  have hE' : vxExp (.num v) ≤ 1023 := by
    show Int.log 2 |v| ≤ 1023
    have := lt_of_le_of_lt ((finite_iff he2).1 h2).2 (omega_lt he2)
    rw [emax_eq, show (1023 : ℤ) + 1 = 1024 by norm_num] at this
    have := (Int.lt_zpow_iff_log_lt (b := 2) (by norm_num) hpos (x := 1024)).1 (by exact_mod_cast this)
    omega
  have hl : lsbIndex c 100 (.num v) = (vxExp (.num v) + 116) / 24 := by
    unfold lsbIndex lsbExp
    rw [cs_eq, hm, Int.tdiv_eq_ediv_of_nonneg (by push_cast; omega)]
    congr 1; push_cast; ring
  have hi : msbIndex c 14 (.num v) = (vxExp (.num v) - 53) / 24 := by
    unfold msbIndex msbExp
    rw [cs_eq, hm, p_eq, if_neg (by push_cast; omega), Int.tdiv_eq_ediv_of_nonneg (by push_cast; omega)]
    congr 1; push_cast; ring
  refine ⟨hN, by omega, ?_⟩
  unfold reduce
  apply loop_none
  refine ⟨(47 - msbIndex c 14 (.num v)).toNat, by omega, fun s => ?_⟩
  have e : msbIndex c 14 (.num v) + ((47 - msbIndex c 14 (.num v)).toNat : ℤ) = 47 := by omega
  rw [e]
  unfold body cstLoad
  rw [if_neg (by rw [hN]; omega)]
  rfl

/-- such an argument -/
example {c : ℚ} (hc : SincosCst c) : chunkNumber c = 47 ∧ 47 ≤ lsbIndex c 100 (.num (2 ^ 1012)) ∧ reduce c 100 14 (.num (2 ^ 1012)) = none :=
  C82_sincos_table_wrong hc (by rw [abs_of_pos (by positivity)]) ((finite_iff he2).2 ⟨by
    rw [← zpow_natCast]; exact unb_pow (by rw [emin_eq, f_eq]; norm_num), by
    rw [abs_of_pos (by positivity), ← zpow_natCast]; exact le_trans (Float.zle (by norm_num)) omega_big⟩)

/-- a number that does not fit -/
theorem near_big {a : Val} (ha : Fin' b64 a) (h : (2 : ℚ) ^ 63 ≤ numOf a) : nearInt a = none := by
  unfold nearInt isInfOrNaN int64
  rw [ha.2.1, ha.2.2]
  simp only [Bool.or_self, Bool.false_eq_true, if_false]
  rw [if_neg]
  intro hh
  have a' := (abs_le.1 (near_le (numOf a))).2
  have b : (nearestZ a : ℚ) ≤ 2 ^ 63 - 1 := by
    have := hh.2
    have : nearestZ a ≤ 2 ^ 63 - 1 := by omega
    exact_mod_cast this
  unfold nearestZ at b
  linarith

/-- C82, the code is wrong: with the constant and the parameters of the sine and the cosine, the integer conversion of the loop overflows for every argument
of `[2^76, 2^77)` whose 27 low bits are at least four fifths of their range -/
theorem C82_sincos_overflow_wrong {c v : ℚ} (hc : SincosCst c) (hv : b64.Finite v) (h1 : (2 : ℚ) ^ 76 ≤ v) (h2 : v < 2 ^ 77) {X : ℤ} (hX : v = X * 2 ^ 24)
    (hlow : 4 * 2 ^ 27 ≤ 5 * (X % 2 ^ 27)) : reduce c 100 14 (.num v) = none := by
  have hv0 : 0 < v := lt_of_lt_of_le (by norm_num) h1
  have h := sincos_ctx hc hv (by rw [abs_of_pos hv0]; linarith) (by rw [abs_of_pos hv0]; linarith)
  have hE : vxExp (.num v) = 76 := by
    show Int.log 2 |v| = 76
    rw [abs_of_pos hv0]
    exact Float.log_eq (by exact_mod_cast h1) (by norm_num at h2 ⊢; linarith)
  have hm := sincos_msb hc
  have hi : msbIndex c 14 (.num v) = 0 := by
    unfold msbIndex msbExp; rw [hE, hm, p_eq, cs_eq]; decide
  have hl : lsbIndex c 100 (.num v) = 8 := by
    unfold lsbIndex lsbExp; rw [hE, hm, cs_eq]; decide
  unfold reduce
  rw [hi, hl]
  apply loop_none
  refine ⟨0, by decide, fun s => ?_⟩
  obtain ⟨cl, sl, l1, l2, hcl, hsl, ecl, esl⟩ := h.loads (i := 0) (by rw [hE, hm]; norm_num)
  obtain ⟨H, L, hH, hL, fh, fl, eh, el, esum, oh, ol⟩ := h.split
  have hw : vxExp (.num v) + wt c 0 ≤ ((14 : ℕ) : ℤ) + 50 := by unfold wt; rw [hE, hm]; norm_num
  obtain ⟨pl, ql⟩ := h.product (by rw [hE, hm]; norm_num) hw hcl hsl ecl esl fl (A := L) (t := 52) hL (Or.inr rfl) el ol
  -- the low part
  have hlo : numOf (vxLo (.num v)) = ((X % 2 ^ 27 : ℤ) : ℚ) * 2 ^ 24 := by
    have hhi : numOf (vxHi (.num v)) = ((X / 2 ^ 27 : ℤ) : ℚ) * 2 ^ 51 := by
      have e : vxHi (.num v) = cst b64 ((((X / 2 ^ 27 : ℤ) : ℚ) * (2 : ℚ) ^ (51 : ℤ) : ℚ) : ℝ) := by
        unfold vxHi
        rw [hE, p_eq, hs_eq]
        have : truncQ (numOf (.num v) / (2 : ℚ) ^ ((76 : ℤ) - 52 + 27)) = X / 2 ^ 27 := by
          show truncQ (v / _) = _
          unfold truncQ
          rw [if_neg (not_lt.2 (div_nonneg hv0.le (Float.zp _).le)), hX]
          rw [Int.floor_eq_iff]
          have e1 : (X : ℚ) = 2 ^ 27 * ((X / 2 ^ 27 : ℤ) : ℚ) + ((X % 2 ^ 27 : ℤ) : ℚ) := by
            have := congrArg (Int.cast : ℤ → ℚ) (Int.mul_ediv_add_emod X (2 ^ 27)).symm
            push_cast at this ⊢
            exact this
          have e2 : (0 : ℚ) ≤ ((X % 2 ^ 27 : ℤ) : ℚ) := by exact_mod_cast Int.emod_nonneg X (by norm_num)
          have e3 : ((X % 2 ^ 27 : ℤ) : ℚ) < 2 ^ 27 := by exact_mod_cast Int.emod_lt_of_pos X (by norm_num)
          have e4 : (X : ℚ) * 2 ^ 24 / (2 : ℚ) ^ ((76 : ℤ) - 52 + 27) = ((X / 2 ^ 27 : ℤ) : ℚ) + ((X % 2 ^ 27 : ℤ) : ℚ) / 2 ^ 27 := by
            rw [e1]; norm_num; ring
          rw [e4]
          constructor
          · have := div_nonneg e2 (show (0 : ℚ) ≤ 2 ^ 27 by norm_num); linarith
          · have := (div_lt_one (show (0 : ℚ) < 2 ^ 27 by norm_num)).2 e3; linarith
        rw [this]
        norm_num
      have hXl : X / 2 ^ 27 < 2 ^ 26 ∧ 0 ≤ X / 2 ^ 27 := by
        have a : (X : ℚ) * 2 ^ 24 < 2 ^ 77 := by rw [← hX]; exact h2
        have b : (X : ℚ) < 2 ^ 53 := by norm_num at a ⊢; linarith
        have b' : X < 2 ^ 53 := by exact_mod_cast b
        have d : (0 : ℚ) < (X : ℚ) * 2 ^ 24 := by rw [← hX]; exact hv0
        have d' : (0 : ℚ) < X := by norm_num at d; exact_mod_cast d
        have d'' : 0 < X := by exact_mod_cast d'
        constructor <;> omega
      obtain ⟨a1, a2⟩ := cst_exact (unb (m := X / 2 ^ 27) (q := 51) (by rw [abs_of_nonneg hXl.2]; norm_num at hXl ⊢; omega) (by norm_num)) (by
        rw [abs_of_nonneg (mul_nonneg (by exact_mod_cast hXl.2) (Float.zp _).le)]
        refine le_trans ?_ omega_big
        have : (((X / 2 ^ 27 : ℤ)) : ℚ) ≤ (2 : ℚ) ^ (26 : ℤ) := by exact_mod_cast hXl.1.le
        refine le_trans (mul_le_mul_of_nonneg_right this (Float.zp _).le) ?_
        rw [← Float.zadd]; exact Float.zle (by norm_num))
      rw [e, a2]; norm_num
    have e1 : (X : ℚ) = 2 ^ 27 * ((X / 2 ^ 27 : ℤ) : ℚ) + ((X % 2 ^ 27 : ℤ) : ℚ) := by
      have := congrArg (Int.cast : ℤ → ℚ) (Int.mul_ediv_add_emod X (2 ^ 27)).symm
      push_cast at this ⊢
      exact this
    have e2 : numOf (vxLo (.num v)) = v - numOf (vxHi (.num v)) := by
      have : numOf (.num v) = v := rfl
      rw [this] at esum; linarith
    rw [e2, hhi, hX]
    conv_lhs => rw [e1]
    ring
  have hbig : (2 : ℚ) ^ 63 ≤ numOf (fmul b64 (fmul b64 (vxLo (.num v)) sl) (fmul b64 cl sl)) := by
    rw [ql, hlo, sincos_chunk hc]
    have : (4 * 2 ^ 27 : ℚ) ≤ 5 * ((X % 2 ^ 27 : ℤ) : ℚ) := by exact_mod_cast hlow
    norm_num at this ⊢
    linarith
  have hnone : nearInt (fmul b64 (fmul b64 (vxLo (.num v)) sl) (fmul b64 cl sl)) = none := near_big pl hbig
  unfold body
  have e0 : (0 : ℤ) + ((0 : ℕ) : ℤ) = ((0 : ℕ) : ℤ) := by simp
  rw [e0, l1, l2]
  simp only [Option.bind_eq_bind, Option.bind_some, hnone]
  cases hiPart 14 (preExcludeHi c (.num v) ((0 : ℕ) : ℤ)) (fmul b64 (fmul b64 (vxHi (.num v)) sl) (fmul b64 cl sl)) <;> rfl

/-- such an argument -/
example {c : ℚ} (hc : SincosCst c) : reduce c 100 14 (.num ((2 ^ 53 - 1) * 2 ^ 24)) = none :=
  C82_sincos_overflow_wrong hc ⟨2 ^ 53 - 1, 76, by norm_num [b64], by rw [emin_eq]; norm_num, by rw [emax_eq]; norm_num, by norm_num [b64]⟩ (by norm_num) (by norm_num)
    (X := 2 ^ 53 - 1) (by norm_num) (by decide)

/-- C82, the code is wrong: with the constant and the parameters of the sine and the cosine, the integer conversion of the loop overflows for every argument of
`[2^51, 2^52)` -/
theorem C82_sincos_overflow_binade_wrong {c v : ℚ} (hc : SincosCst c) (hv : b64.Finite v) (h1 : (2 : ℚ) ^ 51 ≤ v) (h2 : v < 2 ^ 52) : reduce c 100 14 (.num v) = none := by
  have hv0 : 0 < v := lt_of_lt_of_le (by norm_num) h1
  have h := sincos_ctx hc hv (by rw [abs_of_pos hv0]; linarith) (by rw [abs_of_pos hv0]; linarith)
  have hE : vxExp (.num v) = 51 := by
    show Int.log 2 |v| = 51
    rw [abs_of_pos hv0]
    exact Float.log_eq (by exact_mod_cast h1) (by norm_num at h2 ⊢; linarith)
  have hm := sincos_msb hc
  have hi : msbIndex c 14 (.num v) = 0 := by
    unfold msbIndex msbExp; rw [hE, hm, p_eq, cs_eq]; decide
  have hl : lsbIndex c 100 (.num v) = 6 := by
    unfold lsbIndex lsbExp; rw [hE, hm, cs_eq]; decide
  unfold reduce
  rw [hi, hl]
  apply loop_none
  refine ⟨0, by decide, fun s => ?_⟩
  obtain ⟨cl, sl, l1, l2, hcl, hsl, ecl, esl⟩ := h.loads (i := 0) (by rw [hE, hm]; norm_num)
  obtain ⟨H, L, hH, hL, fh, fl, eh, el, esum, oh, ol⟩ := h.split
  have hw : vxExp (.num v) + wt c 0 ≤ ((14 : ℕ) : ℤ) + 50 := by unfold wt; rw [hE, hm]; norm_num
  obtain ⟨ph, qh⟩ := h.product (by rw [hE, hm]; norm_num) hw hcl hsl ecl esl fh (A := H) (t := 25) (by norm_num at hH ⊢; omega) (Or.inl ⟨rfl, hH⟩) eh oh
  -- the high part
  have hhi : (2 : ℚ) ^ 51 ≤ numOf (vxHi (.num v)) + 2 ^ 26 := by
    rw [hE] at el
    have e1 : numOf (vxHi (.num v)) = v - numOf (vxLo (.num v)) := by
      have : numOf (.num v) = v := rfl
      rw [this] at esum; linarith
    have e2 : (L : ℚ) < 2 ^ 27 := by exact_mod_cast (abs_lt.1 hL).2
    norm_num at el
    rw [e1, el]
    norm_num at h1 e2 ⊢
    linarith
  have hbig : (2 : ℚ) ^ 63 ≤ numOf (fmul b64 (fmul b64 (vxHi (.num v)) sl) (fmul b64 cl sl)) := by
    rw [qh, sincos_chunk hc]
    norm_num at hhi ⊢
    linarith
  have hnone : nearInt (fmul b64 (fmul b64 (vxHi (.num v)) sl) (fmul b64 cl sl)) = none := near_big ph hbig
  unfold body
  have e0 : (0 : ℤ) + ((0 : ℕ) : ℤ) = ((0 : ℕ) : ℤ) := by simp
  have hex : preExcludeHi c (.num v) ((0 : ℕ) : ℤ) ≤ ((14 : ℕ) : ℤ) := by rw [excl_eq]; unfold wt; rw [hE, hm]; norm_num
  rw [e0, l1, l2]
  simp only [Option.bind_eq_bind, Option.bind_some]
  unfold hiPart
  rw [if_pos hex, hnone]
  rfl

/-- such an argument -/
example {c : ℚ} (hc : SincosCst c) : reduce c 100 14 (.num (3 * 2 ^ 50)) = none :=
  C82_sincos_overflow_binade_wrong hc ⟨3 * 2 ^ 51, 51, by norm_num [b64], by rw [emin_eq]; norm_num, by rw [emax_eq]; norm_num, by norm_num [b64]⟩ (by norm_num)
    (by norm_num)

/-- C82: with the constant and the parameters of the sine and the cosine, the reduction is right for the arguments of `[1, 2^49)` and of `[2^52, 2^72)` -/
theorem C82_sincos_partial {c v : ℚ} (hc : SincosCst c) (hv : b64.Finite v) (h1 : 1 ≤ v ∧ v < 2 ^ 49 ∨ 2 ^ 52 ≤ v ∧ v < 2 ^ 72) :
    ∃ (acc : Val) (r : ℤ), reduce c 100 14 (.num v) = some (acc, r) ∧ b64.Datum acc ∧ isNaN acc = false ∧ isInf acc = false ∧ |r| ≤ 2 ^ 15 + 2 ∧
      Reduced (v * c) (2 ^ 15) r (numOf acc) (2 ^ (-49 : ℤ)) := by
  have hv1 : 1 ≤ v := by rcases h1 with h | h <;> linarith [h.1]
  have hv0 : 0 < v := by linarith
  have hv72 : v < 2 ^ 72 := by rcases h1 with h | h <;> linarith [h.2]
  have h := sincos_ctx hc hv (by rw [abs_of_pos hv0]; linarith) (by rw [abs_of_pos hv0]; linarith)
  have hm := sincos_msb hc
  have hlog : vxExp (.num v) = Int.log 2 v := by
    show Int.log 2 |v| = _
    rw [abs_of_pos hv0]
  have hE : vxExp (.num v) ≤ 48 ∨ 52 ≤ vxExp (.num v) ∧ vxExp (.num v) ≤ 71 := by
    rw [hlog]
    rcases h1 with h | h
    · left
      have := (Int.lt_zpow_iff_log_lt (b := 2) (by norm_num) hv0 (x := 49)).1 (by exact_mod_cast h.2)
      omega
    · right
      have a := (Int.lt_zpow_iff_log_lt (b := 2) (by norm_num) hv0 (x := 72)).1 (by exact_mod_cast h.2)
      have b := (Int.zpow_le_iff_le_log (b := 2) (by norm_num) hv0 (x := 52)).1 (by exact_mod_cast h.1)
      omega
  obtain ⟨i0, l, e1, -, -, -, -, -, -, e8, -⟩ := h.indices
  have hi0 : i0 = 0 := e8 (by rw [hm]; push_cast; omega)
  subst hi0
  obtain ⟨⟨acc, r⟩, f1, f2, f3, f4, q, f5⟩ := h.reduce e1 (fun j _ _ => by
    obtain ⟨s1, s2⟩ := h.sizes j
    have hw : wt c j = -12 - 24 * j := by unfold wt; rw [hm]; ring
    by_cases hcase : j = 0 ∧ vxExp (.num v) ≤ 51
    · obtain ⟨rfl, hle⟩ := hcase
      have hE48 : vxExp (.num v) ≤ 48 := by omega
      refine ⟨(2 : ℚ) ^ 49 * (21361414 / 4096), (2 : ℚ) ^ (48 : ℤ), by norm_num, fun hw' => ?_, le_trans s2 (Float.zle (by rw [hw]; push_cast; omega)), by norm_num⟩
      rw [sincos_chunk hc, abs_mul]
      have : |numOf (vxHi (.num v))| ≤ 2 ^ 49 := by
        obtain ⟨H, L, hH, hL, fh, fl, eh, el, esum, oh, ol⟩ := h.split
        rw [eh, abs_mul, abs_of_pos (Float.zp _)]
        have hHq : |(H : ℚ)| ≤ (2 : ℚ) ^ (26 : ℤ) := by exact_mod_cast hH.le
        refine le_trans (mul_le_mul_of_nonneg_right hHq (Float.zp _).le) ?_
        rw [← Float.zadd]
        refine le_trans (Float.zle (show 26 + (vxExp (.num v) - 25) ≤ 49 by omega)) ?_
        norm_num
      rw [abs_of_pos (show (0 : ℚ) < 21361414 / 4096 by norm_num)]
      exact mul_le_mul_of_nonneg_right this (by norm_num)
    · refine ⟨(2 : ℚ) ^ (61 : ℤ), (2 : ℚ) ^ (61 : ℤ), (Float.zp _).le, fun hw' => le_trans s1 (Float.zle ?_), le_trans s2 (Float.zle ?_), by norm_num⟩
      · rw [hw] at hw' ⊢; push_cast at hw'; omega
      · rw [hw]; omega)
  refine ⟨acc, r, f1, f2.1, f2.2.1, f2.2.2, f4, f3, q, le_trans f5 ?_⟩
  unfold accuracy; norm_num

/-- such an argument -/
example {c : ℚ} (hc : SincosCst c) : ∃ (acc : Val) (r : ℤ), reduce c 100 14 (.num (3 * 2 ^ 60)) = some (acc, r) ∧ b64.Datum acc ∧ isNaN acc = false ∧ isInf acc = false ∧
    |r| ≤ 2 ^ 15 + 2 ∧ Reduced (3 * 2 ^ 60 * c) (2 ^ 15) r (numOf acc) (2 ^ (-49 : ℤ)) :=
  C82_sincos_partial hc ⟨3 * 2 ^ 51, 61, by norm_num [b64], by rw [emin_eq]; norm_num, by rw [emax_eq]; norm_num, by norm_num [b64]⟩ (Or.inr ⟨by norm_num, by norm_num⟩)

end Verif.Trig
