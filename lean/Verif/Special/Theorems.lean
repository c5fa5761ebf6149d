import Verif.Special.Model
import Mathlib.Tactic.Linarith
import Mathlib.Tactic.NormNum
import Mathlib.Tactic.FieldSimp
import Mathlib.Algebra.Order.Field.Rat

/-!
# Property theorems on special values: C06, C07
-/

namespace Verif.Special
open Verif.Float (Val)

theorem ext_num_lt (v w : ℚ) : ext (.num v) < ext (.num w) ↔ v < w := by
  unfold ext; rw [WithBot.coe_lt_coe, WithTop.coe_lt_coe]

theorem ext_num_eq (v w : ℚ) : ext (.num v) = ext (.num w) ↔ v = w := by
  unfold ext; rw [WithBot.coe_inj, WithTop.coe_inj]

/-- Line position of every value, with numbers kept symbolic. -/
theorem ext_cases (a : Val) (h : ¬ IsNaN a) :
    a = .plusInf ∨ a = .minusInf ∨ ∃ v, finVal a = some v ∧ ext a = ext (.num v) := by
  cases a <;> simp [IsNaN, finVal, ext] at *

theorem ext_lt_inf (v : ℚ) : ext (.num v) < ext .plusInf ∧ ext .minusInf < ext (.num v) := by
  unfold ext
  exact ⟨WithBot.coe_lt_coe.2 (WithTop.coe_lt_top v), WithBot.bot_lt_coe _⟩

theorem ext_zero : ext .plusZero = ext (.num 0) ∧ ext .minusZero = ext (.num 0) := ⟨rfl, rfl⟩

theorem inf_lt : ext .minusInf < ext .plusInf := by
  unfold ext; exact WithBot.bot_lt_coe _

/-! ## C06 -/

/-- Normal form of all comparisons of line positions. -/
theorem ltSpec_table (a b : Val) : ltSpec a b =
    match a, b with
    | .qNaN, _ => .unordered | .sNaN, _ => .unordered | _, .qNaN => .unordered | _, .sNaN => .unordered
    | .plusInf, _ => .no | .minusInf, .minusInf => .no | .minusInf, _ => .yes
    | _, .minusInf => .no | _, .plusInf => .yes
    | .num v, .num w => tri (decide (v < w))
    | .num v, _ => tri (decide (v < 0))
    | _, .num w => tri (decide (0 < w))
    | _, _ => .no := by
  have htop : ∀ x : WithBot (WithTop ℚ), ¬ ((⊤ : WithTop ℚ) : WithBot (WithTop ℚ)) < x := fun x => by
    rw [not_lt]
    cases x with
    | bot => exact bot_le
    | coe y => exact WithBot.coe_le_coe.2 le_top
  have hbot : ∀ x : WithBot (WithTop ℚ), ¬ x < ⊥ := fun x => not_lt_bot
  cases a <;> cases b <;> simp [ltSpec, IsNaN, ext, tri, htop, hbot, -WithBot.coe_top]

theorem eqSpec_table (a b : Val) : eqSpec a b =
    match a, b with
    | .qNaN, _ => .no | .sNaN, _ => .no | _, .qNaN => .no | _, .sNaN => .no
    | .plusInf, .plusInf => .yes | .minusInf, .minusInf => .yes
    | .plusInf, _ => .no | .minusInf, _ => .no | _, .plusInf => .no | _, .minusInf => .no
    | .num v, .num w => tri (decide (v = w))
    | .num v, _ => tri (decide (v = 0))
    | _, .num w => tri (decide (w = 0))
    | _, _ => .yes := by
  cases a <;> cases b <;> simp [eqSpec, IsNaN, ext, tri, -WithBot.coe_top, eq_comm]

theorem leSpec_eq (a b : Val) : leSpec a b = negateTri (ltSpec b a) := by
  unfold leSpec ltSpec
  by_cases h : IsNaN a ∨ IsNaN b
  · rw [if_pos h, if_pos (Or.symm h)]; rfl
  · rw [if_neg h, if_neg (fun h' => h (Or.symm h'))]
    by_cases h2 : ext b < ext a
    · rw [if_pos h2, if_neg (not_le.2 h2)]; rfl
    · rw [if_neg h2, if_pos (not_lt.1 h2)]; rfl

/-- A number on the left and an infinity on the right: the pairs on which `<` is wrong. -/
def NumVsInf (a b : Val) : Prop := (∃ v, a = .num v) ∧ IsInf b

theorem specialLt_ok (a b : Val) (h : ¬ ∃ v, a = .num v) : specialLt a b = .ok (ltSpec a b) := by
  rw [ltSpec_table]
  cases a <;> cases b <;>
    simp [specialLt, isNan, isMinusInf, isPlusInf, isZero, tri] at h ⊢
  all_goals
    rename_i w
    rcases eq_or_ne w 0 with rfl | hw
    · simp
    · simp [hw]

theorem specialLt_num (v : ℚ) (b : Val) : specialLt (.num v) b = .ok (ltSpec (.num v) b) := by
  rw [ltSpec_table]
  rcases eq_or_ne v 0 with rfl | hv
  · cases b <;> simp [specialLt, isNan, isMinusInf, isPlusInf, isZero, tri]
    rename_i w
    rcases eq_or_ne w 0 with rfl | hw
    · simp
    · simp [hw]
  · cases b <;> simp [specialLt, isNan, isMinusInf, isPlusInf, isZero, tri, hv]

/-- The helper behind the special-value operators is right on all pairs. -/
theorem specialLt_all (a b : Val) : specialLt a b = .ok (ltSpec a b) := by
  by_cases h : ∃ v, a = .num v
  · obtain ⟨v, rfl⟩ := h; exact specialLt_num v b
  · exact specialLt_ok a b h

theorem numberLt_num (v : ℚ) (b : Val) (h : ¬ IsInf b) : numberLt (.num v) b = .ok (ltSpec (.num v) b) := by
  rw [ltSpec_table]
  cases b <;> simp [numberLt, isNan, isMinusInf, isPlusInf, IsInf] at h ⊢
  rename_i w
  rw [show (if w = 0 then 0 else w) = w by split <;> simp_all]

/-- C06 `<` (part that holds): right on every pair except a number on the left and an infinity on the right.
Missing: those pairs, `C06_number_vs_infinity_is_reversed`. -/
theorem C06_lt_partial (a b : Val) (h : ¬ NumVsInf a b) : opLt a b = .ok (ltSpec a b) := by
  unfold opLt
  cases a with
  | num v => exact numberLt_num v b (fun hb => h ⟨⟨v, rfl⟩, hb⟩)
  | _ => simp only [isNumber, Bool.false_eq_true, if_false]; exact specialLt_all _ _

/-- C06 `>=` (part that holds): same exception as `<`. -/
theorem C06_ge_partial (a b : Val) (h : ¬ NumVsInf a b) : opGe a b = .ok (leSpec b a) := by
  have h1 : opGe a b = (opLt a b).map negateTri := rfl
  rw [h1, C06_lt_partial a b h, leSpec_eq]; rfl

/-- C06 `<=` (part that holds): right on every pair except an infinity on the left and a number on the right. -/
theorem C06_le_partial (a b : Val) (h : ¬ NumVsInf b a) : opLe a b = .ok (leSpec a b) :=
  C06_ge_partial b a h

/-- C06 `>` (part that holds): right when the left operand is special, or both are numbers. -/
theorem C06_gt_partial (a b : Val) (h : (¬ ∃ v, a = .num v) ∨ ∃ w, b = .num w) : opGt a b = .ok (ltSpec b a) := by
  unfold opGt
  cases a with
  | num v =>
    rcases h with h | ⟨w, rfl⟩
    · exact absurd ⟨v, rfl⟩ h
    · exact numberLt_num w (.num v) (fun h => h)
  | _ => simp only [isNumber, Bool.false_eq_true, if_false]; exact specialLt_all _ _

/-- C06 `==` (part that holds): right on every pair except the numeric zero on the left and a signed zero on the right. -/
theorem C06_eq_partial (a b : Val) (h : ¬ (a = .num 0 ∧ (b = .plusZero ∨ b = .minusZero))) :
    opEq a b = .ok (eqSpec a b) := by
  rw [eqSpec_table]
  cases a <;> cases b <;> simp [opEq, specialEq, isPlusInf, isMinusInf, isZero, isNan, tri] at h ⊢
  all_goals exact h

/-- C06 `!=` is the negation of `==`, under the same exception; two NaNs are different. -/
theorem C06_ne_partial (a b : Val) (h : ¬ (a = .num 0 ∧ (b = .plusZero ∨ b = .minusZero))) :
    opNe a b = .ok (neSpec a b) := by
  unfold opNe
  rw [C06_eq_partial a b h]
  show Except.ok (negateTri (eqSpec a b)) = _
  unfold eqSpec neSpec
  split
  · rfl
  · split <;> rfl

example : ¬ NumVsInf (.num 3) .minusZero ∧ ltSpec (.num (-3)) .minusZero = .yes := by
  refine ⟨fun h => h.2, ?_⟩
  rw [ltSpec_table]; simp [tri]

/-- C06 is false of the code: every number compares greater than plus infinity and less than minus infinity. -/
theorem C06_number_vs_infinity_is_reversed (v : ℚ) :
    opLt (.num v) .plusInf = .ok .no ∧ ltSpec (.num v) .plusInf = .yes ∧
    opLt (.num v) .minusInf = .ok .yes ∧ ltSpec (.num v) .minusInf = .no ∧
    opGe (.num v) .plusInf = .ok .yes ∧ opLe .plusInf (.num v) = .ok .yes ∧ leSpec .plusInf (.num v) = .no := by
  refine ⟨rfl, ?_, rfl, ?_, rfl, rfl, ?_⟩
  · rw [ltSpec_table]
  · rw [ltSpec_table]
  · rw [leSpec_eq, ltSpec_table]; rfl

/-- C06 is false of the code: `>` between a number and an infinity or a signed zero raises, and it is false rather than
unordered on NaN. -/
theorem C06_gt_number_vs_special_fails (v : ℚ) :
    opGt (.num v) .minusInf = .error .convert ∧ opGt (.num v) .plusZero = .error .convert ∧
    opGt (.num v) .qNaN = .ok .no ∧ ltSpec .qNaN (.num v) = .unordered := by
  refine ⟨rfl, rfl, rfl, ?_⟩
  rw [ltSpec_table]

/-- C06 is false of the code: equality of zeros is not symmetric. -/
theorem C06_zero_equality_not_symmetric :
    opEq .plusZero (.num 0) = .ok .yes ∧ opEq (.num 0) .plusZero = .ok .no ∧ eqSpec (.num 0) .plusZero = .yes := by
  refine ⟨by decide +kernel, by decide +kernel, ?_⟩
  rw [eqSpec_table]; simp [tri]

/-! ## C07 -/

/-- C07 addition: for every pair of operands and every rounding mode the operator returns, without exception, a result
meeting the IEEE-754 rules. -/
theorem C07_add (rm : RM) (a b : Val) : ∃ r, opAdd rm a b = .ok r ∧ AddOK a b r := by
  have main : ∀ a b, (¬ ∃ v, a = .num v) → ∃ r, specialAdd rm a b = .ok r ∧ AddOK a b r ∧ AddOK b a r := by
    intro a b ha
    cases b with
    | num w =>
      rcases eq_or_ne w 0 with rfl | hw
      · cases a <;> cases rm <;>
          simp [specialAdd, isNan, isPlusInf, isMinusInf, isInf, isZero, isMinusZero, isNumber, prec, Except.map] at ha ⊢ <;>
          (try refine And.intro ?_ ?_) <;> constructor <;> simp [IsNaN, IsInf, finVal]
      · cases a <;> cases rm <;>
          simp [specialAdd, isNan, isPlusInf, isMinusInf, isInf, isZero, isMinusZero, isNumber, prec, Except.map, hw] at ha ⊢ <;>
          (try refine And.intro ?_ ?_) <;> constructor <;> simp [IsNaN, IsInf, finVal]
    | _ =>
      cases a <;> cases rm <;>
        simp [specialAdd, isNan, isPlusInf, isMinusInf, isInf, isZero, isMinusZero, isNumber, prec, Except.map] at ha ⊢ <;>
        (try refine And.intro ?_ ?_) <;> constructor <;> simp [IsNaN, IsInf, finVal]
  by_cases ha : ∃ v, a = .num v
  · obtain ⟨v, rfl⟩ := ha
    by_cases hb : ∃ w, b = .num w
    · obtain ⟨w, rfl⟩ := hb
      refine ⟨.num (v + w), rfl, ?_⟩
      constructor <;> simp [IsNaN, IsInf, finVal]
    · obtain ⟨r, h1, h2, h3⟩ := main b (.num v) hb
      refine ⟨r, ?_, h3⟩
      rw [← h1]
      cases b with
      | num w => exact absurd ⟨w, rfl⟩ hb
      | _ => rfl
  · obtain ⟨r, h1, h2, h3⟩ := main a b ha
    refine ⟨r, ?_, h2⟩
    rw [← h1]
    cases a with
    | num w => exact absurd ⟨w, rfl⟩ ha
    | _ => rfl

/-- C07 addition: the sum of two zeros of opposite signs is `-0` when rounding down and `+0` in the other modes. -/
theorem C07_add_opposite_zeros :
    opAdd .down .plusZero .minusZero = .ok .minusZero ∧ opAdd .down .minusZero .plusZero = .ok .minusZero ∧
    opAdd .other .plusZero .minusZero = .ok .plusZero ∧ opAdd .other .minusZero .plusZero = .ok .plusZero := by
  decide +kernel

example : opAdd .other (.num (-3)) .plusInf = .ok .plusInf := by decide +kernel

/-- C07 subtraction: subtracting is adding the opposite, for every pair of operands. -/
theorem C07_sub (rm : RM) (a b : Val) : ∃ r, opSub rm a b = .ok r ∧ AddOK a (opp b) r := by
  have hneg : ∀ x, negate x = opp x := by intro x; cases x <;> rfl
  cases a with
  | num v =>
    cases b with
    | num w =>
      refine ⟨.num (v - w), rfl, ?_⟩
      constructor <;> simp [IsNaN, IsInf, finVal, opp, sub_eq_add_neg]
    | plusZero =>
      obtain ⟨r, h1, h2⟩ := C07_add rm (.num v) .minusZero
      exact ⟨r, h1, h2⟩
    | minusZero =>
      obtain ⟨r, h1, h2⟩ := C07_add rm (.num v) .plusZero
      exact ⟨r, h1, h2⟩
    | _ =>
      simp [opSub, specialSub, isNan, isPlusInf, isMinusInf, isInf, prec, Except.map, negate]
      constructor <;> simp [IsNaN, IsInf, finVal, opp]
  | plusZero =>
    cases b with
    | num w =>
      obtain ⟨r, h1, h2⟩ := C07_add rm .plusZero (.num (-w))
      exact ⟨r, h1, h2⟩
    | plusZero =>
      obtain ⟨r, h1, h2⟩ := C07_add rm .plusZero .minusZero
      exact ⟨r, h1, h2⟩
    | minusZero =>
      obtain ⟨r, h1, h2⟩ := C07_add rm .plusZero .plusZero
      exact ⟨r, h1, h2⟩
    | _ =>
      simp [opSub, specialSub, isNan, isPlusInf, isMinusInf, isInf, prec, Except.map, negate]
      constructor <;> simp [IsNaN, IsInf, finVal, opp]
  | minusZero =>
    cases b with
    | num w =>
      obtain ⟨r, h1, h2⟩ := C07_add rm .minusZero (.num (-w))
      exact ⟨r, h1, h2⟩
    | plusZero =>
      obtain ⟨r, h1, h2⟩ := C07_add rm .minusZero .minusZero
      exact ⟨r, h1, h2⟩
    | minusZero =>
      obtain ⟨r, h1, h2⟩ := C07_add rm .minusZero .plusZero
      exact ⟨r, h1, h2⟩
    | _ =>
      simp [opSub, specialSub, isNan, isPlusInf, isMinusInf, isInf, prec, Except.map, negate]
      constructor <;> simp [IsNaN, IsInf, finVal, opp]
  | _ =>
    cases b <;> simp [opSub, specialSub, isNan, isPlusInf, isMinusInf, isInf, prec, Except.map, negate] <;>
      constructor <;> simp [IsNaN, IsInf, finVal, opp]

/-- C07 multiplication (part that holds): right on every pair, except a signed zero times the numeric zero.
Missing: that pair, `C07_mul_numeric_zero_sign`. -/
theorem C07_mul_partial (a b : Val)
    (h : ¬ ((a = .plusZero ∨ a = .minusZero) ∧ b = .num 0) ∧ ¬ ((b = .plusZero ∨ b = .minusZero) ∧ a = .num 0)) :
    ∃ r, opMul a b = .ok r ∧ MulOK a b r := by
  have main : ∀ a b, (¬ ∃ v, a = .num v) → ¬ ((a = .plusZero ∨ a = .minusZero) ∧ b = .num 0) →
      ∃ r, specialMul a b = .ok r ∧ MulOK a b r ∧ MulOK b a r := by
    intro a b ha hz
    cases b with
    | num w =>
      rcases lt_trichotomy w 0 with hw | rfl | hw
      · cases a <;>
          simp [specialMul, isNan, isPlusInf, isMinusInf, isInf, isZero, isPlusZero, isMinusZero, isNumber, prec,
            Except.map, isPositive, isNegative, numPos, numNeg, negate, hw, hw.ne, hw.not_gt, hw.not_ge] at ha hz ⊢ <;>
          (try refine And.intro ?_ ?_) <;> constructor <;> simp [IsNaN, IsInf, IsZero, finVal, neg, hw, hw.ne]
      · cases a <;>
          simp [specialMul, isNan, isPlusInf, isMinusInf, isInf, isZero, isPlusZero, isMinusZero, isNumber, prec,
            Except.map, isPositive, isNegative, numPos, numNeg, negate] at ha hz ⊢ <;>
          (try refine And.intro ?_ ?_) <;> constructor <;> simp [IsNaN, IsInf, IsZero, finVal, neg]
      · cases a <;>
          simp [specialMul, isNan, isPlusInf, isMinusInf, isInf, isZero, isPlusZero, isMinusZero, isNumber, prec,
            Except.map, isPositive, isNegative, numPos, numNeg, negate, hw, hw.ne', hw.not_gt, hw.le] at ha hz ⊢ <;>
          (try refine And.intro ?_ ?_) <;> constructor <;> simp [IsNaN, IsInf, IsZero, finVal, neg, hw.not_gt, hw.ne', hw.le]
    | _ =>
      cases a <;>
        simp [specialMul, isNan, isPlusInf, isMinusInf, isInf, isZero, isPlusZero, isMinusZero, isNumber, prec,
            Except.map, isPositive, isNegative, numPos, numNeg, negate] at ha hz ⊢ <;>
        (try refine And.intro ?_ ?_) <;> constructor <;> simp [IsNaN, IsInf, IsZero, finVal, neg]
  by_cases ha : ∃ v, a = .num v
  · obtain ⟨v, rfl⟩ := ha
    by_cases hb : ∃ w, b = .num w
    · obtain ⟨w, rfl⟩ := hb
      refine ⟨.num (v * w), rfl, ?_⟩
      constructor <;> simp [IsNaN, IsInf, finVal]
    · obtain ⟨r, h1, h2, h3⟩ := main b (.num v) hb h.2
      refine ⟨r, ?_, h3⟩
      rw [← h1]
      cases b with
      | num w => exact absurd ⟨w, rfl⟩ hb
      | _ => rfl
  · obtain ⟨r, h1, h2, h3⟩ := main a b ha h.1
    refine ⟨r, ?_, h2⟩
    rw [← h1]
    cases a with
    | num w => exact absurd ⟨w, rfl⟩ ha
    | _ => rfl

example : opMul (.num (-3)) .plusInf = .ok .minusInf ∧ opMul .minusZero (.num (-2)) = .ok .plusZero := by
  decide +kernel

/-- The sign of `+0 * 0` is wrong when the second zero is the numeric zero object. -/
theorem C07_mul_numeric_zero_sign :
    opMul .plusZero (.num 0) = .ok .minusZero ∧ ¬ MulOK .plusZero (.num 0) .minusZero := by
  refine ⟨by decide +kernel, fun h => ?_⟩
  have := h.zeroSign 0 0 rfl rfl (.inr rfl)
  simp [neg] at this

/-- C07 division (part that holds): right on every pair, except a number over NaN, which raises, the numeric zero over an
infinity, which gets a wrong sign, and two numbers with a zero divisor, which is left to Sollya. -/
theorem C07_div_partial (a b : Val) (h1 : ¬ ((∃ v, a = .num v) ∧ IsNaN b)) (h2 : ¬ (a = .num 0 ∧ IsInf b))
    (h3 : ¬ ((∃ v, a = .num v) ∧ b = .num 0)) :
    ∃ r, opDiv a b = .ok r ∧ DivOK a b r := by
  cases a with
  | num v =>
    rcases lt_trichotomy v 0 with hv | rfl | hv
    · cases b <;>
        simp [opDiv, specialDiv, isNan, isPlusInf, isMinusInf, isInf, isZero, isPlusZero, isMinusZero, isNumber, prec,
            Except.map, isPositive, isNegative, numPos, numNeg, negate, IsNaN, IsInf, hv, hv.ne, hv.not_gt, hv.not_ge] at h1 h2 h3 ⊢
      case num w =>
        refine ⟨.num (v / w), by rw [if_neg h3], ?_⟩
        constructor <;> simp [IsNaN, IsInf, IsZero, finVal, neg, h3]
      all_goals constructor <;> simp [IsNaN, IsInf, IsZero, finVal, neg, hv, hv.ne]
    · cases b <;>
        simp [opDiv, specialDiv, isNan, isPlusInf, isMinusInf, isInf, isZero, isPlusZero, isMinusZero, isNumber, prec,
            Except.map, isPositive, isNegative, numPos, numNeg, negate, IsNaN, IsInf] at h1 h2 h3 ⊢
      case num w =>
        refine ⟨.num 0, by rw [if_neg h3], ?_⟩
        constructor <;> simp [IsNaN, IsInf, IsZero, finVal, neg, h3]
      all_goals constructor <;> simp [IsNaN, IsInf, IsZero, finVal, neg]
    · cases b <;>
        simp [opDiv, specialDiv, isNan, isPlusInf, isMinusInf, isInf, isZero, isPlusZero, isMinusZero, isNumber, prec,
            Except.map, isPositive, isNegative, numPos, numNeg, negate, IsNaN, IsInf, hv, hv.ne', hv.not_gt, hv.le] at h1 h2 h3 ⊢
      case num w =>
        refine ⟨.num (v / w), by rw [if_neg h3], ?_⟩
        constructor <;> simp [IsNaN, IsInf, IsZero, finVal, neg, h3]
      all_goals constructor <;> simp [IsNaN, IsInf, IsZero, finVal, neg, hv.le, hv.ne']
  | _ =>
    cases b with
    | num w =>
      rcases lt_trichotomy w 0 with hw | rfl | hw
      · simp [opDiv, specialDiv, isNan, isPlusInf, isMinusInf, isInf, isZero, isPlusZero, isMinusZero, isNumber, prec,
            Except.map, isPositive, isNegative, numPos, numNeg, negate, hw, hw.ne, hw.not_gt, hw.not_ge]
        constructor <;> simp [IsNaN, IsInf, IsZero, finVal, neg, hw, hw.ne]
      · simp [opDiv, specialDiv, isNan, isPlusInf, isMinusInf, isInf, isZero, isPlusZero, isMinusZero, isNumber, prec,
            Except.map, isPositive, isNegative, numPos, numNeg, negate]
        constructor <;> simp [IsNaN, IsInf, IsZero, finVal, neg]
      · simp [opDiv, specialDiv, isNan, isPlusInf, isMinusInf, isInf, isZero, isPlusZero, isMinusZero, isNumber, prec,
            Except.map, isPositive, isNegative, numPos, numNeg, negate, hw, hw.ne', hw.not_gt, hw.le]
        constructor <;> simp [IsNaN, IsInf, IsZero, finVal, neg, hw.le, hw.ne']
    | _ =>
      simp [opDiv, specialDiv, isNan, isPlusInf, isMinusInf, isInf, isZero, isPlusZero, isMinusZero, isNumber, prec,
            Except.map, isPositive, isNegative, numPos, numNeg, negate]
      constructor <;> simp [IsNaN, IsInf, IsZero, finVal, neg]

example : opDiv (.num (-3)) .plusZero = .ok .minusInf ∧ opDiv .minusZero (.num 2) = .ok .minusZero := by
  decide +kernel

/-- C07 is false of the code: dividing any number by a NaN raises instead of returning NaN. -/
theorem C07_div_number_by_nan_raises (v : ℚ) : opDiv (.num v) .qNaN = .error .attribute := rfl

/-- C07 is false of the code: the numeric zero over plus infinity is `-0`. -/
theorem C07_div_zero_by_inf_sign :
    opDiv (.num 0) .plusInf = .ok .minusZero ∧ ¬ DivOK (.num 0) .plusInf .minusZero := by
  refine ⟨by decide +kernel, fun h => ?_⟩
  have := h.byInf trivial ⟨0, rfl⟩
  simp [neg] at this

end Verif.Special
