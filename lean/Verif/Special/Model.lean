import Verif.Special.Spec

/-!
# Model of `metalibm_core/core/special_values.py`

`Val.num v` is a `NumericValue` wrapping an exact number. The precision carried by special-value objects is not modelled,
except that reading `.precision` on a numeric operand fails (`AttributeError`), see `prec`.
-/

namespace Verif.Special
open Verif.Float (Val)

/-- Python exceptions raised by the operators. -/
inductive Err where
  | attribute       -- `lhs.precision` on a number
  | notImplemented
  | convert         -- `SollyaObject(special value)`
  deriving DecidableEq, Repr

/-- `is_nan`, lines 596-598. -/
def isNan : Val → Bool
  | .qNaN | .sNaN => true
  | _ => false

/-- `is_plus_zero`, lines 600-601. -/
def isPlusZero (v : Val) (extended : Bool := false) : Bool :=
  match v with
  | .plusZero => true
  | .num x => extended && decide (x = 0)
  | _ => false

/-- `is_minus_zero`, lines 602-603. -/
def isMinusZero : Val → Bool
  | .minusZero => true
  | _ => false

/-- `is_zero`, lines 604-605. -/
def isZero : Val → Bool
  | .plusZero | .minusZero => true
  | .num v => decide (v = 0)
  | _ => false

/-- `is_plus_infty`, lines 606-607. -/
def isPlusInf : Val → Bool
  | .plusInf => true
  | _ => false

/-- `is_minus_infty`, lines 608-609. -/
def isMinusInf : Val → Bool
  | .minusInf => true
  | _ => false

/-- `is_infty`, lines 610-611. -/
def isInf (v : Val) : Bool := isPlusInf v || isMinusInf v

/-- `is_number` and `is_numeric_value`, lines 612-614 and 620-622. -/
def isNumber : Val → Bool
  | .num _ => true
  | _ => false

/-- Reading `lhs.precision`: only special values have one. -/
def prec : Val → Except Err Unit
  | .num _ => .error .attribute
  | _ => .ok ()

/-- `negate_predicate`, lines 199-205. -/
def negateTri : Tri → Tri
  | .unordered => .unordered
  | .yes => .no
  | .no => .yes

/-- A Python boolean as a predicate value. -/
def tri (b : Bool) : Tri := if b then .yes else .no

/-- `number_less_than_special_value`, lines 218-230. On the paths that build `SollyaObject(lhs)`, `lhs` may be a special
value: infinities and zeros have no conversion to Sollya (`Err.convert`), NaNs convert to Sollya's NaN, for which `<` is
false. -/
def numberLt (lhs rhs : Val) : Except Err Tri :=
  if isNan rhs then .ok .unordered
  else if isMinusInf rhs then .ok .yes
  else if isPlusInf rhs then .ok .no
  else
    let r : Option ℚ := match rhs with
      | .num w => some (if w = 0 then 0 else w)
      | .plusZero | .minusZero => some 0
      | _ => none
    match r with
    | none => .error .notImplemented
    | some w =>
      match lhs with
      | .num v => .ok (tri (decide (v < w)))
      | .qNaN | .sNaN => .ok .no
      | _ => .error .convert

/-- `special_value_less_than`, lines 232-273. The comparisons `0 < rhs`, `lhs < rhs` and `lhs < 0` between numbers are
exact comparisons. -/
def specialLt (lhs rhs : Val) : Except Err Tri :=
  if isNan lhs || isNan rhs then .ok .unordered
  else if isMinusInf lhs then .ok (tri (!isMinusInf rhs))
  else if isZero lhs then
    if isZero rhs then .ok .no
    else if isPlusInf rhs then .ok .yes
    else if isMinusInf rhs then .ok .no
    else match rhs with
      | .num w => .ok (tri (decide (0 < w)))
      | _ => .error .notImplemented
  else if isPlusInf lhs then .ok .no
  else match lhs with
    | .num v =>
      match rhs with
      | .num w => .ok (tri (decide (v < w)))
      | _ =>
        if isMinusInf rhs then .ok .no
        else if isPlusInf rhs then .ok .yes
        else if isZero rhs then .ok (tri (decide (v < 0)))
        else .error .notImplemented
    | _ => .error .notImplemented

/-- `special_value_equal`, lines 275-299. -/
def specialEq (lhs rhs : Val) : Except Err Tri :=
  if isPlusInf lhs then .ok (tri (isPlusInf rhs))
  else if isMinusInf lhs then .ok (tri (isMinusInf rhs))
  else if isZero lhs then .ok (tri (isZero rhs))
  else if isNan lhs then .ok .no
  else match lhs, rhs with
    | .num v, .num w => .ok (tri (decide (v = w)))
    | .num _, _ => .ok .no
    | _, _ => .error .notImplemented

/-- Operator `<`: `NumericValue.__lt__` (lines 72-74) or `FP_SpecialValue.__lt__` (lines 167-168). -/
def opLt (a b : Val) : Except Err Tri := if isNumber a then numberLt a b else specialLt a b

/-- Operator `>`: lines 78-80 and 171-172. -/
def opGt (a b : Val) : Except Err Tri := if isNumber a then numberLt b a else specialLt b a

/-- Operator `>=`: lines 81-83 and 173-174. -/
def opGe (a b : Val) : Except Err Tri :=
  (if isNumber a then numberLt a b else specialLt a b).map negateTri

/-- Operator `<=`: `rhs >= lhs`, lines 75-77 and 169-170. -/
def opLe (a b : Val) : Except Err Tri := opGe b a

/-- Operator `==`: lines 84-88 and 175-176. -/
def opEq (a b : Val) : Except Err Tri :=
  match a with
  | .num v => match b with
    | .num w => .ok (tri (decide (v = w)))
    | _ => .ok .no
  | _ => specialEq a b

/-- Operator `!=`: lines 89-90 and 177-178. -/
def opNe (a b : Val) : Except Err Tri := (opEq a b).map negateTri

/-- Rounding mode selector `FP_SpecialValue.rounding_mode`, line 119: unset, round down, or another mode. -/
inductive RM where
  | unset | down | other
  deriving DecidableEq, Repr

/-- `-value`: lines 470-471, 483-484, 520-521, 545-546 and exact negation on numbers. Only called on infinities, zeros and
numbers. -/
def negate : Val → Val
  | .plusInf => .minusInf
  | .minusInf => .plusInf
  | .plusZero => .minusZero
  | .minusZero => .plusZero
  | .num v => .num (-v)
  | v => v

/-- `special_value_add`, lines 304-340. `lhs + rhs` on two numbers is the exact sum. -/
def specialAdd (rm : RM) (lhs rhs : Val) : Except Err Val :=
  if isNan lhs || isNan rhs then (prec lhs).map fun _ => .qNaN
  else if (isPlusInf lhs && isMinusInf rhs) || (isMinusInf lhs && isPlusInf rhs) then (prec lhs).map fun _ => .qNaN
  else if isInf lhs && isInf rhs then .ok lhs
  else if isZero lhs && isZero rhs then
    if isMinusZero lhs || isMinusZero rhs then
      match rm with
      | .unset => .ok lhs
      | rm =>
        if (isMinusZero lhs && isMinusZero rhs) || decide (rm = .down) then (prec lhs).map fun _ => .minusZero
        else (prec lhs).map fun _ => .plusZero
    else (prec lhs).map fun _ => .plusZero
  else if isZero lhs then .ok rhs
  else if isZero rhs then .ok lhs
  else if isInf lhs && isNumber rhs then .ok lhs
  else if isNumber lhs && isInf rhs then .ok rhs
  else match lhs, rhs with
    | .num v, .num w => .ok (.num (v + w))
    | _, _ => .error .notImplemented

/-- Operator `+`: `NumericValue.__add__` (lines 51-55) swaps the operands when the right one is special. -/
def opAdd (rm : RM) (a b : Val) : Except Err Val :=
  match a, b with
  | .num v, .num w => .ok (.num (v + w))
  | .num _, _ => specialAdd rm b a
  | _, _ => specialAdd rm a b

/-- `special_value_sub`, lines 342-364. -/
def specialSub (rm : RM) (lhs rhs : Val) : Except Err Val :=
  if isNan lhs then (prec lhs).map fun _ => .qNaN
  else if isNan rhs then (prec rhs).map fun _ => .qNaN
  else if (isPlusInf lhs && isPlusInf rhs) || (isMinusInf lhs && isMinusInf rhs) then (prec lhs).map fun _ => .qNaN
  else if isPlusInf lhs && isMinusInf rhs then .ok lhs
  else if isMinusInf lhs && isPlusInf rhs then .ok lhs
  else if isInf lhs && isZero rhs then .ok lhs
  else if isInf lhs then .ok lhs
  else if isInf rhs then .ok (negate rhs)
  else opAdd rm lhs (negate rhs)

/-- Operator `-`: lines 61-65 and 152-155. -/
def opSub (rm : RM) (a b : Val) : Except Err Val :=
  match a, b with
  | .num v, .num w => .ok (.num (v - w))
  | _, _ => specialSub rm a b

/-- `is_positive`, lines 456-458. -/
def isPositive : Val → Bool
  | .plusZero | .plusInf => true
  | .num v => decide (0 ≤ v)
  | _ => false

/-- `is_negative`, lines 459-461. -/
def isNegative : Val → Bool
  | .minusZero | .minusInf => true
  | .num v => decide (v < 0)
  | _ => false

/-- The number test `0 < value` on a number. -/
def numPos : Val → Bool
  | .num v => decide (0 < v)
  | _ => false

/-- The number test `value < 0` on a number. -/
def numNeg : Val → Bool
  | .num v => decide (v < 0)
  | _ => false

/-- `special_value_mul`, lines 366-405. -/
def specialMul (lhs rhs : Val) : Except Err Val :=
  if isNan lhs || isNan rhs then (prec lhs).map fun _ => .qNaN
  else if (isPlusInf lhs && isPlusInf rhs) || (isMinusInf lhs && isMinusInf rhs) then (prec lhs).map fun _ => .plusInf
  else if isInf lhs && isInf rhs then (prec lhs).map fun _ => .minusInf
  else if isInf lhs && isZero rhs then (prec lhs).map fun _ => .qNaN
  else if isZero lhs && isInf rhs then (prec rhs).map fun _ => .qNaN
  else if isNumber rhs && isPlusInf lhs then .ok (if numPos rhs then .plusInf else .minusInf)
  else if isNumber rhs && isMinusInf lhs then .ok (if numNeg rhs then .plusInf else .minusInf)
  else if isNumber lhs && isPlusInf rhs then .ok (if numPos lhs then .plusInf else .minusInf)
  else if isNumber lhs && isMinusInf rhs then .ok (if numNeg lhs then .plusInf else .minusInf)
  else match lhs, rhs with
    | .num v, .num w => .ok (.num (v * w))
    | _, _ =>
      if (isPlusZero lhs && isPlusZero rhs) || (isMinusZero lhs && isMinusZero rhs) then (prec lhs).map fun _ => .plusZero
      else if isZero lhs && isZero rhs then (prec lhs).map fun _ => .minusZero
      else if isZero lhs && isPositive rhs then .ok lhs
      else if isZero rhs && isPositive lhs then .ok rhs
      else if isZero lhs && isNegative rhs then .ok (negate lhs)
      else if isZero rhs && isNegative lhs then .ok (negate rhs)
      else .error .notImplemented

/-- Operator `*`: `NumericValue.__mul__` (lines 56-60) swaps the operands when the right one is special. -/
def opMul (a b : Val) : Except Err Val :=
  match a, b with
  | .num v, .num w => .ok (.num (v * w))
  | .num _, _ => specialMul b a
  | _, _ => specialMul a b

/-- `special_value_div`, lines 407-454. -/
def specialDiv (lhs rhs : Val) : Except Err Val :=
  if isNan lhs || isNan rhs then (prec lhs).map fun _ => .qNaN
  else if isInf lhs && isInf rhs then (prec lhs).map fun _ => .qNaN
  else if (isPlusInf lhs && isPlusZero rhs true) || (isMinusInf lhs && isMinusZero rhs) then
    (prec lhs).map fun _ => .plusInf
  else if (isPlusInf lhs && isMinusZero rhs) || (isMinusInf lhs && isPlusZero rhs true) then
    (prec lhs).map fun _ => .minusInf
  else if isNumber rhs && isPlusInf lhs then .ok (if numPos rhs then .plusInf else .minusInf)
  else if isNumber rhs && isMinusInf lhs then .ok (if numNeg rhs then .plusInf else .minusInf)
  else if isNumber lhs && isPlusInf rhs then .ok (if numPos lhs then .plusZero else .minusZero)
  else if isNumber lhs && isMinusInf rhs then .ok (if numNeg lhs then .plusZero else .minusZero)
  else match lhs, rhs with
    | .num v, .num w => if w ≠ 0 then .ok (.num (v / w)) else
        -- `default_precision` is used by the remaining branches
        if v = 0 then .ok .qNaN else .ok (if 0 ≤ v then .plusInf else .minusInf)
    | _, _ =>
      if isZero lhs && isZero rhs then .ok .qNaN
      else if isZero lhs && isPositive rhs then .ok lhs
      else if isZero lhs && isNegative rhs then .ok (negate lhs)
      else if (isPositive lhs && isPlusZero rhs true) || (isNegative lhs && isMinusZero rhs) then .ok .plusInf
      else if (isPositive lhs && isMinusZero rhs) || (isNegative lhs && isPlusZero rhs true) then .ok .minusInf
      else .error .notImplemented

/-- Operator `/` with at least one special operand: lines 66-70 and 161-164. On two numbers it is Sollya's division and is
only modelled for a non-zero divisor. -/
def opDiv (a b : Val) : Except Err Val :=
  match a, b with
  | .num v, .num w => if w = 0 then .error .notImplemented else .ok (.num (v / w))
  | _, _ => specialDiv a b

end Verif.Special
