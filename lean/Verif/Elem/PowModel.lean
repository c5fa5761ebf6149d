import Verif.Elem.Exp2Model

/-! # Model of metalibm_functions/pow.py, the function `MetaPow` generates

The logarithm of the mantissa (pow.py:86-99, generic_log.py:113-236) is a parameter `L`; the polynomial of `exp2` is a parameter `P`; the value of the
undefined conversions is a parameter `cv`; the mantissa field of a NaN is a parameter `nm`. Exception flags are not modelled. -/

namespace Verif.Elem

open Verif.Float (Fmt Val)
open Verif.Check (numOf cLe cEq)

/-- ml_support_lib.h:184-185 `ml_exp_extraction_dirty`: the exponent field minus the bias -/
def expoOf (F : Fmt) : Val → ℤ
  | .num v => if |v| < (2 : ℚ) ^ F.emin then -F.emax else Int.log 2 |v|
  | .plusZero => -F.emax
  | .minusZero => -F.emax
  | _ => F.emax + 1

/-- absolute value of ml_support_lib.h:187-188 `ml_mantissa_extraction` (pow.py:96 `Abs(m)`): the mantissa field with the exponent `0` -/
def mantOf (F : Fmt) (nm : Val) : Val → Val
  | .num v => if |v| < (2 : ℚ) ^ F.emin then .num (1 + |v| * (2 : ℚ) ^ (-F.emin)) else .num (|v| * (2 : ℚ) ^ (-Int.log 2 |v|))
  | .qNaN => nm
  | .sNaN => nm
  | _ => .num 1

/-- pow.py:152-168 `y_is_odd`; generic_processor.py:544-546 `Modulo` is the operator `%` of C, which truncates -/
noncomputable def yIsOdd (F : Fmt) (cv : Val → ℤ) (y : Val) : Bool :=
  (flt (fabs y) (cst F ((2 : ℝ) ^ (F.f + 2))) && cEq (fnearest y) y) && decide (Int.tmod (convC F cv (fnearest y)) 2 = 1)

/-- pow.py:172-272 `special_case_results`: `none` if none of the tests holds.  The test `vx == 1` (pow.py:205) is the equality of Python objects,
the class of the nodes (core/ml_operations.py:262-285) does not redefine it: it is the constant false. -/
noncomputable def powCases (F : Fmt) (cv : Val → ℤ) (x y : Val) : Option Val :=
  if decide (x = .sNaN) || decide (y = .sNaN) then some .qNaN
  else if isZero y then some (.num 1)
  else if isZero x && (yIsOdd F cv y && flt y .plusZero) then some (if decide (x = .plusZero) then .plusInf else .minusInf)
  else if isZero x && decide (y = .minusInf) then some .minusInf
  else if isZero x && decide (y = .plusInf) then some .plusInf
  else if isZero x && (yIsOdd F cv y && fgt y .plusZero) then some x
  else if cEq x (.num (-1)) && isInf y then some (.num 1)
  else if false then some (.num 1)
  else if flt (fabs x) (.num 1) && decide (y = .plusInf) then some .plusZero
  else if fgt (fabs x) (.num 1) && decide (y = .plusInf) then some .plusInf
  else if flt (fabs x) (.num 1) && decide (y = .minusInf) then some .plusInf
  else if fgt (fabs x) (.num 1) && decide (y = .minusInf) then some .plusZero
  else if decide (x = .plusInf) && flt y .plusZero then some .plusZero
  else if decide (x = .plusInf) && fgt y .plusZero then some .plusInf
  else if decide (x = .minusInf) && (yIsOdd F cv y && flt y .plusZero) then some .minusZero
  else if decide (x = .minusInf) && (yIsOdd F cv y && fgt y .plusZero) then some .minusInf
  else if decide (x = .minusInf) && (!yIsOdd F cv y && flt y .plusZero) then some .plusZero
  else if decide (x = .minusInf) && (!yIsOdd F cv y && fgt y .plusZero) then some .plusInf
  else if isZero x && (!yIsOdd F cv y && flt y .plusZero) then some .plusInf
  else if isZero x && (!yIsOdd F cv y && fgt y .plusZero) then some .plusZero
  else none

/-- pow.py:98-99 `log_approx` -/
def logApprox (F : Fmt) (L : Val → Val) (nm x : Val) : Val := if cEq x .plusZero then .minusInf else L (mantOf F nm x)

/-- pow.py:119-147, 281 the default path.  A `none` of `exp2` is a read out of the bounds of its table. -/
noncomputable def powNum (F : Fmt) (L P : Val → Val) (cv : Val → ℤ) (nm x y : Val) : Option Val :=
  let e := expoOf F x
  let la := logApprox F L nm x
  let r := fmul F la y
  let eF := cst F (e : ℝ)
  let EY := fnearest (fmul F eF y)
  let LY := fnearest (fmul F la y)
  let t0Int := if e < 0 then fadd F EY LY else EY
  let t0Frac := if e < 0 then fadd F (ffma F eF y (fneg EY)) (ffma F la y (fneg LY)) else fsub F EY t0Int
  let t1 := if e < 0 then .plusZero else r
  (exp2Model F P cv t0Frac).bind fun e0 =>
  (exp2Model F P cv t1).map fun e1 =>
    fmul F (fmul F (fmul F (.num 1) e1) (insExp F (convC F cv t0Int))) e0

/-- pow.py:63-282 `generate_scalar_scheme` -/
noncomputable def powModel (F : Fmt) (L P : Val → Val) (cv : Val → ℤ) (nm x y : Val) : Option Val :=
  (powCases F cv x y).orElse fun _ => powNum F L P cv nm x y

end Verif.Elem
