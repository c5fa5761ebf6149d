import Verif.Check.Model
import Verif.Special.Spec

/-! # The floating-point operations the generated C code is made of

The C arithmetic of a binary format is external to metalibm: it is modelled as IEEE-754 arithmetic, rounding to nearest even.  The tests and
the exponent manipulations are macros of metalibm_core/support_lib/ml_support_lib.h. The NaN an operation returns is quiet. -/

namespace Verif.Elem

open Verif.Float (Fmt Val)
open Verif.Check (numOf cLe cEq roundUnb toInt)

/-- infinity of a sign (`true` is negative) -/
def infS (s : Bool) : Val := if s then .minusInf else .plusInf

/-- zero of a sign -/
def zeroS (s : Bool) : Val := if s then .minusZero else .plusZero

/-- NaN of either kind, ml_support_lib.h:198-199 `ml_is_nan` -/
def isNaN : Val → Bool
  | .qNaN => true
  | .sNaN => true
  | _ => false

/-- ml_support_lib.h:207-208 `ml_is_inf` -/
def isInf : Val → Bool
  | .plusInf => true
  | .minusInf => true
  | _ => false

/-- ml_support_lib.h:195-196 `ml_is_nan_or_inf` -/
def isInfOrNaN (a : Val) : Bool := isNaN a || isInf a

/-- ml_support_lib.h:216-217 `ml_is_zero` -/
def isZero : Val → Bool
  | .plusZero => true
  | .minusZero => true
  | .num v => decide (v = 0)
  | _ => false

/-- ml_support_lib.h:228-229 `ml_is_subnormal`: the exponent field is null, which is also true of the zeros -/
def isSubnormal (F : Fmt) : Val → Bool
  | .plusZero => true
  | .minusZero => true
  | .num v => decide (|v| < (2 : ℚ) ^ F.emin)
  | _ => false

/-- the sign bit (that of a NaN is modelled as clear) -/
def sgn (a : Val) : Bool := Special.neg a

/-- IEEE-754 rounding to nearest even of a real; `s` is the sign of an exact zero -/
noncomputable def rnd (F : Fmt) (s : Bool) (x : ℝ) : Val :=
  if x = 0 then zeroS s
  else if roundUnb F .RN x = 0 then zeroS (decide (x < 0))
  else if |roundUnb F .RN x| ≤ Float.omega F then .num (roundUnb F .RN x)
  else infS (decide (x < 0))

/-- C unary minus -/
def fneg : Val → Val
  | .plusInf => .minusInf
  | .minusInf => .plusInf
  | .plusZero => .minusZero
  | .minusZero => .plusZero
  | .num v => .num (-v)
  | a => a

/-- C `fabs` -/
def fabs (a : Val) : Val := if sgn a then fneg a else a

/-- C `a * b` -/
noncomputable def fmul (F : Fmt) (a b : Val) : Val :=
  if isNaN a || isNaN b then .qNaN
  else if isInf a || isInf b then (if isZero a || isZero b then .qNaN else infS (xor (sgn a) (sgn b)))
  else rnd F (xor (sgn a) (sgn b)) ((numOf a * numOf b : ℚ) : ℝ)

/-- C `a + b` -/
noncomputable def fadd (F : Fmt) (a b : Val) : Val :=
  if isNaN a || isNaN b then .qNaN
  else if isInf a then (if isInf b && xor (sgn a) (sgn b) then .qNaN else a)
  else if isInf b then b
  else rnd F (sgn a && sgn b) ((numOf a + numOf b : ℚ) : ℝ)

/-- C `a - b` -/
noncomputable def fsub (F : Fmt) (a b : Val) : Val := fadd F a (fneg b)

/-- C `fma(a, b, c)` -/
noncomputable def ffma (F : Fmt) (a b c : Val) : Val :=
  if isNaN a || isNaN b || isNaN c then .qNaN
  else if isInf a || isInf b then
    (if isZero a || isZero b || (isInf c && xor (sgn c) (xor (sgn a) (sgn b))) then .qNaN else infS (xor (sgn a) (sgn b)))
  else if isInf c then c
  else rnd F (xor (sgn a) (sgn b) && sgn c) ((numOf a * numOf b + numOf c : ℚ) : ℝ)

/-- C `a / b` -/
noncomputable def fdiv (F : Fmt) (a b : Val) : Val :=
  if isNaN a || isNaN b then .qNaN
  else if isInf a then (if isInf b then .qNaN else infS (xor (sgn a) (sgn b)))
  else if isInf b then zeroS (xor (sgn a) (sgn b))
  else if isZero b then (if isZero a then .qNaN else infS (xor (sgn a) (sgn b)))
  else rnd F (xor (sgn a) (sgn b)) ((numOf a / numOf b : ℚ) : ℝ)

/-- C `a < b` -/
def flt (a b : Val) : Bool := cLe a b && !cLe b a

/-- C `a > b` -/
def fgt (a b : Val) : Bool := flt b a

/-- C `a >= b` -/
def fge (a b : Val) : Bool := cLe b a

/-- C `nearbyint`/`rint` of a finite number, as an integer -/
noncomputable def nearestZ (a : Val) : ℤ := toInt .RN ((numOf a : ℚ) : ℝ)

/-- C `nearbyint`/`rint`: NaNs and infinities are returned; a zero has the sign of the operand -/
noncomputable def fnearest (a : Val) : Val :=
  if isNaN a then .qNaN
  else if isInf a then a
  else if nearestZ a = 0 then zeroS (sgn a)
  else .num (nearestZ a)

/-- ml_support_lib.h:174-175 `ml_exp_insertion`: `k` plus the bias, in the exponent field -/
def insExp (F : Fmt) (k : ℤ) : Val := F.decode (((k + F.emax) % 2 ^ F.e).toNat * 2 ^ F.f)

/-- a constant of the generated code: metalibm_core/core/ml_formats.py:487-528 `get_c_cst` rounds it to the format -/
noncomputable def cst (F : Fmt) (x : ℝ) : Val := rnd F false x

end Verif.Elem
