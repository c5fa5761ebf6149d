import Mathlib.Analysis.Real.Pi.Bounds
import Verif.Elem.Fp

/-! # The generated arc tangent and two argument arc tangent: metalibm_functions/ml_atan.py

The piecewise polynomial approximation of the arc tangent on `[0, 1]` (ml_atan.py:192-221, tables computed by Sollya) is the parameter `P`. -/

namespace Verif.Atan

open Verif.Float (Fmt Val)
open Verif.Elem

/-- ml_atan.py:185 `Select(cond, -1, 1)` and ml_atan.py:187 -/
def pm (c : Bool) : Val := if c then .num (-1) else .num 1

/-- ml_atan.py:185-188,236: `cst + sign_vx * approx`, of the conditions of the selections and of the reduced argument -/
noncomputable def combine (F : Fmt) (P : Val → Val) (cond sign bound : Bool) (red : Val) : Val :=
  fadd F (fmul F (pm sign) (if bound then cst F (Real.pi / 2) else .plusZero)) (fmul F (pm cond) (P red))

/-- ml_atan.py:121 `abs_vx` -/
def absX (x : Val) : Val := if flt x .plusZero then fneg x else x

/-- ml_atan.py:122 `bound_cond` -/
def boundX (x : Val) : Bool := fgt (absX x) (.num 1)

/-- ml_atan.py:126-130 `cond` -/
def condX (x : Val) : Bool := (flt x .plusZero && !boundX x) || fgt x (.num 1)

/-- ml_atan.py:123,133 `red_vx` -/
noncomputable def redX (F : Fmt) (x : Val) : Val := if boundX x then fdiv F (.num 1) (absX x) else absX x

/-- ml_atan.py:107-288 `generic_atan2_generate`, one argument, method "piecewise": the value returned -/
noncomputable def atan (F : Fmt) (P : Val → Val) (x : Val) : Val := combine F P (condX x) (flt x .plusZero) (boundX x) (redX F x)

/-- ml_atan.py:239-275, one argument, method "single": `Q` is `exact_sum`, the polynomial minus its leading term, of `abs_vx` -/
noncomputable def atanSingle (F : Fmt) (Q : Val → Val) (x : Val) : Val := fadd F x (fmul F x (Q (absX x)))

/-- ml_atan.py:138 `bound_cond` -/
def bound2 (y x : Val) : Bool := fgt (fabs y) (fabs x)

/-- ml_atan.py:144-150 `sign_cond`: the exclusive or of the encodings is negative -/
def sign2 (y x : Val) : Bool := xor (sgn x) (sgn y)

/-- ml_atan.py:155-160 `cond` -/
def cond2 (y x : Val) : Bool := (sign2 y x && !bound2 y x) || (bound2 y x && !sign2 y x)

/-- ml_atan.py:162-166 `red_vx` -/
noncomputable def red2 (F : Fmt) (y x : Val) : Val :=
  fdiv F (fabs (if bound2 y x then x else y)) (fabs (if bound2 y x then y else x))

/-- ml_atan.py:168-179 `offset` -/
noncomputable def offset2 (F : Fmt) (y x : Val) : Val :=
  if fgt x .plusZero then .plusZero else if sign2 y x then cst F Real.pi else cst F (-Real.pi)

/-- ml_atan.py:107-288,321-331 `generic_atan2_generate(vx, vy)`, method "piecewise": `atan2(y, x)` -/
noncomputable def atan2 (F : Fmt) (P : Val → Val) (y x : Val) : Val :=
  fadd F (combine F P (cond2 y x) (sign2 y x) (bound2 y x) (red2 F y x)) (offset2 F y x)

end Verif.Atan
