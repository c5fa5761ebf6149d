import Verif.Check.Spec
import Verif.Float.Model
import Mathlib.Data.Real.Archimedean

/-! # Model of the accuracy checks of metalibm_core/core/precisions.py

The exact value of the function is what `numeric_emulate` returns: a special value or a number.  Sollya's numbers are modelled by the
reals.  `sollya.round` is external to metalibm: it is modelled as the IEEE-754 rounding with gradual underflow, a rounding direction
and infinities. -/

namespace Verif.Check

open Verif.Float (Fmt Val)

/-- Rounding directions of `sollya.round`. -/
inductive Mode
  | RN | RD | RU

/-- rounding of a real to an integer (part of `sollya.round`) -/
noncomputable def toInt : Mode → ℝ → ℤ
  | .RD, y => ⌊y⌋
  | .RU, y => ⌈y⌉
  | .RN, y => if y - ⌊y⌋ < 1 / 2 then ⌊y⌋ else if 1 / 2 < y - ⌊y⌋ then ⌊y⌋ + 1 else if ⌊y⌋ % 2 = 0 then ⌊y⌋ else ⌊y⌋ + 1

/-- the exponent of the last place around `x` (part of `sollya.round`) -/
noncomputable def lastPlace (F : Fmt) (x : ℝ) : ℤ := max (Int.log 2 |x|) F.emin - F.f

/-- rounding without a largest exponent (part of `sollya.round`) -/
noncomputable def roundUnb (F : Fmt) (m : Mode) (x : ℝ) : ℚ :=
  if x = 0 then 0 else toInt m (x / (2 : ℝ) ^ lastPlace F x) * (2 : ℚ) ^ lastPlace F x

/-- core/ml_formats.py:326-327 `round_sollya_object`; the zero has no sign (`.num 0`) -/
noncomputable def sround (F : Fmt) (m : Mode) (x : ℝ) : Val :=
  let v := roundUnb F m x
  if |v| ≤ Float.omega F then .num v
  else match m with
    | .RN => if 0 < v then .plusInf else .minusInf
    | .RD => if 0 < v then .num (Float.omega F) else .minusInf
    | .RU => if 0 < v then .plusInf else .num (-Float.omega F)

/-- core/ml_formats.py:487-528 `get_c_cst`: the constant the C table holds for a value.  A special value is itself, the number zero is
`0.0` (496-497), the infinities have their own constants (498-509) and a number is rounded to nearest (520-521).  A number that rounds
to zero is displayed as `0`, an integer constant. -/
noncomputable def cell (F : Fmt) : Val → Val
  | .num v =>
    if v = 0 then .plusZero
    else match sround F .RN v with
      | .num w => if w = 0 then .plusZero else .num w
      | s => s
  | s => s

/-- the number of a finite datum -/
def numOf : Val → ℚ
  | .num v => v
  | _ => 0

/-- the C comparison `a <= b` -/
def cLe : Val → Val → Bool
  | .qNaN, _ => false
  | .sNaN, _ => false
  | _, .qNaN => false
  | _, .sNaN => false
  | .minusInf, _ => true
  | _, .plusInf => true
  | .plusInf, _ => false
  | _, .minusInf => false
  | a, b => decide (numOf a ≤ numOf b)

/-- the C comparison `a == b` -/
def cEq (a b : Val) : Bool := cLe a b && cLe b a

/-- the C comparison `a != b`, true on NaNs -/
def cNe (a b : Val) : Bool := !cEq a b

/-- precisions.py:115-137 `ML_TwoFactorPrecision.get_output_check_test` -/
def twoFail (r lo hi : Val) : Bool := !((cLe lo r && cLe r hi) || ((cNe lo lo || cNe hi hi) && cNe r r))

/-- precisions.py:206-263 `ML_CorrectlyRounded.get_output_check_test` for a scalar floating-point format.  The integer comparison of the
two bit patterns is that of the data: only zeros reach it. -/
def crFail (r e : Val) : Bool :=
  let nanExpected := cNe e e
  let nanDetected := cNe r r
  let zeroExpected := cEq e .plusZero
  let bitExact := decide (r = e)
  ((!nanExpected && cNe r e) || (nanExpected && !nanDetected)) || (zeroExpected && !bitExact)

/-- What `numeric_emulate` returns. -/
inductive Exact
  | special (s : Val)
  | real (x : ℝ)

/-- The accuracy goals: `ML_CorrectlyRounded`, `ML_Faithful`, `ML_DegradedAccuracyAbsolute`, `ML_DegradedAccuracyRelative`. -/
inductive Goal
  | correctlyRounded
  | faithful
  | absolute (g : ℚ)
  | relative (g : ℚ)

/-- precisions.py:340-341, 352-353 `get_value_error_goal` -/
def tolerance : Goal → ℚ → ℚ
  | .absolute g, _ => |g|
  | .relative g, c => |g * c|
  | _, _ => 0

/-- precisions.py:179-184, 103-110, 298-305, 315-328 `get_output_check_value`: the two bounds (twice the same value for
`ML_CorrectlyRounded`, which has only one) -/
noncomputable def checkValues (F : Fmt) : Goal → Exact → Val × Val
  | _, .special s => (s, s)
  | .correctlyRounded, .real x => (sround F .RN x, sround F .RN x)
  | .faithful, .real x => (sround F .RD x, sround F .RU x)
  | g, .real x =>
    match sround F .RN x with
    | .num c => (Float.saturate F (c - tolerance g c), Float.saturate F (c + tolerance g c))
    | s => (s, s)

/-- core/ml_function.py:1364-1367, 1526-1528: the check of the result `r` against the values stored in the table -/
noncomputable def accepts (F : Fmt) (g : Goal) (x : Exact) (r : Val) : Bool :=
  let v := checkValues F g x
  match g with
  | .correctlyRounded => !crFail r (cell F v.1)
  | _ => !twoFail r (cell F v.1) (cell F v.2)

end Verif.Check
