import Verif.Float.Spec

/-!
# Model of `ML_Std_FP_Format` (`metalibm_core/core/ml_formats.py`), the special-value codings
(`metalibm_core/core/special_values.py`) and `metalibm_core/utility/num_utils.py`

Sollya's exact numbers are rationals. `sollya.round(_, precision, RN)` is external to metalibm: it is modelled by `rnd`,
round to nearest, ties to even, with gradual underflow and overflow to infinity.
-/

namespace Verif.Float

/-- Failures of the coding functions. -/
inductive Err where
  | infinite   -- `int(floor(log2(inf)))` raises, reported as an error
  deriving DecidableEq, Repr

/-- Python's `int` on a non-negative rational: truncation. -/
def pyInt (q : ℚ) : ℕ := ⌊q⌋.toNat

/-- `get_bias`, `core/ml_formats.py` lines 335-336. -/
def bias (F : Fmt) : ℤ := -2 ^ (F.e - 1) + 1

/-- `get_emax`, `core/ml_formats.py` lines 338-339. -/
def emaxM (F : Fmt) : ℤ := 2 ^ F.e - 2 + bias F

/-- `get_emin_normal`, `core/ml_formats.py` lines 447-448. -/
def eminNormal (F : Fmt) : ℤ := 1 + bias F

/-- `get_emin_subnormal`, `core/ml_formats.py` lines 451-452. -/
def eminSubnormal (F : Fmt) : ℤ := 1 - F.f + bias F

/-- `get_omega` and `get_max_value`, `core/ml_formats.py` lines 422-427. -/
def omega (F : Fmt) : ℚ := (2 : ℚ) ^ emaxM F * (2 - (2 : ℚ) ^ (-(F.f : ℤ)))

/-- `get_min_normal_value`, `core/ml_formats.py` lines 429-431. -/
def minNormal (F : Fmt) : ℚ := (2 : ℚ) ^ eminNormal F

/-- `get_max_subnormal_value`, `core/ml_formats.py` lines 433-435. -/
def maxSubnormal (F : Fmt) : ℚ := (2 : ℚ) ^ eminNormal F * (1 + (2 : ℚ) ^ (-(F.f : ℤ)))

/-- `get_min_subnormal_value`, `core/ml_formats.py` lines 437-439. -/
def minSubnormal (F : Fmt) : ℚ := (2 : ℚ) ^ eminSubnormal F

/-- `get_nanorinf_exp_field`, `core/ml_formats.py` lines 443-444. -/
def nanOrInfField (F : Fmt) : ℕ := 2 ^ F.e - 1

/-- Round to nearest integer, ties to even (part of `sollya.round`). -/
def rne (q : ℚ) : ℤ :=
  let n := ⌊q⌋
  let d := q - n
  if d < 1 / 2 then n else if 1 / 2 < d then n + 1 else if n % 2 = 0 then n else n + 1

/-- Rounding with an unbounded upper exponent range (part of `sollya.round`). -/
def rndUnb (F : Fmt) (v : ℚ) : ℚ :=
  if v = 0 then 0
  else
    let q := max (Int.log 2 |v|) F.emin - F.f
    rne (v / (2 : ℚ) ^ q) * (2 : ℚ) ^ q

/-- `round_sollya_object(value, RN)`, `core/ml_formats.py` lines 326-327; `none` stands for an infinite result. -/
def rnd (F : Fmt) (v : ℚ) : Option ℚ :=
  let r := rndUnb F v
  if |r| ≤ omega F then some r else none

/-- Assembly of the three fields, `core/ml_formats.py` line 386:
`mant | (exp_biased << field_size) | (sign << (field_size + exponent_size))`. -/
def pack (F : Fmt) (sign expBiased mant : ℕ) : ℕ :=
  mant ||| (expBiased <<< F.f) ||| (sign <<< (F.f + F.e))

/-- `get_integer_coding` for a plain number, `core/ml_formats.py` lines 366-386. The biased exponent is non-negative on
that path, it is stored as a natural number. -/
def numCoding (F : Fmt) (v : ℚ) : Except Err ℕ :=
  match rnd F v with
  | none => .error .infinite
  | some r =>
    let sign := if r < 0 then 1 else 0
    let a := |r|
    if a = 0 then .ok (pack F sign 0 0)
    else
      let exp := Int.log 2 a
      if exp < eminNormal F then .ok (pack F sign 0 (pyInt (a / (2 : ℚ) ^ eminSubnormal F)))
      else .ok (pack F sign (exp - bias F).toNat (pyInt ((a / (2 : ℚ) ^ exp - 1) * (2 : ℚ) ^ F.f)))

/-- `get_integer_coding`, `core/ml_formats.py` lines 355-386, with the special-value codings of
`core/special_values.py`: `FP_PlusInfty` lines 465-467, `FP_MinusInfty` 475-480, `FP_PlusZero` 516-517, `FP_MinusZero`
538-542, `FP_QNaN` 552-561, `FP_SNaN` 576-584 (with `QUIET_BIT_SET_FOR_QNAN = True`, line 195). -/
def integerCoding (F : Fmt) : Val → Except Err ℕ
  | .plusInf => .ok (nanOrInfField F <<< F.f)
  | .minusInf => .ok (((1 <<< F.e) ||| nanOrInfField F) <<< F.f)
  | .plusZero => .ok 0
  | .minusZero => .ok (1 <<< (F.e + F.f))
  | .qNaN => .ok (((2 ^ (F.f - 1) - 1) ||| (1 <<< (F.f - 1))) ||| (((1 <<< F.e) ||| nanOrInfField F) <<< F.f))
  | .sNaN => .ok (((2 ^ (F.f - 1) - 1) ||| 0) ||| (((1 <<< F.e) ||| nanOrInfField F) <<< F.f))
  | .num v => numCoding F v

/-- `get_value_from_integer_coding`, `core/ml_formats.py` lines 388-419 (the string parsing of line 391 is not
modelled). -/
def valueFromCoding (F : Fmt) (value : ℕ) : Val :=
  let exponentField := (value >>> F.f) &&& (2 ^ F.e - 1)
  let mantissa := value &&& (2 ^ F.f - 1)
  let signBit := value >>> (F.f + F.e)
  if exponentField = nanOrInfField F then
    if mantissa = 0 ∧ signBit ≠ 0 then .minusInf
    else if mantissa = 0 ∧ signBit = 0 then .plusInf
    else if mantissa >>> (F.f - 1) ≠ 0 then .qNaN else .sNaN
  else if exponentField = 0 ∧ mantissa = 0 then
    if signBit ≠ 0 then .minusZero else .plusZero
  else
    let exponent : ℤ := exponentField + bias F + (if exponentField = 0 then 1 else 0)
    let sign : ℚ := if signBit ≠ 0 then -1 else 1
    let implicit : ℚ := if exponentField = 0 then 0 else 1
    .num (sign * (2 : ℚ) ^ exponent * (implicit + mantissa * (2 : ℚ) ^ (-(F.f : ℤ))))

/-- `saturate`, `core/ml_formats.py` lines 347-350, on a plain number. -/
def saturate (F : Fmt) (v : ℚ) : Val :=
  if omega F < |v| then (if 0 < v then .plusInf else .minusInf) else .num v

/-- `⌈log2 v⌉` for a positive rational. -/
def ceilLog2 (v : ℚ) : ℤ := Int.clog 2 v

/-- `ulp`, `utility/num_utils.py` lines 36-38; `get_precision` is the field size (`core/ml_formats.py` 539-541). -/
def ulp (F : Fmt) (v : ℚ) : ℚ := (2 : ℚ) ^ (ceilLog2 |v| - (F.f + 1))

/-- `fp_next`, `utility/num_utils.py` lines 40-42; `none` stands for an infinite result. -/
def fpNext (F : Fmt) (v : ℚ) : Option ℚ := rnd F (v + ulp F v)

/-- `fp_previous`, `utility/num_utils.py` lines 43-45. -/
def fpPrevious (F : Fmt) (v : ℚ) : Option ℚ := rnd F (v - ulp F v)

end Verif.Float
