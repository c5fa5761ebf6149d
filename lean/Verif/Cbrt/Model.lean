import Mathlib.Analysis.SpecialFunctions.Pow.Real
import Verif.Elem.DivModel

/-! # Model of metalibm_functions/ml_cbrt.py, the cube root `ML_Cbrt` generates

The last lines of the scheme (ml_cbrt.py:186-189, in double-double precision) are not in the result. Sollya's table entries are the correctly rounded cube
roots. -/

namespace Verif.Cbrt

open Verif.Float (Fmt Val)
open Verif.Check (roundUnb)
open Verif.Elem

/-- ml_cbrt.py:142-145 `table_index`: the 6 upper bits of the mantissa field (`get_precision` is the size of the field, ml_formats.py:539-541). The field of a
NaN, which is not in the model of the data, is taken null. -/
def index (F : Fmt) : Val → ℤ
  | .num v => if |v| < (2 : ℚ) ^ F.emin then ⌊|v| / (2 : ℚ) ^ F.emin * 64⌋ else ⌊(|v| / (2 : ℚ) ^ Int.log 2 |v| - 1) * 64⌋
  | _ => 0

/-- ml_cbrt.py:127-132 `cbrt_approx_table` -/
noncomputable def approxTable (F : Fmt) (i : ℤ) : Val := cst F ((1 + (i : ℝ) / 64) ^ (1 / 3 : ℝ))

/-- ml_cbrt.py:136-139 `cbrt_mod_table` -/
noncomputable def modTable (F : Fmt) (i : ℤ) : Val := cst F (((2 : ℝ) ^ (i - 3)) ^ (1 / 3 : ℝ))

/-- ml_cbrt.py:149-174 `init_approx`; `Division` and `Modulo` are the C operators, which truncate -/
noncomputable def init (F : Fmt) (x : Val) : Val :=
  fmul F (fmul F (approxTable F (index F x)) (modTable F ((expExtract F x).tmod 3 + 3))) (insExp F ((expExtract F x).tdiv 3))

/-- ml_cbrt.py:112 `Constant(1/3.0, …)`: a Python float, rounded to the format -/
noncomputable def third (F : Fmt) : Val := cst F ((roundUnb ⟨11, 52⟩ .RN (1 / 3 : ℝ) : ℚ) : ℝ)

/-- ml_cbrt.py:101-119 `cbrt_newton_iteration` -/
noncomputable def newton (F : Fmt) (inv a : Val) : Val :=
  ffma F (fmul F a (third F)) (fmsn F (fmul F a (fmul F a a)) inv (.num 1)) a

/-- ml_cbrt.py:178,182-184: the inverse and the iterations -/
noncomputable def result (F : Fmt) (x : Val) : Val := (newton F (fdiv F (.num 1) x))^[8] (init F x)

/-- ml_cbrt.py:84-199 `generate_scheme` -/
noncomputable def cbrt (F : Fmt) (x : Val) : Val := if isZero x then .plusZero else result F x

end Verif.Cbrt
