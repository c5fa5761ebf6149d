import Verif.Elem.Fp

/-! # Model of metalibm_functions/ml_div.py, the function `ML_Division` generates

The seed of the reciprocal (`ReciprocalSeed`, an instruction of the target or a table) and the path of the subnormal results (`subnormalize_result`,
in extended precision) are parameters.  The inputs have no interval (`out_of_bound_risk` is true).  Exceptions are not modelled. -/

namespace Verif.Elem

open Verif.Float (Fmt Val)
open Verif.Check (numOf)

/-- ml_support_lib.h:184-185 `ml_exp_extraction_dirty`: the exponent field minus the bias -/
def expExtract (F : Fmt) : Val → ℤ
  | .num v => if |v| < (2 : ℚ) ^ F.emin then F.emin - 1 else Int.log 2 |v|
  | .plusZero => F.emin - 1
  | .minusZero => F.emin - 1
  | _ => F.emax + 1

/-- generic_processor.py:516-520, `FMSN(a, b, c)` is `fma(-a, b, c)` -/
noncomputable def fmsn (F : Fmt) (a b c : Val) : Val := ffma F (fneg a) b c

/-- ml_div.py:369-377, `ex` and `ey`: the exponent, clamped -/
def clampE (F : Fmt) (k : ℤ) : ℤ := max (min k (F.emax - 1)) (-(F.emax - 1))

/-- ml_div.py:79-97 `NR_Iteration`, with `force_fma` -/
noncomputable def nrStep (F : Fmt) (y r : Val) : Val :=
  let err := fmsn F y r (.num 1)
  ffma F err r r

/-- ml_div.py:217-235 `compute_reduced_reciprocal` -/
noncomputable def recpIter (F : Fmt) (y : Val) : ℕ → Val → Val
  | 0, r => r
  | n + 1, r => recpIter F y n (nrStep F y r)

/-- ml_div.py:186-214 `dividend_mult`: the new approximation of the quotient -/
noncomputable def dividendMult (F : Fmt) (q r x y : Val) : Val := ffma F (fmsn F q y x) r q

/-- ml_div.py:238-281 `compute_reduced_division`: one correction; that of the last iteration is not in the result (line 273 takes
`last_div_iteration.div_approx`, the approximation before the correction) -/
noncomputable def reducedDiv (F : Fmt) (x y r : Val) : Val := dividendMult F (fmul F x r) r x y

/-- ml_div.py:385-409, 476-495 the quotient of the scaled operands, `reduced_div_approx` -/
noncomputable def divReduced (F : Fmt) (seed : Val → Val) (n : ℕ) (x y : Val) : Val :=
  let sx := fmul F x (insExp F (-clampE F (expExtract F x)))
  let sy := fmul F y (insExp F (-clampE F (expExtract F y)))
  reducedDiv F sx sy (recpIter F sy n (seed sy))

/-- ml_div.py:284-303 `scaling_div_result` -/
noncomputable def divUnscaled (F : Fmt) (seed : Val → Val) (n : ℕ) (x y : Val) : Val :=
  fmul F (divReduced F seed n x y)
    (fmul F (insExp F (clampE F (expExtract F x))) (insExp F (-clampE F (expExtract F y))))

/-- ml_div.py:508-586 `pre_scheme`; `sub` is the result of `subnormalize_result` -/
noncomputable def divModel (F : Fmt) (seed : Val → Val) (n : ℕ) (sub x y : Val) : Val :=
  if isInfOrNaN x then
    if isInf x then
      if isInfOrNaN y then .qNaN
      else infS (xor (sgn x) (sgn y))
    else .qNaN
  else if isZero x then
    if isZero y || isNaN y then .qNaN else x
  else if isInfOrNaN y then
    if isInf y then zeroS (xor (sgn x) (sgn y)) else .qNaN
  else if isZero y then infS (xor (sgn x) (sgn y))
  else if isSubnormal F (divUnscaled F seed n x y) then sub
  else divUnscaled F seed n x y

end Verif.Elem
