import Verif.Elem.DivModel

/-! # Model of metalibm_functions/ml_sqrt.py and ml_isqrt.py, the functions `MetalibmSqrt` and `ML_Isqrt` generate

The seed (`ReciprocalSquareRootSeed`, an instruction of the target or a table) is a parameter.  The global rounding mode of the last operation is
rounding to nearest.  Exceptions are not modelled. -/

namespace Verif.Elem

open Verif.Float (Fmt Val)
open Verif.Check (cLe cEq)

/-- ml_sqrt.py:66-76 `NR_Iteration`, ml_isqrt.py:49-69 `generate_NR_iteration_recp_sqrt` -/
noncomputable def nrSqrt (F : Fmt) (h a : Val) : Val :=
  let square := fmul F a a
  let mult := fmsn F h square (.num (1 / 2))
  ffma F a mult a

/-- ml_sqrt.py:102-105, ml_isqrt.py:79-82, the loop -/
noncomputable def rsqrtIter (F : Fmt) (h : Val) : ℕ → Val → Val
  | 0, a => a
  | n + 1, a => rsqrtIter F h n (nrSqrt F h a)

/-- ml_sqrt.py:110-147 the correction of `compute_sqrt`; `a` is `final_approx` -/
noncomputable def sqrtCorrect (F : Fmt) (x h a : Val) : Val :=
  let S := fmul F x a
  let t5 := fmul F a h
  let H := fmul F (.num (1 / 2)) a
  let d := fmsn F S S x
  let t6 := fmsn F t5 a (.num (1 / 2))
  let S1 := ffma F d H S
  let H1 := ffma F t6 H H
  let d1 := fmsn F S1 S1 x
  let pR := ffma F d1 H1 S1
  let dLast := fmsn F pR pR x
  ffma F dLast H1 pR

/-- ml_sqrt.py:93-150 `compute_sqrt` -/
noncomputable def sqrtStd (F : Fmt) (seed : Val → Val) (n : ℕ) (x : Val) : Val :=
  let h := fmul F (.num (1 / 2)) x
  sqrtCorrect F x h (rsqrtIter F h n (seed x))

/-- ml_sqrt.py:177-250 `generate_scalar_scheme` -/
noncomputable def sqrtModel (F : Fmt) (seed : Val → Val) (n : ℕ) (x : Val) : Val :=
  if !(isInfOrNaN x || (flt x .plusZero || cEq x .plusZero)) then sqrtStd F seed n x
  else if isNaN x || flt x .plusZero then .qNaN
  else if isInf x then .plusInf
  else if cEq x .plusZero then .plusZero
  else .minusZero

/-- ml_isqrt.py:72-88 `compute_isqrt`, 115-170 `generate_scheme` -/
noncomputable def rsqrtModel (F : Fmt) (seed : Val → Val) (n : ℕ) (x : Val) : Val :=
  if !(isInfOrNaN x || cLe x .plusZero) then rsqrtIter F (fmul F (.num (1 / 2)) x) n (seed x)
  else if isNaN x || flt x .plusZero then .qNaN
  else if isInf x then .plusZero
  else if cEq x .plusZero then .plusInf
  else .minusInf

end Verif.Elem
