import Verif.Elem.PowModel

/-! # Model of metalibm_functions/rootn.py, the function `MetaRootN` generates

The logarithm of the mantissa (rootn.py:113-116, generic_log.py:113-238 in base 2) is a parameter `L`; the polynomial of `exp2` is a parameter `P`;
the value of the undefined conversions is a parameter `cv`; the mantissa field of a NaN is a parameter `nm`.  Exception flags are not modelled.  The
order `n` is any integer: the integers of the format are among them. -/

namespace Verif.Rootn

open Verif.Float (Fmt Val)
open Verif.Elem
open Verif.Check (numOf cEq)

/-- rootn.py:104-107 `corrected_vx`: the subnormal numbers (and the zeros) are scaled by `2^p`, `p` the size of the mantissa -/
noncomputable def corrected (F : Fmt) (vx : Val) : Val :=
  if isSubnormal F vx then fmul F vx (cst F ((2 : ℝ) ^ (F.f + 1))) else vx

/-- rootn.py:110-111 `corrected_e` -/
noncomputable def correctedE (F : Fmt) (vx : Val) : ℤ := if isSubnormal F vx then expoOf F (corrected F vx) - (F.f + 1) else expoOf F (corrected F vx)

/-- rootn.py:127-138 `e_n_frac` (`use_reciprocal` is the constant false, rootn.py:99), with `e_n` and `e_n_int` -/
noncomputable def fracOf (F : Fmt) (nF eF : Val) : Val :=
  let eN := fdiv F eF nF
  fadd F (fsub F eN (fnearest eN)) (fmul F (ffma F eN (fneg nF) eF) (fdiv F (.num 1) nF))

/-- rootn.py:116-153, 220 the default path.  A `none` of `exp2` is a read out of the bounds of its table. -/
noncomputable def rootNum (F : Fmt) (L P : Val → Val) (cv : Val → ℤ) (nm : Val) (n : ℤ) (vx : Val) : Option Val :=
  let nF := cst F (n : ℝ)
  let r := fdiv F (logApprox F L nm (corrected F vx)) nF
  let eF := cst F (correctedE F vx : ℝ)
  let eI := fnearest (fdiv F eF nF)
  let sign : Val := if n % 2 ≠ 0 && sgn (corrected F vx) then .num (-1) else .num 1
  (exp2Model F P cv r).bind fun e0 =>
  (exp2Model F P cv (fracOf F nF eF)).map fun e1 =>
    fmul F (fmul F (fmul F sign e0) (insExp F (convC F cv eI))) e1

/-- rootn.py:155-222 the special cases, in the order of the code -/
noncomputable def rootn (F : Fmt) (L P : Val → Val) (cv : Val → ℤ) (nm : Val) (n : ℤ) (vx : Val) : Option Val :=
  if (isNaN (corrected F vx) || n = 0) || (n % 2 = 0 && flt (corrected F vx) .plusZero) then some .qNaN
  else if n = -1 then some (fdiv F (.num 1) vx)
  else if isInf (corrected F vx) then
    (if n < 0 then (if corrected F vx = .plusInf then some .plusZero else some .minusZero) else some (corrected F vx))
  else if (n % 2 ≠ 0 && n < 0) && cEq (corrected F vx) .plusZero then (if corrected F vx = .plusZero then some .plusInf else some .minusInf)
  else if (n % 2 = 0 && n < 0) && cEq (corrected F vx) .plusZero then some .plusInf
  else if n % 2 = 0 && cEq (corrected F vx) .plusZero then some (corrected F vx)
  else if n = 1 then some vx
  else rootNum F L P cv nm n vx

end Verif.Rootn
