import Verif.Elem.Fp
import Mathlib.Analysis.SpecialFunctions.Log.Base

/-! # Model of metalibm_functions/ml_exp.py, the function `ML_Exponential` generates

The polynomial and its evaluation scheme are a parameter: `E hi lo` is the value of `poly` computed from the two parts of the reduced
argument (ml_exp.py:262-283).  The formats are all the binary formats.  Exception flags are not modelled. Sollya's constants are exact
reals. -/

namespace Verif.Elem

open Verif.Float (Fmt Val)
open Verif.Check (numOf cLe roundUnb toInt)

/-- ml_exp.py:145-147 `exp_overflow_bound` -/
noncomputable def expOver (F : Fmt) : ℤ := ⌈Real.log (2 * (2 : ℝ) ^ F.emax)⌉

/-- ml_exp.py:158-160 `exp_underflow_bound` -/
noncomputable def expUnder (F : Fmt) : ℤ := ⌊Real.log ((2 : ℝ) ^ (F.emin - F.f))⌋

/-- ml_exp.py:172 `invlog2` -/
noncomputable def invLog2 (F : Fmt) : ℚ := roundUnb F .RN (1 / Real.log 2)

/-- ml_exp.py:174-176, 179 `sup(abs(interval_k))`; the interval product is exact, both bounds have a known sign -/
noncomputable def kSup (F : Fmt) : ℤ := max (-⌊(expUnder F * invLog2 F : ℚ)⌋) ⌈(expOver F * invLog2 F : ℚ)⌉

/-- ml_exp.py:179 `log2_hi_precision` -/
noncomputable def log2Prec (F : Fmt) : ℤ := F.f - (⌈Real.logb 2 (kSup F)⌉ + 2)

/-- ml_exp.py:182 `log2_hi`: `log(2)` is in the binade of `1/2`, its last place with `p` bits is `2^-p` -/
noncomputable def log2Hi (F : Fmt) : ℚ := toInt .RN (Real.log 2 * (2 : ℝ) ^ log2Prec F) * (2 : ℚ) ^ (-log2Prec F)

/-- ml_exp.py:183 `log2_lo` -/
noncomputable def log2Lo (F : Fmt) : ℚ := roundUnb F .RN (Real.log 2 - log2Hi F)

/-- ml_exp.py:361 `overflow_exp_offset`: a true division, truncated by `int` -/
def overOffset (F : Fmt) : ℤ := ⌊(F.emax : ℚ) - F.f / 2⌋

/-- ml_exp.py:357-410 `result_scheme`: `ik` is the integer, `k` the same in floating-point -/
noncomputable def expResult (F : Fmt) (ik : ℤ) (k poly : Val) : Val :=
  if !(decide (F.emax < ik) || cLe k (cst F F.emin)) then fmul F (insExp F ik) poly
  else if F.emax < ik then
    let r := fmul F (fmul F (insExp F (ik - overOffset F)) poly) (insExp F (overOffset F))
    if isInf r then .plusInf else r
  else fmul F (fmul F (insExp F (ik + 2 * F.f)) poly) (insExp F (-(2 * F.f)))

/-- ml_exp.py:186-195, the standard path -/
noncomputable def expStd (F : Fmt) (E : Val → Val → Val) (vx : Val) : Val :=
  let unroundK := fmul F vx (cst F (invLog2 F))
  let k := fnearest unroundK
  let ik := nearestZ unroundK
  let hi := fsub F vx (fmul F k (cst F (log2Hi F)))
  let lo := fmul F (fneg k) (cst F (log2Lo F))
  expResult F ik k (E hi lo)

/-- ml_exp.py:108-169, 411-420 `scheme` -/
noncomputable def expModel (F : Fmt) (E : Val → Val → Val) (vx : Val) : Val :=
  if isInfOrNaN vx then
    if isNaN vx then .qNaN
    else if fge vx .plusZero then .plusInf else .plusZero
  else if fgt vx (cst F (expOver F)) then .plusInf
  else if flt vx (cst F (expUnder F)) then .plusZero
  else expStd F E vx

/-- ml_exp.py:272-283 `poly`: the polynomial of degree at least 2 `P`, evaluated at `r = hi + lo`, and the reconstruction
`1 + (hi + (lo + P(r)))` -/
noncomputable def expPoly (F : Fmt) (P : Val → Val) (hi lo : Val) : Val :=
  fadd F (.num 1) (fadd F hi (fadd F lo (P (fadd F hi lo))))

end Verif.Elem
