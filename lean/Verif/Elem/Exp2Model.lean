import Verif.Elem.Fp
import Mathlib.Analysis.SpecialFunctions.Pow.Real

/-! # Model of metalibm_functions/ml_exp2.py, the function `ML_Exp2` generates

The polynomial and its Horner scheme are a parameter: `P r` is the value of `poly` at the reduced argument `r` (ml_exp2.py:112-123).  The C
conversion of a NaN, of an infinity or of a number out of range to an integer is undefined: it is a parameter `cv`.  A read out of the bounds of the
table is `none`.  The formats are all the binary formats. Both variants of the scheme (selects and branches, ml_exp2.py:161-201) return the same
value, the operands the selection drops are not evaluated in the model. -/

namespace Verif.Elem

open Verif.Float (Fmt Val)
open Verif.Check (numOf)

/-- C `floor` (ml_exp2.py:101): NaNs and infinities are returned; a zero has the sign of the operand -/
def ffloor (a : Val) : Val :=
  if isNaN a then .qNaN
  else if isInf a then a
  else if ⌊numOf a⌋ = 0 then zeroS (sgn a)
  else .num ⌊numOf a⌋

/-- C conversion to the integer format of the same size (ml_exp2.py:96, 102, 110): truncation, undefined out of range -/
def convC (F : Fmt) (cv : Val → ℤ) (a : Val) : ℤ :=
  if isInfOrNaN a then cv a
  else
    let t := if 0 ≤ numOf a then ⌊numOf a⌋ else ⌈numOf a⌉
    if -2 ^ (F.e + F.f) ≤ t ∧ t < 2 ^ (F.e + F.f) then t else cv a

/-- ml_exp2.py:125-129 `hi_part_table`, of dimension `2^3 + 1`; ml_exp2.py:132 the load of an entry -/
noncomputable def exp2Tab (F : Fmt) (i : ℤ) : Option Val :=
  if 0 ≤ i ∧ i ≤ 8 then some (cst F ((2 : ℝ) ^ ((i : ℝ) / 8))) else none

/-- ml_exp2.py:108-113 `r_hi_int`, clamped between `0` and `2^3 + 1` -/
def exp2Idx (F : Fmt) (cv : Val → ℤ) (rHi : Val) : ℤ := max (min (convC F cv rHi) 9) 0

/-- ml_exp2.py:99-123 and the sum of the reconstruction ml_exp2.py:154, 159: `scale n h` is the entry of the table scaled by `2^n` -/
noncomputable def exp2Core (F : Fmt) (P : Val → Val) (cv : Val → ℤ) (scale : ℤ → Val → Val) (vx : Val) : Option Val :=
  let vxFloor := ffloor vx
  let vxR := fsub F vx vxFloor
  let rHi := fnearest (fmul F vxR (.num 8))
  let rLo := fsub F vxR (fmul F rHi (.num (1 / 8)))
  (exp2Tab F (exp2Idx F cv rHi)).map fun hi =>
    fadd F (fmul F (scale (convC F cv vxFloor) hi) (P rLo)) (scale (convC F cv vxFloor) hi)

/-- ml_exp2.py:116, 159 `hi_part_value * exp_X` -/
noncomputable def scaleStd (F : Fmt) (n : ℤ) (hi : Val) : Val := fmul F hi (insExp F n)

/-- ml_exp2.py:149-154 `hi_part_value * exp_offset * exp_min` -/
noncomputable def scaleSub (F : Fmt) (n : ℤ) (hi : Val) : Val := fmul F (fmul F hi (insExp F (-(F.emin - n)))) (insExp F F.emin)

/-- ml_exp2.py:78-201 `generate_scalar_scheme` -/
noncomputable def exp2Model (F : Fmt) (P : Val → Val) (cv : Val → ℤ) (vx : Val) : Option Val :=
  if fge vx (cst F ((F.emax : ℝ) + 1)) || flt vx (cst F F.emin) then
    if fge vx (cst F ((F.emax : ℝ) + 1)) then some .plusInf
    else if fgt vx (cst F ((F.emin : ℝ) - F.f)) then exp2Core F P cv (scaleSub F) vx
    else some .plusZero
  else exp2Core F P cv (scaleStd F) vx

end Verif.Elem
