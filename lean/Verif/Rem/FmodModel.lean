import Verif.Rem.Model

/-! # Model of metalibm_functions/fmod.py, the function `MetaFMOD` generates -/

namespace Verif.Rem

open Verif.Float (Fmt Val)
open Verif.Elem
open Verif.Check (numOf)

/-- the integer part, towards zero -/
def truncQ (v : ℚ) : ℤ := if v < 0 then ⌈v⌉ else ⌊v⌋

/-- C `trunc`: NaNs and infinities are returned; a zero has the sign of the operand -/
def ftrunc (a : Val) : Val :=
  if isNaN a then .qNaN
  else if isInf a then a
  else if truncQ (numOf a) = 0 then zeroS (sgn a)
  else .num (truncQ (numOf a))

/-- fmod.py:77 `qi_bound`; ml_formats.py:482-483 `get_mantissa_size` -/
def qiBound (F : Fmt) : Val := .num ((2 : ℚ) ^ (F.f + 1))

/-- fmod.py:84-103 `iterative_fmod`, from the test on; `none`: the test is still true after as many steps as the first argument -/
noncomputable def fmodLoop (F : Fmt) (y : Val) : ℕ → Val → Val → Option Val
  | 0, rem, qi => if fgt (fabs qi) (qiBound F) then none else some rem
  | n + 1, rem, qi =>
    if fgt (fabs qi) (qiBound F) then
      let q' := ftrunc (fdiv F rem y)
      fmodLoop F y n (ffma F (fneg q') y rem) q'
    else some rem

/-- fmod.py:72-115 `generate_scalar_scheme`; the first argument bounds the number of steps of the loop (the generated one is not bounded) -/
noncomputable def fmod (F : Fmt) (n : ℕ) (x y : Val) : Option Val :=
  let d := ftrunc (fdiv F x y)
  match fmodLoop F y n (ffma F (fneg d) y x) d with
  | none => none
  | some rem => some (if flt (fmul F rem x) .plusZero then fadd F rem y else rem)

/-- the generated function returns `r`: the loop ends, and that is the value returned -/
def FmodReturns (F : Fmt) (x y r : Val) : Prop := ∃ n, fmod F n x y = some r

end Verif.Rem
