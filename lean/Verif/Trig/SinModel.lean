import Verif.Trig.Model
import Mathlib.Analysis.Real.Pi.Bounds

/-! # Model of the argument reduction of metalibm_functions/ml_sincos.py, for binary64

`frac_pi_index` is 14 (line 120).  The fusion of multiplications and additions is off by default (metalibm_core/utility/ml_template.py:499). -/

namespace Verif.Trig

open Verif.Float (Fmt Val)
open Verif.Elem
open Verif.Check (numOf roundUnb)

/-- ml_sincos.py:104 `cw_hi_precision`: 48 bits; the exponent is not bounded -/
def f48 : Fmt := ⟨11, 47⟩

/-- ml_sincos.py:127 `frac_pi_hi` -/
noncomputable def fracHi : ℚ := roundUnb f48 .RN (2 ^ 14 / Real.pi)

/-- ml_sincos.py:128 `frac_pi_lo` -/
noncomputable def fracLo : ℚ := roundUnb b64 .RN (2 ^ 14 / Real.pi - fracHi)

/-- ml_sincos.py:130 `inv_frac_pi_hi` -/
noncomputable def invHi : ℚ := roundUnb f48 .RN (Real.pi / 2 ^ 14)

/-- ml_sincos.py:132 `inv_frac_pi_lo` -/
noncomputable def invLo : ℚ := roundUnb b64 .RN (Real.pi / 2 ^ 14 - invHi)

/-- ml_sincos.py:136-147 `vx_pi` -/
noncomputable def vxPi (x : Val) : Val := fadd b64 (fmul b64 x (cst b64 (fracHi : ℝ))) (fmul b64 x (cst b64 (fracLo : ℝ)))

/-- ml_sincos.py:149 `k` -/
noncomputable def kStd (x : Val) : Option ℤ := nearInt (vxPi x)

/-- ml_sincos.py:157 `red_coeff1` -/
noncomputable def redCoeff1 (k : ℤ) : Val := fmul b64 (ofInt k) (cst b64 (invHi : ℝ))

/-- ml_sincos.py:158 `red_coeff2` -/
noncomputable def redCoeff2 (k : ℤ) : Val := fmul b64 (fneg (ofInt k)) (cst b64 (invLo : ℝ))

/-- ml_sincos.py:151-168 `red_vx_std`, from `k` -/
noncomputable def redStd (x : Val) (k : ℤ) : Val :=
  let preSub := fsub b64 x (redCoeff1 k)
  let s := fadd b64 preSub (redCoeff2 k)
  let z := fsub b64 s preSub
  let t := fsub b64 (redCoeff2 k) z
  fadd b64 s t

/-- ml_sincos.py:173-189,305-316 `offset_k` or `lar_offset_k`, and `modk_std` or `lar_modk`: the sine adds `C_offset`, and the 15 low bits
are kept -/
def modk (sin : Bool) (k : ℤ) : ℤ := (if sin then k + 3 * 2 ^ 13 else k) % 2 ^ 15

/-- ml_sincos.py:116-189,280-345 `modk` and `red_vx`, for a finite argument and the constant of line 282; `none` when an integer does not fit its format or
a table is read out of its bounds -/
noncomputable def sincosArg (c : ℚ) (sin : Bool) (x : Val) : Option (ℤ × Val) :=
  if fge x (.num (2 ^ 33)) then
    (reduce c 100 14 x).bind fun (acc, r) =>
      some (modk sin (if r < 0 then 2 ^ 15 + r else r), fadd b64 (fmul b64 acc (cst b64 (invHi : ℝ))) (fmul b64 acc (cst b64 (invLo : ℝ))))
  else (kStd x).bind fun k => some (modk sin k, redStd x k)

end Verif.Trig
