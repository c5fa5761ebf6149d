import Verif.Log.Spec
import Verif.Blocks.Model
import Verif.Blocks.Exist
import Verif.Elem.Fp
import Mathlib.Analysis.SpecialFunctions.Pow.Real

/-! # Model of metalibm_functions/generic_log.py, the function `ML_GenericLog` generates for the natural logarithm

The target is the generic processor, whose reciprocal seed is a table of 128 entries.  The arithmetic of the standard path is that of a
format of `p` digits without exponent bounds, `rnd` any rounding to nearest; the polynomial, found by Sollya, is a parameter `P` (the value
computed by the Horner scheme).  The other bases (a final `Mul222`) are not modelled. Of the exception flags only those raised explicitly are modelled. -/

namespace Verif.Log

open Verif.Float (Fmt Val)
open Verif.Blocks (mul211 add212 add222 roundNearest)

/-- Sollya's `round(x, d, RN)` for a real `x` (a tie goes up) -/
noncomputable def rnReal (d : ℕ) (x : ℝ) : ℚ :=
  (round (x / (2 : ℝ) ^ (Int.log 2 |x| - d + 1)) : ℤ) * (2 : ℚ) ^ (Int.log 2 |x| - d + 1)

/-- metalibm_core/core/generic_approximation.py:8-16 `generic_inv_approx_table`: entry `i` is `1/(1 + i/128)` rounded to 9 digits (for
`i ≥ 1` the value is in `[1/2, 1)` and the last place is `2^-9`; there is no tie) -/
def seedTab (i : ℕ) : ℚ := if i = 0 then 1 else ((131072 + (128 + i)) / (2 * (128 + i)) : ℕ) / 512

/-- metalibm_core/core/ml_table.py:245-263 `generic_mantissa_msb_index_fct` with 7 bits: the upper bits of the significand field, here of
`m` in `[1, 2)` -/
def index (m : ℚ) : ℕ := ⌊(m - 1) * 128⌋₊

/-- metalibm_core/core/legalizer.py:743-788 `legalize_reciprocal_seed`, positive operand: the operand is converted to the format of the
table, binary32 (the identity for an operand of 24 digits), whose exponent and index are used -/
def seed (m : ℚ) : ℚ :=
  let c := roundNearest 24 ⊥ m
  let e := Int.log 2 c
  seedTab (index (c * 2 ^ (-e))) * 2 ^ (-e)

/-- generic_log.py:142-157: `TypeCast(seed) & -2`: clears the last bit of the encoding, that of weight `2^(e-p+1)` -/
def clearLow (p : ℕ) (t : ℚ) : ℚ :=
  let w : ℚ := 2 ^ (Int.log 2 t - p + 1)
  (2 * (⌊t / w⌋ / 2) : ℤ) * w

/-- generic_log.py:159-163 `arg_red_index` -/
def argRed (p : ℕ) (m : ℚ) : ℚ := if index m = 0 then 1 else clearLow p (seed m)

/-- generic_log.py:241-272 `generate_log_table`: entry `i` of `log_table` (`tho = false`) and `log_table_tho`; `h` is `hi_size` -/
noncomputable def logTab (p h : ℕ) (tho : Bool) (i : ℕ) : ℚ × ℚ :=
  if i = 0 then (0, 0)
  else
    let v := Real.log ((if tho then 2 else 1) * seedTab i)
    let hi := rnReal h v
    (hi, rnReal p (v - hi))

/-- generic_log.py:209-230, from the reduced argument and the value of the polynomial: `k` is `corr_exp`, `lh`, `ll` the two parts of
`log(2)`, `th`, `tl` those of the table -/
def combine (rnd : ℚ → ℚ) (k : ℤ) (lh ll red P th tl : ℚ) : ℚ :=
  let m := mul211 rnd red P
  let m0 := add212 rnd red m.1 m.2
  let r := add222 rnd (rnd (k * lh)) (rnd (k * ll)) m0.1 m0.2
  (add222 rnd (-th) (-tl) r.1 r.2).1

/-- generic_log.py:113-238 `generate_reduced_log_split` -/
noncomputable def split (p h : ℕ) (rnd P : ℚ → ℚ) (m : ℚ) (k : ℤ) (tho : Bool) : ℚ :=
  let lh := rnReal h (Real.log 2)
  let ll := rnReal p (Real.log 2 - lh)
  let red := rnd (argRed p m * m - 1)
  let t := logTab p h tho (index m)
  combine rnd k lh ll red (P red) t.1 t.2

/-- generic_log.py:90-111 `generate_reduced_log`; the sum `exponent + correction + tho` of small integers is exact -/
noncomputable def reduced (p h : ℕ) (rnd P : ℚ → ℚ) (x : ℚ) (corr : ℤ) : ℚ :=
  let e := Int.log 2 x
  let m := x * 2 ^ (-e)
  let tho := decide (rnReal p (Real.sqrt 2) < m)
  split p h rnd P m (e + corr + (if tho then 1 else 0)) tho

/-- a number as a datum (the sign of a null result is not modelled) -/
def toVal (v : ℚ) : Val := if v = 0 then .plusZero else .num v

/-- generic_log.py:124, 257 `field_size - (exponent_size + 1)` -/
def hiSize (F : Fmt) : ℕ := F.f - (F.e + 1)

/-- generic_log.py:361-398 `pre_scheme` -/
noncomputable def genLog (F : Fmt) (rnd P : ℚ → ℚ) (vx : Val) : Val × List Flag :=
  if Elem.flt vx .plusZero then (.qNaN, [.invalid])
  else if Elem.isInfOrNaN vx then
    if Elem.isInf vx then (.plusInf, [])
    else (.qNaN, if vx = .sNaN then [.invalid] else [])
  else if Elem.isSubnormal F vx then
    if Elem.isZero vx then (.minusInf, [.divByZero])
    else (toVal (reduced (F.f + 1) (hiSize F) rnd P (rnd (Check.numOf vx * 2 ^ 100)) (-100)), [])
  else (toVal (reduced (F.f + 1) (hiSize F) rnd P (Check.numOf vx) 0), [])

end Verif.Log
