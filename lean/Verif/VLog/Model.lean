import Verif.VLog.Spec
import Verif.Float.Model

/-! # Model of `metalibm_functions/ml_vectorizable_log.py`

Bit patterns of non-negative numbers are natural numbers (the sign bit is clear), so shifts and masks are those of the naturals; signed
integers are integers. Not modelled: the polynomial and the double-word sums (C63, C64 for the blocks), and arguments with the sign bit set. -/

namespace Verif.VLog

open Verif.Float (Fmt bias)
open Verif.Legal (value)

/-- the pattern of `fp_one`, `ml_vectorizable_log.py` lines 211-213 -/
def one (F : Fmt) : ℕ := (2 ^ (F.e - 1) - 1) * 2 ^ F.f

/-- the comparison behind `is_subnormal`, `ml_vectorizable_log.py` lines 204-210, 276-277: signed, on the pattern minus one -/
def isSubnormal (F : Fmt) (x : ℕ) : Bool := decide ((x : ℤ) - 1 < (2 ^ F.f - 1 : ℤ))

/-- `DirtyExponentExtraction`, `ml_vectorizable_log.py` lines 67-83 -/
def dirtyExponent (F : Fmt) (c : ℕ) : ℤ := ((c >>> F.f : ℕ) : ℤ)

/-- `n_value`, `ml_vectorizable_log.py` lines 292-316: `Zi`, `Zf` (`sub` is the machine's subtraction of one), exponent, and the mask
`is_subnormal` (all ones or zero, lines 278-285) -/
def nValue (F : Fmt) (sub : ℕ → ℕ) (x : ℕ) : ℤ :=
  let zi := x ||| one F
  let zf := sub zi
  if isSubnormal F x then dirtyExponent F zf + bias F else 0

/-- `alpha`, `ml_vectorizable_log.py` line 317 -/
def alpha (F : Fmt) (sub : ℕ → ℕ) (x : ℕ) : ℤ := - nValue F sub x

/-- `normal_vx_as_int`, `ml_vectorizable_log.py` line 321 -/
def normalInt (F : Fmt) (sub : ℕ → ℕ) (x : ℕ) : ℕ := x <<< (alpha F sub x).toNat

/-- `vx_mantissa`, `ml_vectorizable_log.py` line 347: `MantissaExtraction` of a normal number -/
def mantissa (F : Fmt) (c : ℕ) : ℚ := 1 + (c % 2 ^ F.f : ℕ) / 2 ^ F.f

/-- `ri_fast_rndn`, `ml_vectorizable_log.py` lines 216-223, 378-391: half a unit of the table is added to the pattern of the reciprocal and
the bits under the table's precision are cleared (`~((half << 1) - 1)`) -/
def riFast (F : Fmt) (t : ℕ) (rcp : ℕ) : ℕ :=
  let half := 1 <<< (F.f - t - 1)
  ((rcp + half) >>> (F.f - t)) <<< (F.f - t)

/-- `table_index`, `ml_vectorizable_log.py` lines 419-447: fraction bits and the last bit of the exponent -/
def tableIndex (F : Fmt) (t : ℕ) (ri : ℕ) : ℕ := (ri >>> (F.f - t)) &&& ((1 <<< (t + 1)) - 1)

/-- `tmp`, `ml_vectorizable_log.py` lines 162-165, 449-459: the comparison with `tau_index_limit`, in the encoding of the backend -/
def tmp (vector : Bool) (limit idx : ℕ) : ℤ :=
  if vector then (if limit < idx then -1 else 0) else (if idx ≤ limit then 1 else 0)

/-- `tau`, `ml_vectorizable_log.py` lines 461-462; `int32`: the integer format of the precision is `ML_Int32` (binary32) -/
def tau (vector int32 : Bool) (limit idx : ℕ) : ℤ :=
  let preTau := if vector then tmp vector limit idx + 1 else tmp vector limit idx
  if int32 then preTau else tmp vector limit idx

/-- `table_index_hi`, `ml_vectorizable_log.py` lines 465-476 -/
def indexHi (t idx : ℕ) : ℕ := (idx &&& ((1 <<< t) - 1)) <<< 1

/-- `table_index_lo`, `ml_vectorizable_log.py` lines 478-483 -/
def indexLo (t idx : ℕ) : ℕ := indexHi t idx + 1

/-- `init_logtbl`, `ml_vectorizable_log.py` line 248: high and low words in turn; `none` after the end -/
def logTable (t : ℕ) (hi lo : ℕ → ℝ) (k : ℕ) : Option ℝ :=
  if k < 2 * 2 ^ t then some (if k % 2 = 0 then hi (k / 2) else lo (k / 2)) else none

/-- `sollya_logtbl`, `ml_vectorizable_log.py` lines 227-234: entry `i` for the radix `β` -/
noncomputable def logEntry (t limit : ℕ) (β : ℝ) (i : ℕ) : ℝ :=
  (-Real.log (1 + (i : ℝ) / 2 ^ t) + (if i ≤ limit then 0 else Real.log 2)) / Real.log β

/-- `exponent`, `ml_vectorizable_log.py` lines 489-505: `e + tau - alpha` -/
def exponent (F : Fmt) (sub : ℕ → ℕ) (x : ℕ) (tau : ℤ) : ℤ :=
  ((normalInt F sub x >>> F.f : ℕ) : ℤ) + bias F + tau - alpha F sub x

/-- `u`, `ml_vectorizable_log.py` lines 392-417, as an exact number: the three ways to compute it differ by their rounding only -/
def redArg (F : Fmt) (m : ℚ) (ri : ℕ) : ℚ := m * value F ri - 1

/-- `arg_red_mag`, `ml_vectorizable_log.py` line 542: the half width of the interval of the polynomial -/
def argRedMag (t : ℕ) (b : ℚ) : ℚ := b + 1 / 2 ^ (t + 1) + b * (1 / 2 ^ (t + 1))

/-- the sum returned, `ml_vectorizable_log.py` lines 608-622, before any rounding: exponent, `log1p` of the reduced argument and table -/
noncomputable def logSum (F : Fmt) (t limit : ℕ) (β : ℝ) (vector int32 : Bool) (sub : ℕ → ℕ) (x rcp : ℕ) : ℝ :=
  let ri := riFast F t rcp
  let idx := tableIndex F t ri
  let e := exponent F sub x (tau vector int32 limit idx)
  let u := redArg F (mantissa F (normalInt F sub x)) ri
  (e : ℝ) * (Real.log 2 / Real.log β) + Real.log (1 + u) / Real.log β + logEntry t limit β (idx &&& ((1 <<< t) - 1))

end Verif.VLog
