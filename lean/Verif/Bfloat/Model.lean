import Verif.Bfloat.Spec
import Verif.Float.Model

/-! # Model of the Brain Float format

metalibm_core/core/ml_formats.py (rounding and constants) and metalibm_core/code_generation/generic_processor.py (conversions). -/

namespace Verif.Bfloat

open Verif.Float (Fmt Val rndUnb rnd integerCoding Err)

/-- generic_processor.py:121-129 `legalize_bfloat16_to_float32`: on words, a conversion to 32 bits and a left shift by 16 -/
def widen (w : ℕ) : ℕ := w * 2 ^ 16 % 2 ^ 32

/-- generic_processor.py:131-138 `legalize_float32_to_bfloat16_trunk`: a right shift by 16 and a conversion to 16 bits -/
def truncate (c : ℕ) : ℕ := c / 2 ^ 16 % 2 ^ 16

/-- ml_formats.py:1083-1084 `bfloat16_get_cst`: the word of a constant -/
def cst (d : Val) : Except Err ℕ := (integerCoding b32 d).map fun c => c >>> 16

/-- `sollya.round(value, p, RN)` for a positive precision `p`: `p` digits and no bound on the exponent -/
def roundDigits (p : ℕ) (v : ℚ) : ℚ :=
  if v = 0 then 0
  else
    let q := Int.log 2 |v| - (p - 1)
    Verif.Float.rne (v / (2 : ℚ) ^ q) * (2 : ℚ) ^ q

/-- ml_formats.py:1069-1081 `round_to_bfloat16` (with `flush_sub_to_zero`, the only value used); `none` is an infinity -/
def roundBf16 (v : ℚ) : Option ℚ :=
  let r := roundDigits 11 v
  if |r| < (2 : ℚ) ^ b32.emin then some 0 else rnd b32 r

end Verif.Bfloat
