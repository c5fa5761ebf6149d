import Verif.FpHw.Model

/-! # Model of the hardware fused multiply-add

metalibm_hw_blocks/ml_fp_mpfma.py, class `FP_MPFMA`: `x * y + z` with `x` and `y` in the format `F`, `z` and the result in the format
`G`.  In the code `p = q` is the precision of `F`, and `r = o` the one of `G`; `L_x`, `L_y` and `L_z` are null (166-173), `L_xy` is one. -/

namespace Verif.FpHw

open Verif.Float (Fmt)

/-- `get_bias` (core/ml_formats.py:335-336) -/
def bias (F : Fmt) : ℤ := -2 ^ (F.e - 1) + 1

/-- ml_fp_mpfma.py:205-209 `exp_precision_ext_size` and 485-489 `res_exp_tmp_size` -/
def expSize (F G : Fmt) : ℕ := max F.e G.e + 2

/-- ml_fp_mpfma.py:196 `exp_offset` (`o = r`) -/
def expOffset (G : Fmt) : ℕ := (G.f + 1) + 2

/-- ml_fp_mpfma.py:237 `datapath_full_width` -/
def width (F G : Fmt) : ℕ := expOffset G + max ((G.f + 1) + 1) ((F.f + 1) + (F.f + 1)) + 2 + (G.f + 1)

/-- ml_fp_mpfma.py:197, 216-236 `signed_exp_diff`: computed modulo a power of two, then read as a signed number -/
def expDiff (F G : Fmt) (x y z : ℕ) : ℤ :=
  let d := ((expField F y : ℤ) + expField F x + (expOffset G + (bias F + bias F) - bias G + 1) - expField G z) % 2 ^ expSize F G
  if 2 ^ (expSize F G - 1) ≤ d then d - 2 ^ expSize F G else d

/-- ml_fp_mpfma.py:238-263 `mant_shift`; the `Truncate` (257) keeps the low bits of the difference -/
def fmaShift (F G : Fmt) (x y z : ℕ) : ℕ :=
  let maxExpDiff := width F G - (G.f + 1)
  if expDiff F G x y z < 0 then 0
  else if (maxExpDiff : ℤ) < expDiff F G x y z then maxExpDiff
  else (expDiff F G x y z % 2 ^ (Nat.log 2 maxExpDiff + 1)).toNat

/-- ml_fp_mpfma.py:274-277 `shifted_mant_vz` -/
def shiftedMantVz (F G : Fmt) (x y z : ℕ) : ℕ := mant G z * 2 ^ (width F G - (G.f + 1)) / 2 ^ fmaShift F G x y z

/-- ml_fp_mpfma.py:265-272 `prod` and 287 `prod_ext`.  The vector is shorter than the sum when the precision of the accumulator exceeds
the one of the product: the VHDL addition of two unsigned vectors extends it with zeros. -/
def prodExt (F G : Fmt) (x y : ℕ) : ℕ := mant F x * mant F y * 2 ^ ((G.f + 1) + 2)

/-- ml_fp_mpfma.py:183 `sign_xy` -/
def signXY (F : Fmt) (x y : ℕ) : Bool := xor (signBit F x) (signBit F y)

/-- ml_fp_mpfma.py:184 `effective_op` -/
def effectiveOp (F G : Fmt) (x y z : ℕ) : Bool := xor (signXY F x y) (signBit G z)

/-- ml_fp_mpfma.py:308-342 `mant_add_p0`: the sum of the product and of the aligned addend, complemented when the signs differ -/
def mantAddP0 (F G : Fmt) (x y z : ℕ) : ℕ :=
  let N := width F G + 1
  let addendOp := if effectiveOp F G x y z then 2 ^ N - 1 - shiftedMantVz F G x y z else shiftedMantVz F G x y z
  (addendOp + prodExt F G x y) % 2 ^ N

/-- ml_fp_mpfma.py:325-335 `mant_add_p1`: the same sum plus one -/
def mantAddP1 (F G : Fmt) (x y z : ℕ) : ℕ := (mantAddP0 F G x y z + 1) % 2 ^ (width F G + 1)

/-- ml_fp_mpfma.py:348-354 `add_is_negative` -/
def addIsNegative (F G : Fmt) (x y z : ℕ) : Bool := decide (mantAddP1 F G x y z / 2 ^ width F G % 2 = 1) && effectiveOp F G x y z

/-- ml_fp_mpfma.py:356-368 `mant_add_abs` -/
def mantAddAbs (F G : Fmt) (x y z : ℕ) : ℕ :=
  if addIsNegative F G x y z then 2 ^ (width F G + 1) - 1 - mantAddP0 F G x y z else mantAddP1 F G x y z

/-- ml_fp_mpfma.py:495-544 `res_exp_base` (before the reduction modulo a power of two, done once in `fma`) -/
def resExpBase (F G : Fmt) (x y z : ℕ) : ℤ :=
  if expDiff F G x y z < 0 then (expField G z : ℤ) + (bias G + 1)
  else ((expField F y : ℤ) + bias F) + ((expField F x : ℤ) + bias F) + (expOffset G + 1)

/-- ml_fp_mpfma.py:103-585 `FP_MPFMA.generate_scheme`: the output `vr_out`, an encoding in the format `G`; the sign is 372, the
leading-zero count 380-400, the normalization 410, the exponent of the result 548-566 -/
def fma (F G : Fmt) (x y z : ℕ) : ℕ :=
  let N := width F G + 1
  let addLzc := lzc N (mantAddAbs F G x y z)
  let resNormedMant := mantAddAbs F G x y z * 2 ^ addLzc % 2 ^ N
  let field := roundField N (G.f + 1) resNormedMant
  let resExpExt := (resExpBase F G x y z + -bias G - addLzc + field.2) % 2 ^ expSize F G
  build G (xor (addIsNegative F G x y z) (signXY F x y)) (resExpExt % 2 ^ G.e).toNat field.1

end Verif.FpHw
