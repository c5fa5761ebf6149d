import Verif.Float.Spec
import Verif.HW.Lzc

/-! # Model of the hardware floating-point adder and fused multiply-add

metalibm_hw_blocks/ml_fp_adder.py and metalibm_hw_blocks/ml_fp_mpfma.py.  A signal of `n` bits is a natural number below `2 ^ n`; every
operator of the graph is one `let`.  The pipeline stages of the second operator (`start_new_stage`) delay the signals and do not change
the values: they are not modelled here (see the area HW). -/

namespace Verif.FpHw

open Verif.Float (Fmt)

/-- `RawExponentExtraction` (vhdl_backend.py, exponent field of the vector) -/
def expField (F : Fmt) (c : ℕ) : ℕ := c / 2 ^ F.f % 2 ^ F.e

/-- `ExtractSign` (vhdl_backend.py:297-300): the most significant bit of the vector -/
def signBit (F : Fmt) (c : ℕ) : Bool := decide (c / 2 ^ (F.e + F.f) % 2 = 1)

/-- `MantissaExtraction` (core/hdl_legalizer.py:61-125): the implicit digit is 0 when the exponent field is null, 1 otherwise; it is
concatenated to the significand field -/
def mant (F : Fmt) (c : ℕ) : ℕ := (if expField F c = 0 then 0 else 2 ^ F.f) + c % 2 ^ F.f

/-- `FloatBuild` (core/ml_hdl_operations.py:147-166): concatenation of sign, exponent and significand field -/
def build (F : Fmt) (s : Bool) (e m : ℕ) : ℕ := (if s then 1 else 0) * 2 ^ (F.e + F.f) + e * 2 ^ F.f + m

/-- the leading-zero count of a vector of `N` bits (component of metalibm_hw_blocks/lzc.py, model of C35) -/
def lzc (N v : ℕ) : ℕ := HW.hwLzc N (BitVec.ofNat N v)

/-- `Negation` of a vector of `N` bits (vhdl_backend.py:226-243): bitwise complement plus one -/
def neg (N v : ℕ) : ℕ := (2 ^ N - 1 - v + 1) % 2 ^ N

/-- The end of both data paths, from the normalized significand `R` of `N` bits to the significand field of the result and the bit
`rounded_overflow`, for an output precision of `o` bits (ml_fp_adder.py:248-316 with `N = 3 * p + 5` and `o = p`,
ml_fp_mpfma.py:404-482 with `N = datapath_full_width + 1`). -/
def roundField (N o R : ℕ) : ℕ × ℕ :=
  let lsb := N - o
  let preMantField := R / 2 ^ lsb % 2 ^ (o - 1)
  let roundBit := R / 2 ^ (lsb - 1) % 2
  let mantLsb := R / 2 ^ lsb % 2
  let stickyBit := if R % 2 ^ (lsb - 1) ≠ 0 then 1 else 0
  let roundIncrement := roundBit &&& (stickyBit ||| mantLsb)
  let roundedMant := (preMantField + roundIncrement) % 2 ^ o
  let roundedOverflow := roundedMant / 2 ^ (o - 1) % 2
  (if roundedOverflow = 1 then roundedMant / 2 % 2 ^ (o - 1) else roundedMant % 2 ^ (o - 1), roundedOverflow)

/-- ml_fp_adder.py:138-173 `mant_shift`: the right shift of the significand of `y`, first aligned `p + 2` bits to the left of the one of
`x`.  The difference of exponents (145-151) has a format derived from its operands and is exact. -/
def addShift (p ex ey : ℕ) : ℕ :=
  let expDiff : ℤ := ((ex : ℤ) + ((p : ℤ) + 2)) - (ey : ℤ)
  if expDiff < 0 then 0 else if 2 * (p : ℤ) + 4 < expDiff then 2 * p + 4 else expDiff.toNat

/-- ml_fp_adder.py:175-204 `mant_add`: the sum of the aligned significands on `3 * p + 5` bits, the one of `x` is negated when the signs
differ (`effective_op`, 120) -/
def mantAdd (F : Fmt) (x y : ℕ) : ℕ :=
  let p := F.f + 1
  let effectiveOp := xor (signBit F x) (signBit F y)
  let shiftedMantVy := mant F y * 2 ^ (2 * p + 4) / 2 ^ addShift p (expField F x) (expField F y)
  let mantVxExt := mant F x * 2 ^ (p + 2)
  let mantVxAddOp := if effectiveOp then neg (3 * p + 5) mantVxExt else mantVxExt
  (shiftedMantVy + mantVxAddOp) % 2 ^ (3 * p + 5)

/-- ml_fp_adder.py:84-353 `FP_Adder.generate_scheme`: the output `vr_out` for the inputs `x` and `y`, all of them encodings in the
format.  The exponent of the result (318-337) is computed modulo `2 ^ (e + 2)`, then truncated to `e` bits. -/
def fpAdd (F : Fmt) (x y : ℕ) : ℕ :=
  let p := F.f + 1
  let N := 3 * p + 5
  let addIsNegative := decide (mantAdd F x y / 2 ^ (N - 1) % 2 = 1) && xor (signBit F x) (signBit F y)
  let mantAddAbs := if addIsNegative then neg N (mantAdd F x y) else mantAdd F x y
  let resSign := xor addIsNegative (signBit F y)
  let addLzc := lzc N mantAddAbs
  let resNormedMant := mantAdd F x y * 2 ^ addLzc % 2 ^ N
  let field := roundField N p resNormedMant
  let resExpExt : ℤ := (((expField F x : ℤ) + (3 + p) - addLzc) + field.2) % 2 ^ (F.e + 2)
  build F resSign (resExpExt % 2 ^ F.e).toNat field.1

end Verif.FpHw
