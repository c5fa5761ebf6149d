import Verif.FpHw.Model
import Mathlib.Data.Nat.Log
import Mathlib.Data.Int.Notation

/-! # Model of the fused multiply-add with a long fixed-point accumulator

metalibm_hw_blocks/ml_fixed_mpfma.py, both encodings of the accumulator.  A signal of `n` bits is a natural number below `2 ^ n`.  The
pipeline stages delay the signals and do not change the values: they are not modelled here (see the area HW). -/

namespace Verif.Kulisch

open Verif.Float (Fmt)
open Verif.FpHw (expField signBit mant neg)

/-- core/ml_formats.py:335-336 `get_bias` -/
def bias (F : Fmt) : ℤ := -2 ^ (F.e - 1) + 1

/-- core/ml_formats.py:338-339 `get_emax` -/
def emax (F : Fmt) : ℤ := 2 ^ F.e - 2 + bias F

/-- core/ml_formats.py:451-452 `get_emin_subnormal` -/
def eminSubnormal (F : Fmt) : ℤ := 1 - F.f + bias F

/-- ml_fixed_mpfma.py:160-167 `acc_msb_index`, for `d` extra digits -/
def accMsb (F : Fmt) (d : ℕ) : ℤ := emax F * 2 + 1 + d

/-- ml_fixed_mpfma.py:116-117, 162-168 `acc_lsb_index` -/
def accLsb (F : Fmt) : ℤ := eminSubnormal F * 2

/-- ml_fixed_mpfma.py:170 `acc_width` -/
def accWidth (F : Fmt) (d : ℕ) : ℕ := (accMsb F d - accLsb F + 1).toNat

/-- ml_fixed_mpfma.py:234-245 `exp_precision_ext_size`; `ceil (log2 n)` is `Nat.clog 2 n` -/
def expSize (F : Fmt) (d : ℕ) : ℕ :=
  max F.e (max (Nat.clog 2 (accMsb F d).natAbs) (max (Nat.clog 2 (accLsb F).natAbs) (Nat.clog 2 (bias F + bias F + 1).natAbs))) + 2

/-- ml_fixed_mpfma.py:253-282 `signed_exp_diff`: the difference of the positions, wrapped to `exp_precision_ext_size` bits and read as
a signed number -/
def expDiff (F : Fmt) (d x y : ℕ) : ℤ :=
  Int.bmod (accMsb F d - (((expField F y : ℤ) + expField F x) + (bias F + bias F + 1))) (2 ^ expSize F d)

/-- ml_fixed_mpfma.py:286, 333 `max_exp_diff` -/
def maxExpDiff (F : Fmt) (d : ℕ) : ℕ := accWidth F d - ((F.f + 1) + (F.f + 1))

/-- ml_fixed_mpfma.py:287-315 `mant_shift` -/
def mantShift (F : Fmt) (d x y : ℕ) : ℕ :=
  if expDiff F d x y < 0 then 0
  else if (maxExpDiff F d : ℤ) < expDiff F d x y then maxExpDiff F d
  else (expDiff F d x y).toNat % 2 ^ (Nat.log 2 (maxExpDiff F d) + 1)

/-- ml_fixed_mpfma.py:317-335 `shifted_prod` -/
def shiftedProd (F : Fmt) (d x y : ℕ) : ℕ :=
  mant F x * mant F y % 2 ^ ((F.f + 1) + (F.f + 1)) * 2 ^ maxExpDiff F d / 2 ^ mantShift F d x y

/-- ml_fixed_mpfma.py:214 `sign_xy` -/
def signXY (F : Fmt) (x y : ℕ) : Bool := xor (signBit F x) (signBit F y)

/-- ml_fixed_mpfma.py:433-467: the two's complement accumulator; the product is negated when it is negative -/
def accTwos (F : Fmt) (d x y acc : ℕ) : ℕ :=
  let shiftedProdOp := if signXY F x y then neg (accWidth F d) (shiftedProd F d x y) else shiftedProd F d x y
  (shiftedProdOp + acc) % 2 ^ accWidth F d

/-- ml_fixed_mpfma.py:341-431: the sign-magnitude accumulator, with the sign of the result first -/
def accSM (F : Fmt) (d x y : ℕ) (signAcc : Bool) (acc : ℕ) : Bool × ℕ :=
  let W := accWidth F d
  let same := signXY F x y == signAcc
  let accNegated := if same then acc else 2 ^ W - 1 - acc
  let p0Ext := (shiftedProd F d x y + accNegated) % 2 ^ (W + 1)
  let p1Ext := (p0Ext + 1) % 2 ^ (W + 1)
  let p0 := p0Ext % 2 ^ W
  let p1 := p1Ext % 2 ^ W
  let preSign := decide (p1Ext / 2 ^ W % 2 = 1)
  let mantAdd := if same then p0 else if preSign then p1 else 2 ^ W - 1 - p0
  let effectiveOp := xor (signXY F x y) signAcc
  (if effectiveOp then xor signAcc preSign else signAcc, mantAdd)

/-- the accumulator fed back cycle after cycle with the pairs of a list: the intended use of the block -/
def runTwos (F : Fmt) (d : ℕ) (acc : ℕ) (l : List (ℕ × ℕ)) : ℕ := l.foldl (fun acc p => accTwos F d p.1 p.2 acc) acc

/-- the same with the sign-magnitude accumulator -/
def runSM (F : Fmt) (d : ℕ) (acc : Bool × ℕ) (l : List (ℕ × ℕ)) : Bool × ℕ :=
  l.foldl (fun acc p => accSM F d p.1 p.2 acc.1 acc.2) acc

end Verif.Kulisch
