import Verif.Blocks.Model
import Mathlib.Data.Int.Log
import Mathlib.Data.Rat.Floor

/-! # Model of `subnormalize_multi` (metalibm_core/opt/ml_blocks.py), the expansion of `Subnormalize` on a pair

As in `Verif.Blocks`, every floating-point operation is the rounding of the exact one; the operands are far from the underflow and overflow thresholds (in ml_div.py
they are the quotient of two significands), so that the exponent of `x_hi` is that of its value. -/

namespace Verif.Subnorm

open Verif.Blocks (add212)

/-- ml_blocks.py:1631-1634 `ExponentExtraction` of a normal number -/
def exponent (x : ℚ) : ℤ := Int.log 2 |x|

/-- ml_blocks.py:1634-1655 `delta`: what is missing to the minimal exponent, clamped -/
def delta (p : ℕ) (emin ex factor : ℤ) : ℤ := min (max (emin - (ex + factor)) 0) p

/-- ml_blocks.py:1624-1679 `subnormalize_multi` of a list of two components: the first component of the result (the second one is the constant 0) -/
def subnormalizeMulti (rnd : ℚ → ℚ) (p : ℕ) (emin : ℤ) (hi lo : ℚ) (factor : ℤ) : ℚ :=
  let ex := exponent hi
  let roundFactor := (2 : ℚ) ^ (delta p emin ex factor + ex)
  rnd ((add212 rnd roundFactor hi lo).1 - roundFactor)

/-! ## The C function `ml_subnormalize_d_dd_i` (metalibm_core/support_lib/ml_multi_prec_lib.c) on the encodings -/

/-- ml_support_lib.h:185 `ml_exp_extraction_dirty_fp64` of an encoding -/
def expDirty (c : ℕ) : ℤ := (c / 2 ^ 52 % 2048 : ℕ) - 1023

/-- the C expression `1 << k` of type `int` converted to `uint64_t`: `none` when the shift is undefined (a negative or too large amount, or a result that is not an
`int`) -/
def shl1 (k : ℤ) : Option ℕ := if 0 ≤ k ∧ k ≤ 30 then some (2 ^ k.toNat) else none

/-- `c << k` of a `uint64_t`: `none` when undefined -/
def shl64 (c : ℕ) (k : ℤ) : Option ℕ := if 0 ≤ k ∧ k ≤ 63 then some (c * 2 ^ k.toNat % 2 ^ 64) else none

/-- ml_multi_prec_lib.c:138-168 `ml_subnormalize_d_dd_i`: the encodings of `x.hi` and `x.lo` and the scale; `none`: undefined behaviour.
`x.lo == 0.0` is true of both zeros. -/
def subnormalizeC (hi lo : ℕ) (scale : ℤ) : Option ℕ :=
  let d := -1022 - (expDirty hi + scale)
  match shl1 (d - 1), shl64 hi (64 - (d - 1)), shl1 d with
  | some roundCst, some sticky, some bit =>
    let pre := (hi + roundCst) % 2 ^ 64
    let loSign := xor (hi / 2 ^ 63 % 2 = 1) (lo / 2 ^ 63 % 2 = 1)
    let parity := Nat.land hi bit
    let rounded := if (sticky = 0 ∧ parity = 0 ∧ lo % 2 ^ 63 = 0) ∨ (sticky = 0 ∧ loSign = true) then hi else pre
    some (rounded / 2 ^ d.toNat * 2 ^ d.toNat % 2 ^ 64)
  | _, _, _ => none

end Verif.Subnorm
