import Mathlib.Data.Rat.Floor
import Mathlib.Algebra.Order.Field.Power

/-!
# Specification of fixed-point formats (properties C03, C04, C05, C44, C45)

A fixed-point format is an integer size, a fraction size and a signedness. The integer size of a signed format
includes the sign bit. What such a format can represent is stated here without any reference to the model.
-/

namespace Verif.Fixed

/-- The data of a fixed-point format, as given to the constructor
(`metalibm_core/core/ml_formats.py`, `ML_Base_FixedPoint_Format.__init__`, lines 744-751). Sizes are integers: metalibm
allows one of them to be negative. -/
structure Fmt where
  int : ℤ
  frac : ℤ
  signed : Bool
deriving DecidableEq, Repr

/-- `v` is a multiple of `2^(-frac)`. -/
def OnGrid (frac : ℤ) (v : ℚ) : Prop := ∃ n : ℤ, v = n * (2 : ℚ) ^ (-frac)

/-- The mathematical value set of a format: multiples of `2^(-frac)` in `[0, 2^int)` if unsigned and in
`[-2^(int-1), 2^(int-1))` if signed. -/
def Fmt.Holds (f : Fmt) (v : ℚ) : Prop :=
  OnGrid f.frac v ∧
    if f.signed then -(2 : ℚ) ^ (f.int - 1) ≤ v ∧ v < (2 : ℚ) ^ (f.int - 1)
    else 0 ≤ v ∧ v < (2 : ℚ) ^ f.int

/-- Bit size of a format. -/
def Fmt.bits (f : Fmt) : ℤ := f.int + f.frac

end Verif.Fixed
