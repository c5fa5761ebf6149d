import Verif.Blocks.Spec

/-! Specification of double-double arithmetic in C. `Rep` and `Nearest` are those of
`Verif/Blocks/Spec.lean`. -/

namespace Verif.Mprec

open Verif.Blocks

/-- a finite `double` (the largest exponent is left out, see `Finite64`) -/
def Double (x : ℚ) : Prop := Rep 53 ((-1074 : ℤ) : WithBot ℤ) x

/-- a finite `float` -/
def Single (x : ℚ) : Prop := Rep 24 ((-149 : ℤ) : WithBot ℤ) x

/-- the arithmetic of `double`: a rounding to nearest, whatever it does with ties -/
def Rounds64 (rnd : ℚ → ℚ) : Prop := Nearest 53 ((-1074 : ℤ) : WithBot ℤ) rnd

/-- the arithmetic of `float` -/
def Rounds32 (rnd : ℚ → ℚ) : Prop := Nearest 24 ((-149 : ℤ) : WithBot ℤ) rnd

/-- `x` is a whole number of `2^e` -/
def MultipleOf (e : ℤ) (x : ℚ) : Prop := ∃ n : ℤ, x = n * 2 ^ e

/-- the low part lies below the last bit of the high part -/
def NoOverlap (h l : ℚ) : Prop := ∃ k : ℤ, MultipleOf k h ∧ |l| ≤ 2 ^ (k - 1)

/-- a normalised pair of doubles -/
def Pair (h l : ℚ) : Prop := Double h ∧ Double l ∧ |l| ≤ 2 ^ (-53 : ℤ) * |h|

/-- below the overflow threshold of `double` -/
def Finite64 (x : ℚ) : Prop := |x| < 2 ^ 1024

end Verif.Mprec
