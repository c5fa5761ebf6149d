import Verif.Float.Spec

/-! # Rounding toward zero and to nearest

Independent of the code. -/

namespace Verif.Bfloat

open Verif.Float (Fmt)

/-- The Brain Float format: the exponent of binary32 and 7 bits of significand. -/
def bf16 : Fmt := ⟨8, 7⟩
def b32 : Fmt := ⟨8, 23⟩

/-- `r` is the number of the format nearest to `v` toward zero. -/
def TowardZero (F : Fmt) (v r : ℚ) : Prop := F.Finite r ∧ 0 ≤ r * v ∧ |r| ≤ |v| ∧ ∀ x, F.Finite x → |x| ≤ |v| → |x| ≤ |r|

/-- `r` is a number of the format at the smallest distance of `v`. -/
def Nearest (F : Fmt) (v r : ℚ) : Prop := F.Finite r ∧ ∀ x, F.Finite x → |r - v| ≤ |x - v|

end Verif.Bfloat
