import Verif.Fixed.Spec
import Verif.Float.Spec

/-! # What a random test input may be (properties C55, C69)

Representable fixed-point numbers are `Verif.Fixed.Fmt.Holds`, representable floating-point numbers `Verif.Float.Fmt.Finite`. -/

namespace Verif.Rng

/-- `v` lies in the closed interval `[lo, hi]`. -/
def Within (lo hi v : ℚ) : Prop := lo ≤ v ∧ v ≤ hi

/-- A datum a floating-point test input may be: a special value or a number of the format. -/
def Representable (F : Float.Fmt) : Float.Val → Prop
  | .num v => F.Finite v
  | _ => True

end Verif.Rng
