import Verif.Atan.Spec

/-! # What a cube root has to return -/

namespace Verif.Cbrt

open Verif.Float (Fmt Val)
open Verif.Special (finVal)

/-- `r` is a number of the format within a relative error `δ` of the real cube root of the number `x` -/
def NearCbrt (F : Fmt) (δ : ℝ) (r x : Val) : Prop :=
  ∃ (v : ℚ) (y z : ℝ), finVal x = some v ∧ y ^ 3 = (v : ℝ) ∧ Elem.IsReal F r z ∧ |z - y| ≤ δ * |y|

end Verif.Cbrt
