import Verif.Special.Spec

/-! # The special values of `cosh`, `sinh`, `erf`, `expm1` and `log1p`

From the C standard (ISO/IEC 9899, annex F.10) and IEEE-754 clause 9.2.1.  Independent of the code. -/

namespace Verif.Hyper

open Verif.Float (Val)
open Verif.Special

structure CoshSpecial (x r : Val) : Prop where
  nan : IsNaN x → r = .qNaN
  inf : IsInf x → r = .plusInf
  zero : IsZero x → r = .num 1

structure SinhSpecial (x r : Val) : Prop where
  nan : IsNaN x → r = .qNaN
  inf : IsInf x → r = x
  zero : IsZero x → r = x

structure ErfSpecial (x r : Val) : Prop where
  nan : IsNaN x → r = .qNaN
  pinf : x = .plusInf → r = .num 1
  minf : x = .minusInf → r = .num (-1)
  zero : IsZero x → r = x

structure Expm1Special (x r : Val) : Prop where
  nan : IsNaN x → r = .qNaN
  pinf : x = .plusInf → r = .plusInf
  minf : x = .minusInf → r = .num (-1)
  zero : IsZero x → r = x

structure Log1pSpecial (x r : Val) : Prop where
  nan : IsNaN x → r = .qNaN
  pinf : x = .plusInf → r = .plusInf
  minf : x = .minusInf → r = .qNaN
  below : ∀ v, x = .num v → v < -1 → r = .qNaN
  pole : x = .num (-1) → r = .minusInf

/-- the datum of opposite sign (that of a NaN is not distinguished) -/
def opp : Val → Val
  | .plusInf => .minusInf
  | .minusInf => .plusInf
  | .plusZero => .minusZero
  | .minusZero => .plusZero
  | .num v => .num (-v)
  | a => a

end Verif.Hyper
