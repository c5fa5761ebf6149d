import Verif.Elem.Spec

/-! # The special cases of `pow` in IEEE 754-2008, clause 9.2.1

`r` is the result (`none`: no result). -/

namespace Verif.Elem

open Verif.Float (Fmt Val)
open Verif.Special

/-- an odd integer -/
def OddInt (y : Val) : Prop := ∃ k : ℤ, finVal y = some ((2 * k + 1 : ℤ) : ℚ)

/-- an integer -/
def IsInteger (y : Val) : Prop := ∃ k : ℤ, finVal y = some (k : ℚ)

/-- IEEE 754-2008, clause 9.2.1, `pow` -/
structure PowSpecial (x y : Val) (r : Option Val) : Prop where
  snan : x = .sNaN ∨ y = .sNaN → r = some .qNaN
  exponentZero : x ≠ .sNaN → IsZero y → r = some (.num 1)
  zeroOddNeg : IsZero x → OddInt y → neg y = true → r = some (if neg x then .minusInf else .plusInf)
  zeroMinusInf : IsZero x → y = .minusInf → r = some .plusInf
  zeroPlusInf : IsZero x → y = .plusInf → r = some .plusZero
  zeroOddPos : IsZero x → OddInt y → neg y = false → r = some x
  zeroNeg : IsZero x → ∀ w, finVal y = some w → w < 0 → ¬ OddInt y → r = some .plusInf
  zeroPos : IsZero x → ∀ w, finVal y = some w → 0 < w → ¬ OddInt y → r = some .plusZero
  minusOne : x = .num (-1) → IsInf y → r = some (.num 1)
  one : x = .num 1 → y ≠ .sNaN → r = some (.num 1)
  smallPlusInf : ∀ v, finVal x = some v → |v| < 1 → y = .plusInf → r = some .plusZero
  bigPlusInf : IsInf x ∨ (∃ v, finVal x = some v ∧ 1 < |v|) → y = .plusInf → r = some .plusInf
  smallMinusInf : ∀ v, finVal x = some v → |v| < 1 → y = .minusInf → r = some .plusInf
  bigMinusInf : IsInf x ∨ (∃ v, finVal x = some v ∧ 1 < |v|) → y = .minusInf → r = some .plusZero
  infNeg : x = .plusInf → ∀ w, finVal y = some w → w < 0 → r = some .plusZero
  infPos : x = .plusInf → ∀ w, finVal y = some w → 0 < w → r = some .plusInf
  minusInfOddNeg : x = .minusInf → OddInt y → neg y = true → r = some .minusZero
  minusInfOddPos : x = .minusInf → OddInt y → neg y = false → r = some .minusInf
  minusInfNeg : x = .minusInf → ∀ w, finVal y = some w → w < 0 → ¬ OddInt y → r = some .plusZero
  minusInfPos : x = .minusInf → ∀ w, finVal y = some w → 0 < w → ¬ OddInt y → r = some .plusInf
  invalid : ∀ v w, finVal x = some v → v < 0 → finVal y = some w → ¬ IsInteger y → r = some .qNaN
  nanBase : x = .qNaN → y ≠ .sNaN → ¬ IsZero y → r = some .qNaN
  nanExponent : y = .qNaN → x ≠ .sNaN → x ≠ .num 1 → r = some .qNaN

end Verif.Elem
