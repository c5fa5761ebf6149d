import Verif.Special.Spec
import Mathlib.Analysis.SpecialFunctions.Pow.Real

/-! # What an integer root has to return

Independent of the code. -/

namespace Verif.Rootn

open Verif.Float (Val)
open Verif.Special

/-- IEEE-754 clause 9.2.1, `rootn(x, n)`: the cases that do not depend on rounding -/
structure RootSpecial (n : ℤ) (x r : Val) : Prop where
  nan : IsNaN x → r = .qNaN
  zeroth : n = 0 → r = .qNaN
  negative : Even n → neg x = true → ¬ IsZero x → r = .qNaN
  zeroOddNeg : Odd n → n < 0 → IsZero x → r = if neg x then .minusInf else .plusInf
  zeroEvenNeg : Even n → n < 0 → IsZero x → r = .plusInf
  zeroOddPos : Odd n → 0 < n → IsZero x → r = x
  zeroEvenPos : Even n → 0 < n → IsZero x → r = .plusZero
  infPos : 0 < n → x = .plusInf → r = .plusInf
  infNeg : n < 0 → x = .plusInf → r = .plusZero
  minfPos : Odd n → 0 < n → x = .minusInf → r = .minusInf
  minfNeg : Odd n → n < 0 → x = .minusInf → r = .minusZero

/-- the real root: of a negative number, the opposite of the root of its opposite -/
noncomputable def root (n : ℤ) (x : ℝ) : ℝ := if x < 0 then -(-x) ^ (1 / (n : ℝ)) else x ^ (1 / (n : ℝ))

end Verif.Rootn
