import Mathlib.Algebra.Order.Field.Rat
import Mathlib.Algebra.Order.Field.Power
import Mathlib.Algebra.Group.Int.Even

/-! # Rounding once to the grid of the subnormal numbers

Below `2^(emin+1)` the numbers of a binary format of `p` significant bits are the multiples of `2^(emin-p+1)`. -/

namespace Verif.Subnorm

/-- `y` is the multiple of `g` nearest to `x`, the even one when two are -/
def GridNearest (g x y : ℚ) : Prop := ∃ m : ℤ, y = m * g ∧ |x - y| ≤ g / 2 ∧ (|x - y| = g / 2 → Even m)

/-- `rnd` is the rounding to nearest even with `p` significant bits (no underflow, no overflow) -/
def RNE (p : ℕ) (rnd : ℚ → ℚ) : Prop :=
  rnd 0 = 0 ∧ ∀ (x : ℚ) (e : ℤ), (2 : ℚ) ^ e ≤ |x| → |x| ≤ (2 : ℚ) ^ (e + 1) → GridNearest ((2 : ℚ) ^ (e - p + 1)) x (rnd x)

/-- `y` is `x` rounded to nearest even in the subnormal range of a format -/
def SubRound (p : ℕ) (emin : ℤ) (x y : ℚ) : Prop := GridNearest ((2 : ℚ) ^ (emin - p + 1)) x y

end Verif.Subnorm
