import Mathlib.Data.Rat.Defs
import Mathlib.Algebra.Order.Field.Rat
import Mathlib.Algebra.Order.Field.Power
import Mathlib.Order.WithBot

/-! Specification of a binary rounding system, independent of the modelled code. -/

namespace Verif.Blocks

/-- `x` is a number of a binary floating-point format with `p` significant bits and smallest
exponent `q` (gradual underflow; `q = ⊥`: unbounded exponents; no overflow):
`x = m * 2^e`, `|m| < 2^p`, `e ≥ q`. -/
def Rep (p : ℕ) (q : WithBot ℤ) (x : ℚ) : Prop :=
  ∃ m e : ℤ, |m| < 2 ^ p ∧ q ≤ (e : WithBot ℤ) ∧ x = (m : ℚ) * (2 : ℚ) ^ e

/-- `rnd` is a rounding to nearest of the format; the tie-breaking rule is arbitrary. -/
def Nearest (p : ℕ) (q : WithBot ℤ) (rnd : ℚ → ℚ) : Prop :=
  ∀ x, Rep p q (rnd x) ∧ ∀ y, Rep p q y → |x - rnd x| ≤ |x - y|

/-- The pair `r` is an error-free sum of `x` and `y` in the rounding `rnd`: the head is the
rounded sum, the tail is a number of the format, and head plus tail is exactly `x + y`. -/
def ErrorFreeSum (p : ℕ) (q : WithBot ℤ) (rnd : ℚ → ℚ) (x y : ℚ) (r : ℚ × ℚ) : Prop :=
  r.1 = rnd (x + y) ∧ Rep p q r.2 ∧ r.1 + r.2 = x + y

/-- Same for a product. -/
def ErrorFreeProd (p : ℕ) (q : WithBot ℤ) (rnd : ℚ → ℚ) (x y : ℚ) (r : ℚ × ℚ) : Prop :=
  r.1 = rnd (x * y) ∧ Rep p q r.2 ∧ r.1 + r.2 = x * y

/-- `v'` approximates `v` with relative error at most `ε`. -/
def Approx (ε v v' : ℚ) : Prop := |v' - v| ≤ ε * |v|

/-- Two limbs that do not overlap in precision `p` (`limb_diff_factor ≤ 2^-p`). -/
def Limbs2 (p : ℕ) (q : WithBot ℤ) (h l : ℚ) : Prop :=
  Rep p q h ∧ Rep p q l ∧ |l| ≤ (2 : ℚ) ^ (-(p : ℤ)) * |h|

end Verif.Blocks
