import Mathlib.Data.Rat.Defs
import Mathlib.Algebra.Order.Ring.Rat
import Mathlib.Algebra.Order.Field.Basic
import Mathlib.Algebra.Order.Group.Unbundled.Abs
import Mathlib.Algebra.Order.Field.Power

/-!
# Specification for multi-word polynomial implementations (property C118)
-/

namespace Verif.Mll

/-- `v` approximates `x` with a relative error of at most `e`. -/
def Near (e x v : ℚ) : Prop := |v - x| ≤ e * |x|

/-- What the implementation of a polynomial is made of: constants, the variable, products and sums, each with the relative
error that it is allowed to make. -/
inductive Impl
  | cst (c : ℚ)
  | var (e : ℚ)
  | mul (e : ℚ) (a b : Impl)
  | add (e : ℚ) (a b : Impl)
deriving DecidableEq, Repr

/-- `v` is a number that the implementation can compute for the value `x` of the variable, when every operation keeps to the
error it is allowed. -/
def Impl.Computes (x : ℚ) : Impl → ℚ → Prop
  | .cst c, v => v = c
  | .var e, v => Near e x v
  | .mul e a b, v => ∃ u w, a.Computes x u ∧ b.Computes x w ∧ Near e (u * w) v
  | .add e a b, v => ∃ u w, a.Computes x u ∧ b.Computes x w ∧ Near e (u + w) v

/-- The value of the polynomial with the given coefficients, from the constant one on; `none` is a coefficient that the
polynomial does not have. -/
def polyval : List (Option ℚ) → ℚ → ℚ
  | [], _ => 0
  | c :: cs, x => c.getD 0 + x * polyval cs x

/-- All monomials have the same sign at `x`: there is no cancellation. -/
def SameSign (cs : List (Option ℚ)) (x : ℚ) : Prop :=
  ∃ s : ℚ, (s = 1 ∨ s = -1) ∧ ∀ i, 0 ≤ s * (((cs[i]?).getD none).getD 0 * x ^ i)

/-- A rounding to binary64 (largest exponent and subnormal numbers aside): the relative error is at most `2 ^ -53`, and the
results are multiples of powers of two. -/
structure Round53 (rn : ℚ → ℚ) : Prop where
  near : ∀ x, Near (1 / 9007199254740992) x (rn x)
  dyadic : ∀ x, ∃ m e : ℤ, rn x = m * (2 : ℚ) ^ e

end Verif.Mll
