import Verif.Blocks.Spec
import Mathlib.Algebra.Ring.Parity

namespace Verif.Fn

/-- `n` is the integer nearest to `t`, the even one when `t` is halfway between two integers. -/
def NearestEven (t : ℚ) (n : ℤ) : Prop := |t - n| ≤ 1 / 2 ∧ (|t - n| = 1 / 2 → Even n)

/-- What IEEE remainder / C `remquo` must return for finite `x`, `y ≠ 0`: the remainder
`x - n * y` for `n` the nearest integer to `x / y`, and the `k` low bits of `|n|` with the sign of
`x / y`. -/
def IsRemquo (k : ℕ) (x y : ℚ) (r : ℤ × ℚ) : Prop :=
  ∃ n : ℤ, NearestEven (x / y) n ∧ r.2 = x - n * y ∧
    r.1 = (if x / y < 0 then -1 else 1) * (|n| % 2 ^ k)

/-- A rounding of the format: monotone, and exact on the numbers of the format (all the IEEE
rounding directions are of this kind). -/
def IsRounding (p : ℕ) (q : ℤ) (rnd : ℚ → ℚ) : Prop :=
  Monotone rnd ∧ ∀ v, Blocks.Rep p q v → rnd v = v

end Verif.Fn
