import Verif.Blocks.Spec

namespace Verif.Blocks

/-- A normalized multi-limb number: every limb is the rounding of the exact sum of itself and the
limbs below it. -/
def Normalized (rnd : ℚ → ℚ) : List ℚ → Prop
  | [] => True
  | a :: as => a = rnd (a + as.sum) ∧ Normalized rnd as

/-- comparison specifiers (core/ml_operations.py `Comparison`) -/
inductive Cmp | eq | ne | lt | le | gt | ge
  deriving DecidableEq

/-- comparison of two scalars -/
def Cmp.eval : Cmp → ℚ → ℚ → Bool
  | .eq, a, b => decide (a = b)
  | .ne, a, b => decide (a ≠ b)
  | .lt, a, b => decide (a < b)
  | .le, a, b => decide (a ≤ b)
  | .gt, a, b => decide (a > b)
  | .ge, a, b => decide (a ≥ b)

end Verif.Blocks
