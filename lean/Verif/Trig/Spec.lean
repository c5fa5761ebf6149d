import Verif.Elem.Spec
import Mathlib.Analysis.Real.Pi.Bounds

/-! # What a large-argument reduction means, independently of the code -/

namespace Verif.Trig

/-- the pair `(r, t)` of an integer and a number in `[-1/2, 1/2]` is `v` modulo `M`, up to `err` -/
def Reduced (v M : ℚ) (r : ℤ) (t err : ℚ) : Prop := |t| ≤ 1 / 2 ∧ ∃ m : ℤ, |v - (m * M + (r + t))| ≤ err

/-- accuracy of the reduction: three roundings of at most `2^-54` per chunk of the constant, and the bits that are not read -/
def accuracy (k n : ℕ) : ℚ := 3 * (((k + n + 55) / 24 + 2 : ℕ) : ℚ) * (2 : ℚ) ^ (-54 : ℤ) + (2 : ℚ) ^ (-(n : ℤ) - 4)

/-- the angle `j * pi / 2^14 + t` is the angle `a`, up to turns and to `err` -/
def SameAngle (a : ℝ) (j : ℤ) (t : ℚ) (err : ℝ) : Prop := ∃ m : ℤ, |a - (m * (2 * Real.pi) + (j * (Real.pi / 2 ^ 14) + t))| ≤ err

end Verif.Trig
