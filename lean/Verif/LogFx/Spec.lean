import Mathlib.Analysis.SpecialFunctions.Log.Basic

/-! # Specification: a two-step multiplicative argument reduction for the logarithm

Independent of the code. The argument `x` in [1, 2) is multiplied by a first approximate inverse `i`, then by a second one `j`, so that
`z = x i j` is close to one; `i` is found with the leading `s₁` fractional bits of `x` and `j` with the leading `s₂` fractional bits of `x i`. -/

namespace Verif.LogFx

/-- `q` has at most `k` fractional bits -/
def OnGrid (k : ℕ) (q : ℚ) : Prop := ∃ n : ℤ, q = n / 2 ^ k

/-- the number of the leading `s` fractional bits of `x`, for `x` in [1, 2) -/
def IsIndex (s : ℕ) (x : ℚ) (n : ℕ) : Prop := 1 + (n : ℚ) / 2 ^ s ≤ x ∧ x < 1 + ((n : ℚ) + 1) / 2 ^ s

/-- `i` is the least number with `p` fractional bits that is at least the inverse of `1 + n / 2 ^ s` -/
def IsInverse (s p n : ℕ) (i : ℚ) : Prop :=
  OnGrid p i ∧ 1 ≤ i * (1 + (n : ℚ) / 2 ^ s) ∧ ∀ k, OnGrid p k → 1 ≤ k * (1 + (n : ℚ) / 2 ^ s) → i ≤ k

/-- what the logarithm of `x` is found from -/
def LogSplit (x i j z : ℚ) : Prop := Real.log x = Real.log z - Real.log i - Real.log j

/-- how far the returned value is from the logarithm of `2 ^ e x` -/
noncomputable def logError (e : ℤ) (x : ℚ) (r : ℚ) : ℝ := |(r : ℝ) - Real.log ((2 : ℝ) ^ e * x)|

end Verif.LogFx
