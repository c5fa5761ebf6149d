import Mathlib.Analysis.SpecialFunctions.Trigonometric.Basic

/-! # Specification of the fast sine and cosine (C119)

The inputs are in `[0, 2 ^ m)`, the table has `2 ^ t` lines. -/

namespace Verif.FastTrig

/-- A table with two columns, as integers in units of `2 ^ -30`. -/
structure Tab where
  cos : List ℤ
  sin : List ℤ

/-- The table holds cosines and sines at the multiples of `2 ^ (m - t)`, rounded up or down, and at most 1 in magnitude. -/
structure Tab.Right (T : Tab) (m t : ℕ) : Prop where
  cos : ∀ i : ℕ, i < 2 ^ t → ∃ c, T.cos[i]? = some c ∧ |c| ≤ 2 ^ 30 ∧ |(c : ℝ) / 2 ^ 30 - Real.cos (i * (2 ^ m / 2 ^ t))| ≤ 1 / 2 ^ 30
  sin : ∀ i : ℕ, i < 2 ^ t → ∃ s, T.sin[i]? = some s ∧ |s| ≤ 2 ^ 30 ∧ |(s : ℝ) / 2 ^ 30 - Real.sin (i * (2 ^ m / 2 ^ t))| ≤ 1 / 2 ^ 30
  cos_len : T.cos.length = 2 ^ t
  sin_len : T.sin.length = 2 ^ t

/-- The two coefficients, as integers in units of `2 ^ -32`. -/
structure Coefs where
  c2 : ℤ
  s2 : ℤ

/-- On `[0, l]`, `1 + c2 u ^ 2` approximates the cosine within `ec`, and `u + s2 u ^ 3` approximates the sine within `es`. -/
structure Coefs.Right (k : Coefs) (l ec es : ℝ) : Prop where
  c2 : |k.c2| < 2 ^ 31
  s2 : |k.s2| < 2 ^ 31
  cos : ∀ u : ℝ, 0 ≤ u → u ≤ l → |1 + (k.c2 : ℝ) / 2 ^ 32 * u ^ 2 - Real.cos u| ≤ ec
  sin : ∀ u : ℝ, 0 ≤ u → u ≤ l → |u + (k.s2 : ℝ) / 2 ^ 32 * u ^ 3 - Real.sin u| ≤ es

/-- The number that an integer stands for, in the format of the computation: the unit is `2 ^ (m - 31)`. -/
noncomputable def val (m : ℤ) (n : ℤ) : ℝ := n * (2 : ℝ) ^ (m - 31)

end Verif.FastTrig
