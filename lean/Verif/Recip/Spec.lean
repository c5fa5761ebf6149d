import Verif.FpHw.Spec

/-!
# Specification for the hardware reciprocal (property C122)

The values of the words (`Fmt.decode`), the rounding to nearest (`NearestEven`) and the exponent of a number (`InBinade`) are those of
`Verif.Float`, `Verif.Check` and `Verif.FpHw`.
-/

namespace Verif.Recip

/-- `v` differs from `y` by less than one unit in the last place of `y`, in a format with `f` fraction bits. -/
def WithinUlp (f : ℕ) (y v : ℚ) : Prop := ∀ E : ℤ, FpHw.InBinade E y → |v - y| < (2 : ℚ) ^ (E - f)

/-- The significands (integers with `p` bits) whose reciprocal lies above the middle of two consecutive numbers, very close to it:
`2 ^ (2 p)` is a multiple of the significand, up to less than 8. -/
def NearMiddle (p M : ℕ) : Prop := ∃ d, 0 < d ∧ d < 8 ∧ M ∣ 2 ^ (2 * p) - d

/-- The entry `i` of the table differs from `2 ^ 16 / (256 + i)` by at most 1. -/
def GoodTable (tab : ℕ → ℕ) : Prop := ∀ i < 256, |(tab i : ℤ) * (256 + (i : ℤ)) - (2 : ℤ) ^ 16| ≤ 256 + (i : ℤ)

end Verif.Recip
