import Verif.Check.Spec

/-! # Vocabulary for floating-point operators -/

namespace Verif.FpHw

/-- The exponent of `v` is `E`. -/
def InBinade (E : ℤ) (v : ℚ) : Prop := (2 : ℚ) ^ E ≤ |v| ∧ |v| < (2 : ℚ) ^ (E + 1)

/-- `v`, of exponent `E`, lies halfway between two consecutive numbers of the format. -/
def Midpoint (F : Verif.Float.Fmt) (E : ℤ) (v : ℚ) : Prop := ∃ m : ℤ, v = (2 * m + 1) * (2 : ℚ) ^ (E - F.f - 1)

end Verif.FpHw
