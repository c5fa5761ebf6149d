import Mathlib.Data.Int.Order.Basic

/-!
# Specifications for the arithmetic blocks
-/

namespace Verif.HW

/-- `k` is the number of leading zeros of `v` written on `w` bits: `v` fits in the `w - k` low bits and, unless
`k = w`, the highest of these is set. -/
def IsLzc (w v k : ℕ) : Prop := k ≤ w ∧ v < 2 ^ (w - k) ∧ (k < w → 2 ^ (w - 1 - k) ≤ v)

/-- A number has one leading-zero count. -/
theorem IsLzc.unique {w v k l : ℕ} (hk : IsLzc w v k) (hl : IsLzc w v l) : k = l := by
  have key : ∀ a b : ℕ, IsLzc w v a → IsLzc w v b → ¬ a < b := by
    intro a b ha hb hlt
    have h1 := ha.2.2 (by have := hb.1; omega)
    have h2 := hb.2.1
    have h3 : 2 ^ (w - b) ≤ 2 ^ (w - 1 - a) := Nat.pow_le_pow_right (by decide) (by omega)
    omega
  have := key k l hk hl
  have := key l k hl hk
  omega

end Verif.HW
