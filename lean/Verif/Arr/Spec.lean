import Mathlib.Data.Nat.Notation

/-! # What a function applied to an array has to do

Independent of the code. Addresses count elements. -/

namespace Verif.Arr

/-- memory: the element at each address -/
abbrev Mem (V : Type) := ℕ → V

/-- From `before` to `after`, the `n` elements read from `src` have been replaced, from `dst` on, by their images by `f`, each computed from what the
array held before; no other address has changed. -/
def Elementwise {V : Type} (f : V → V) (dst src n : ℕ) (before after : Mem V) : Prop :=
  (∀ k, k < n → after (dst + k) = f (before (src + k))) ∧ ∀ a, a < dst ∨ dst + n ≤ a → after a = before a

/-- The destination does not start inside the source, after its first element. -/
def NoOverrun (dst src n : ℕ) : Prop := dst ≤ src ∨ src + n ≤ dst

/-- The RISC-V vector specification of `vsetvl`: the length granted for an application length `avl` when a register group holds `vlmax` elements. -/
structure SetVl (setvl : ℕ → ℕ → ℕ) : Prop where
  all : ∀ vlmax avl, avl ≤ vlmax → setvl vlmax avl = avl
  half : ∀ vlmax avl, vlmax < avl → avl < 2 * vlmax → (avl + 1) / 2 ≤ setvl vlmax avl ∧ setvl vlmax avl ≤ vlmax
  full : ∀ vlmax avl, 2 * vlmax ≤ avl → setvl vlmax avl = vlmax

end Verif.Arr
