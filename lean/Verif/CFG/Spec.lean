import Mathlib.Data.List.Basic
import Mathlib.Logic.Relation

/-!
# Specification vocabulary for control-flow graphs (C26, C27, C62, C63)

Blocks are named by numbers.
-/

namespace Verif.CFG

/-- `Reach succ r b`: block `b` can be reached from block `r`. -/
inductive Reach (succ : ℕ → List ℕ) (r : ℕ) : ℕ → Prop
  | refl : Reach succ r r
  | step {b d} : Reach succ r b → d ∈ succ b → Reach succ r d

/-- `IsPath E r b p`: `p` lists, last block first, the blocks of a path from `r` to `b` along the
edges `E`. -/
inductive IsPath (E : List (ℕ × ℕ)) (r : ℕ) : ℕ → List ℕ → Prop
  | nil : IsPath E r r [r]
  | snoc {b d p} : IsPath E r b p → (b, d) ∈ E → IsPath E r d (d :: p)

/-- `d` dominates `b`: every path from the entry `r` to `b` goes through `d`. -/
def Dominates (E : List (ℕ × ℕ)) (r d b : ℕ) : Prop := ∀ p, IsPath E r b p → d ∈ p

/-- `d` strictly dominates `b`. -/
def SDominates (E : List (ℕ × ℕ)) (r d b : ℕ) : Prop := Dominates E r d b ∧ d ≠ b

/-- `y` is in the dominance frontier of `x`: `x` dominates a predecessor of `y` but does not
strictly dominate `y`. -/
def Frontier (E : List (ℕ × ℕ)) (r x y : ℕ) : Prop :=
  ∃ p, (p, y) ∈ E ∧ Dominates E r x p ∧ ¬ SDominates E r x y

/-- The iterated frontier of a set of blocks, for a frontier relation `R`. -/
inductive Iterated (R : ℕ → ℕ → Prop) (defs : ℕ → Prop) : ℕ → Prop
  | base {x y} : defs x → R x y → Iterated R defs y
  | step {x y} : Iterated R defs x → R x y → Iterated R defs y

end Verif.CFG
