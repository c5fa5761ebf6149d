import Mathlib.Data.Nat.Notation
import Mathlib.Data.List.Basic

/-!
# Pipeline stages

A node of a hardware design is computed in a stage; its operands must be available by
then.
-/

namespace Verif.Stages

/-- What the stage of a node can hold: a number, or an object which is not a number. -/
inductive Stage
  | num (k : ℕ)
  | object
  deriving DecidableEq

/-- Graphs: the operands of a node come before it. -/
structure Graph where
  leaf : ℕ → Bool
  inputs : ℕ → List ℕ
  before : ∀ n a, a ∈ inputs n → a < n

/-- The nodes below `root`; the operands of a leaf are not looked at. -/
inductive Reach (G : Graph) (root : ℕ) : ℕ → Prop
  | root : Reach G root root
  | step {n a} : Reach G root n → G.leaf n = false → a ∈ G.inputs n → Reach G root a

/-- `u` is a node below `root` which uses `j`. -/
def User (G : Graph) (root u j : ℕ) : Prop := Reach G root u ∧ G.leaf u = false ∧ j ∈ G.inputs u

/-- Every operand is in the stage of its users or before. -/
def Causal (G : Graph) (root : ℕ) (stage : ℕ → Option Stage) : Prop :=
  ∀ u j k l, User G root u j → stage u = some (.num k) → stage j = some (.num l) → l ≤ k

end Verif.Stages
