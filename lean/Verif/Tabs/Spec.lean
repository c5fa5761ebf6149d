import Mathlib.Data.Nat.Notation

/-! # Graphs and the nodes below a root -/

namespace Verif.Tabs

inductive Kind
  | table
  | leaf
  | op
  deriving DecidableEq

/-- Any graph, with sharing and cycles: nodes are numbers. -/
structure Graph where
  kind : ℕ → Kind
  inputs : ℕ → List ℕ

/-- The nodes which the root uses, through operations. -/
inductive Uses (G : Graph) (root : ℕ) : ℕ → Prop
  | root : Uses G root root
  | step {i j} : Uses G root i → G.kind i = .op → j ∈ G.inputs i → Uses G root j

/-- The graph has `n` nodes. -/
def Bounded (G : Graph) (n : ℕ) : Prop := ∀ i, i < n → ∀ j ∈ G.inputs i, j < n

end Verif.Tabs
