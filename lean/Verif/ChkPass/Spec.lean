import Mathlib.Data.Nat.Notation

/-! # Specification vocabulary of the checks of operation graphs (property C115): the nodes of a graph -/

namespace Verif.ChkPass

/-- an operation graph: the inputs of every node; leaves have none -/
abbrev Graph := ℕ → List ℕ

/-- the nodes of the graph of a node -/
inductive Reach (G : Graph) (root : ℕ) : ℕ → Prop
  | root : Reach G root root
  | step {n m : ℕ} : Reach G root n → m ∈ G n → Reach G root m

end Verif.ChkPass
