import Mathlib.Data.Nat.Notation

/-! # Specification: acyclic operation graphs, exact values, nodes that are reported -/

namespace Verif.ErrEval

/-- the nodes of a graph: constants, changes of representation, conversions, other operations, variables -/
inductive Kind (V : Type) where
  | const (v : V) | typecast | conversion | op | var

/-- an acyclic graph: nodes are numbers, the operands of a node have smaller numbers -/
structure Graph (V : Type) where
  kind : ℕ → Kind V
  inputs : ℕ → List ℕ
  acyclic : ∀ i, ∀ j ∈ inputs i, j < i
  /-- leaves have no operand -/
  leaf : ∀ i, (∃ v, kind i = .const v) ∨ kind i = .var → inputs i = []
  /-- the two unary classes -/
  unary : ∀ i, kind i = .typecast ∨ kind i = .conversion → ∃ j, inputs i = [j]

/-- the meaning of the operations of a graph: the exact function of each node -/
structure Meaning (V : Type) where
  typecast : ℕ → V → V
  conversion : ℕ → V → V
  op : ℕ → List V → V

variable {V : Type}

/-- `v` is the value of node `i` when the nodes in the mapping have the given values -/
inductive Val (G : Graph V) (M : Meaning V) (inp : ℕ → Option V) : ℕ → V → Prop
  | input {i v} : inp i = some v → Val G M inp i v
  | const {i v} : inp i = none → G.kind i = .const v → Val G M inp i v
  | typecast {i j v} : inp i = none → G.kind i = .typecast → G.inputs i = [j] → Val G M inp j v → Val G M inp i (M.typecast i v)
  | conversion {i j v} : inp i = none → G.kind i = .conversion → G.inputs i = [j] → Val G M inp j v → Val G M inp i (M.conversion i v)
  | op {i} (vs : ℕ → V) : inp i = none → G.kind i = .op → (∀ j ∈ G.inputs i, Val G M inp j (vs j)) → Val G M inp i (M.op i ((G.inputs i).map vs))

/-- the nodes below the root that are not given, nor only below given nodes -/
inductive Reach (G : Graph V) (inp : ℕ → Option V) (root : ℕ) : ℕ → Prop
  | root : inp root = none → Reach G inp root root
  | step {i j} : Reach G inp root i → j ∈ G.inputs i → inp j = none → Reach G inp root j

end Verif.ErrEval
