import Mathlib.Data.Nat.Notation

/-!
# Tags of the nodes

The tag of a node is the name the user refers to it by: in the debug options, in
the error reports and in the generated code.
-/

namespace Verif.Tags

abbrev Name := List Char

/-- Graphs: the class of each node, whether it is a leaf, and its operands,
which come before it. -/
structure Graph where
  cls : ℕ → ℕ
  leaf : ℕ → Bool
  inputs : ℕ → List ℕ
  before : ∀ n a, a ∈ inputs n → a < n

/-- The nodes below `root`; the operands of a leaf are not looked at. -/
inductive Reach (G : Graph) (root : ℕ) : ℕ → Prop
  | root : Reach G root root
  | step {n a} : Reach G root n → G.leaf n = false → a ∈ G.inputs n → Reach G root a

/-- What the debug option asks for the node tagged `t`, given the list of tags
`white`; `keep` is the option which leaves the other nodes alone and `old` the
previous setting. -/
def wanted (white : List Name) (keep : Bool) (t : Option Name) (old : Bool) : Bool :=
  match t with
  | some x => if x ∈ white then true else if keep then old else false
  | none => if keep then old else false

end Verif.Tags
