import Mathlib.Data.Nat.Notation
import Mathlib.Data.List.Basic

/-!
# Functions made from a part of a graph
-/

namespace Verif.Extern

/-- Nodes: constants, variables (`input` for those defined outside), tables (`new` for
the second class of tables, `const` for those which are never written) and operations. -/
inductive Node
  | cst (c : ℕ)
  | var (name : String) (input : Bool)
  | table (new const : Bool) (c : ℕ)
  | op (f : ℕ) (ins : List ℕ)
  deriving DecidableEq

/-- Memory: the nodes, their tags and formats; the numbers from `size` on are free. -/
structure Heap where
  node : ℕ → Node
  tag : ℕ → Option String
  fmt : ℕ → Option ℕ
  size : ℕ

/-- The operands of a node. -/
def Node.inputs : Node → List ℕ
  | .op _ ins => ins
  | _ => []

/-- The operands of a node come before it. -/
def Heap.Ordered (H : Heap) : Prop := ∀ n < H.size, ∀ a ∈ (H.node n).inputs, a < n

/-- What the symbols stand for. -/
structure Interp (V : Type) where
  cst : ℕ → V
  table : ℕ → V
  op : ℕ → List V → V

/-- The value of node `n`: `env` gives the variables, and the nodes which `sub` covers
take the given value instead of being computed. -/
def value {V : Type} [Inhabited V] (I : Interp V) (node : ℕ → Node) (env : String → V)
    (sub : ℕ → Option V) (n : ℕ) : V :=
  match sub n with
  | some v => v
  | none =>
    match node n with
    | .cst c => I.cst c
    | .var x _ => env x
    | .table _ _ c => I.table c
    | .op f ins => I.op f (ins.map fun a => if _h : a < n then value I node env sub a else default)
termination_by n

/-- The nodes met from `root` when one does not look below the arguments. -/
inductive Within (H : Heap) (args : List ℕ) (root : ℕ) : ℕ → Prop
  | root : Within H args root root
  | step {n a} : Within H args root n → n ∉ args → a ∈ (H.node n).inputs →
      Within H args root a

/-- The nodes below `root`. -/
inductive Below (H : Heap) (root : ℕ) : ℕ → Prop
  | root : Below H root root
  | step {n a} : Below H root n → a ∈ (H.node n).inputs → Below H root a

/-- A generated function: the names and formats of its parameters, the format of its
result, the node which its body holds and whether the body returns it. -/
structure Fn where
  params : List (String × Option ℕ)
  out : ℕ
  body : ℕ
  returns : Bool

end Verif.Extern
