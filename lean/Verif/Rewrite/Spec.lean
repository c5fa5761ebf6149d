import Mathlib.Data.List.Basic
import Mathlib.Data.List.Nodup

/-! # Specification: operation graphs with sharing

An operation graph is a store of nodes; a node carries an operation and the list of its inputs (identifiers of nodes).  Two uses of
the same identifier are two uses of the same object. -/

namespace Verif.Rewrite

/-- A node: its operation (class, format, attributes) and its inputs. -/
structure Node (Op : Type) where
  op : Op
  ins : List ℕ
deriving DecidableEq, Repr

/-- The store of all nodes; a node is identified by its position. -/
abbrev Heap (Op : Type) := List (Node Op)

variable {Op V : Type}

/-- `n` evaluates to `v`, where `den` is the meaning of the operations. -/
inductive Eval (den : Op → List V → V) (h : Heap Op) : ℕ → V → Prop
  | mk (n : ℕ) (nd : Node Op) (val : ℕ → V) : h[n]? = some nd → (∀ m ∈ nd.ins, Eval den h m (val m)) →
      Eval den h n (den nd.op (nd.ins.map val))

/-- Every node has as many inputs as its operation takes, all inputs exist and there is no cycle. -/
def WF (arity : Op → ℕ) (h : Heap Op) : Prop :=
  ∃ rank : ℕ → ℕ, ∀ n nd, h[n]? = some nd →
    nd.ins.length = arity nd.op ∧ ∀ m ∈ nd.ins, m < h.length ∧ rank m < rank n

/-- `m` is `n` or is below it. -/
inductive Below (h : Heap Op) (n : ℕ) : ℕ → Prop
  | refl : Below h n n
  | step {m nd k} : Below h n m → h[m]? = some nd → k ∈ nd.ins → Below h n k

theorem Eval.unique {den : Op → List V → V} {h : Heap Op} {n : ℕ} {v : V} (e : Eval den h n v) :
    ∀ {w : V}, Eval den h n w → v = w := by
  induction e with
  | mk n nd val hn hm ih =>
    intro w hw
    cases hw with
    | mk _ nd' val' hn' hm' =>
      rw [hn] at hn'
      obtain rfl := Option.some.inj hn'
      congr 1
      exact List.map_congr_left fun m hmem => ih m hmem (hm' m hmem)

end Verif.Rewrite
