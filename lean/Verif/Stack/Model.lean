import Verif.Stack.Spec

/-!
# Model of the default-attribute stacks (`core/attributes.py`)
-/

namespace Verif.Stack

/-- What a call does observably. -/
inductive Outcome (V : Type) where
  /-- returns normally (set, unset) -/
  | done
  /-- a node was built with these attributes -/
  | built (attrs : Kind → V)
  /-- `raise Exception()` of `unset_default_…` -/
  | exception
  /-- `IndexError`: `pop(0)` or `[0]` on an empty list -/
  | indexError

/-- The three class-level lists of `Attributes` (attributes.py:89-91), head = current default. -/
abbrev State (V : Type) := Kind → List V

def upd {V : Type} (s : State V) (k : Kind) (l : List V) : State V :=
  fun k' => if k' = k then l else s k'

/-- `set_default_…`: `insert(0, v)` (attributes.py:243-244, 251-252, 259-260);
`unset_default_…`: `pop(0)`, then `raise Exception()` when the list became empty — the element stays
removed (attributes.py:246-248, 254-256, 262-264);
`Attributes.__init__` reads the three defaults `[0]` even when the attribute is given
(attributes.py:103-121; the other attributes are not modelled). -/
def step {V : Type} (s : State V) : Op V → Outcome V × State V
  | .set k v => (.done, upd s k (v :: s k))
  | .unset k =>
    match s k with
    | [] => (.indexError, s)
    | [_] => (.exception, upd s k [])
    | _ :: y :: l => (.done, upd s k (y :: l))
  | .node given =>
    match s .precision, s .silent, s .roundingMode with
    | p :: _, q :: _, r :: _ =>
      (.built (fun k => (given k).getD
        (match k with | .precision => p | .silent => q | .roundingMode => r)), s)
    | _, _, _ => (.indexError, s)

/-- A program that goes on after an exception (caught by the caller). -/
def run {V : Type} (s : State V) : List (Op V) → List (Outcome V) × State V
  | [] => ([], s)
  | op :: ops => let (o, s') := step s op; let (os, s'') := run s' ops; (o :: os, s'')

/-- The class attributes as initialised: one default each (attributes.py:89-91). -/
def initial {V : Type} (d : Kind → V) : State V := fun k => [d k]

end Verif.Stack
