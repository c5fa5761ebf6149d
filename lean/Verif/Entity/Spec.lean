import Mathlib.Data.Nat.Notation
import Mathlib.Data.List.Basic

/-!
# Building hardware entities

What a user does, and what they expect to read back: entities are numbered in the order
of their creation, nodes too, names are numbers.
-/

namespace Verif.Entity

/-- The steps of a construction. -/
inductive Op
  /-- a new entity -/
  | entity
  /-- the entity `e` takes back the making of nodes, after a sub-entity was made -/
  | resume (e : ℕ)
  /-- the entity `e` starts a new stage -/
  | start (e : ℕ)
  /-- the current stage of `e` is set, or unset -/
  | setStage (e : ℕ) (k : Option ℕ)
  /-- a new node, with its stage given or not -/
  | node (stage : Option (Option ℕ))
  /-- a new input of `e` -/
  | input (e n : ℕ)
  /-- the node `v`, of name `n`, becomes an input of `e` -/
  | register (e n v : ℕ)
  /-- the inputs of `e` are removed -/
  | clear (e : ℕ)
  /-- a new output of `e` with the value `v` -/
  | output (e n v : ℕ)
  /-- the value of an output is changed -/
  | setOutput (e n v : ℕ)
  deriving DecidableEq

/-- The stage of `e` after a history: the stage last set, or 0, plus the number of stages
started since. -/
def stageOf (e : ℕ) (ops : List Op) : Option ℕ :=
  ops.foldl (fun s op => match op with
    | .start e' => if e' = e then s.map (· + 1) else s
    | .setStage e' k => if e' = e then k else s
    | _ => s) (some 0)

/-- The names of the inputs of `e`, in order. -/
def inNames (e : ℕ) (ops : List Op) : List ℕ :=
  ops.foldl (fun l op => match op with
    | .input e' n => if e' = e then l ++ [n] else l
    | .register e' n _ => if e' = e then l ++ [n] else l
    | .clear e' => if e' = e then [] else l
    | _ => l) []

/-- The names of the outputs of `e`, in order. -/
def outNames (e : ℕ) (ops : List Op) : List ℕ :=
  ops.foldl (fun l op => match op with
    | .output e' n _ => if e' = e then l ++ [n] else l
    | _ => l) []

/-- The value last given to the output `n` of `e`. -/
def valueOf (e n : ℕ) (ops : List Op) : Option ℕ :=
  ops.foldl (fun a op => match op with
    | .output e' n' v => if e' = e ∧ n' = n then some v else a
    | .setOutput e' n' v => if e' = e ∧ n' = n then some v else a
    | _ => a) none

/-- The number of entities. -/
def entities (ops : List Op) : ℕ := ops.count .entity

/-- The entity made last, or which has resumed since. -/
def active : List Op → Option ℕ := fun ops =>
  (ops.foldl (fun (s : ℕ × Option ℕ) op => match op with
    | .entity => (s.1 + 1, some s.1)
    | .resume e => (s.1, some e)
    | _ => s) (0, none)).2

end Verif.Entity
