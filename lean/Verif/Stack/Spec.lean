import Mathlib.Data.List.Basic

/-!
# Specification vocabulary for the default-attribute stacks (C22)
-/

namespace Verif.Stack

/-- The three attributes that have a stack of defaults. -/
inductive Kind | precision | roundingMode | silent
  deriving DecidableEq

/-- What a program does: `set_default_X(v)`, `unset_default_X()`, or build a node, giving some of
the attributes explicitly. -/
inductive Op (V : Type) where
  | set (k : Kind) (v : V)
  | unset (k : Kind)
  | node (given : Kind → Option V)

/-- The events of a history that concern the stack of kind `k`: `some v` for a set, `none` for an
unset. -/
def events {V : Type} (k : Kind) : List (Op V) → List (Option V)
  | [] => []
  | .set k' v :: ops => if k' = k then some v :: events k ops else events k ops
  | .unset k' :: ops => if k' = k then none :: events k ops else events k ops
  | .node _ :: ops => events k ops

/-- Properly nested set/unset sequences. -/
inductive Nested {V : Type} : List (Option V) → Prop
  | nil : Nested []
  | wrap {v a b} : Nested a → Nested b → Nested (some v :: a ++ none :: b)

/-- In every initial part of the history, each `unset` of kind `k` is preceded by an unmatched
`set`: there are never more unsets than sets. -/
def NeverBelow {V : Type} (k : Kind) (ops : List (Op V)) : Prop :=
  ∀ pre, pre <+: ops →
    (events k pre).countP (fun e => e.isNone) ≤ (events k pre).countP (fun e => e.isSome)

end Verif.Stack
