import Mathlib.Data.Nat.Notation
import Mathlib.Data.List.Basic

/-!
# Instances of components

Names, nodes, components and dictionaries are numbers.  Dictionaries are objects: they
have an address, and two instances can hold the same one.
-/

namespace Verif.Comp

inductive Dir
  | input
  | output
  deriving DecidableEq

/-- A component: its name and its ports. -/
structure Component where
  name : ℕ
  ports : List (ℕ × Dir)

/-- The steps: an instance of the component `c` with the positional operands `args` and
the dictionary at address `d`, or a change of the operand `k` of the instance `i`. -/
inductive Op
  | inst (c : ℕ) (args : List ℕ) (d : ℕ)
  | setInput (i k v : ℕ)

/-- The dictionaries used by the instances of a history. -/
def used (ops : List Op) : List ℕ :=
  ops.filterMap fun op => match op with
    | .inst _ _ d => some d
    | _ => none

/-- The components instantiated in a history. -/
def instantiated (ops : List Op) : List ℕ :=
  ops.filterMap fun op => match op with
    | .inst c _ _ => some c
    | _ => none

end Verif.Comp
