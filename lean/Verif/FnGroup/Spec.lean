import Mathlib.Data.Nat.Notation
import Mathlib.Data.List.Basic

/-!
# Groups of functions

Lists of functions are objects: they have an address, two groups can hold the same list,
and a list can grow while it is gone through.
-/

namespace Verif.FnGroup

structure Fct where
  id : ℕ
  name : ℕ
  external : Bool
  deriving DecidableEq

/-- The lists, by address, and whatever else the routines change. -/
structure World (σ : Type) where
  lists : ℕ → List Fct
  out : σ

/-- The addresses of the two lists of a group. -/
structure Group where
  core : ℕ
  sub : ℕ
  deriving DecidableEq

variable {σ : Type}

/-- The functions of a group a routine has to be applied to, in order. -/
def World.todo (w : World σ) (g : Group) (ext : Bool) : List Fct :=
  (w.lists g.sub ++ w.lists g.core).filter fun f => ext || !f.external

/-- A routine which changes no group. -/
def Quiet (r : Fct → World σ → World σ) : Prop := ∀ f w, (r f w).lists = w.lists

/-- A routine which keeps the list of its calls, and may add functions to the lists. -/
def Growing (r : Fct → World (List Fct) → World (List Fct)) : Prop :=
  ∀ f w, (r f w).out = w.out ++ [f] ∧ ∀ l, w.lists l <+: (r f w).lists l

/-- A line of the generated file. -/
inductive Line
  | decl (f : Fct)
  | definition (f : Fct)
  deriving DecidableEq

/-- What running a program does: the functions called, and the value returned. -/
structure Run where
  called : List Fct
  code : ℕ

end Verif.FnGroup
