import Mathlib.Logic.Relation
import Mathlib.Data.Nat.Notation

/-! # What looking up the implementation of an operation has to return

A target is a table from a language, an operation, a codegen key, a condition on the node and an interface to an implementation; it has an ordered list of parent
targets. -/

namespace Verif.Backend

/-- a Python `dict`: its items, in order -/
abbrev Dict (K V : Type) := List (K × V)

/-- what the tables are made of, and what is observed of a node: its operation and codegen key, which conditions it meets, which interfaces it matches
(`none`: no match, `some weak`) -/
structure Env where
  (L O K C I N Impl : Type)
  [dl : DecidableEq L] [dO : DecidableEq O] [dk : DecidableEq K] [dc : DecidableEq C] [di : DecidableEq I]
  op : N → O
  key : N → K
  cond : C → N → Bool
  ifc : I → N → Option Bool

attribute [instance] Env.dl Env.dO Env.dk Env.dc Env.di

/-- the `code_generation_table` of a target, or a map of supported operations when `V` is a unit type -/
abbrev Map (E : Env) (V : Type) := Dict E.L (Dict E.O (Dict E.K (Dict E.C (Dict E.I V))))

abbrev Table (E : Env) := Map E E.Impl

/-- the table has an entry for the node and the language; `w`: the match is a weak one -/
def Entry {E : Env} {V : Type} (t : Map E V) (lang : E.L) (n : E.N) (w : Bool) (im : V) : Prop :=
  ∃ a b c d cd ic, (lang, a) ∈ t ∧ (E.op n, b) ∈ a ∧ (E.key n, c) ∈ b ∧ (cd, d) ∈ c ∧ E.cond cd n = true ∧ (ic, im) ∈ d ∧ E.ifc ic n = some w

/-- the keys of a `dict` are distinct -/
def Keys {K V : Type} (d : Dict K V) : Prop := (d.map Prod.fst).Nodup

/-- at every level -/
def Ok {E : Env} {V : Type} (t : Map E V) : Prop :=
  Keys t ∧ ∀ l a, (l, a) ∈ t → Keys a ∧ ∀ o b, (o, b) ∈ a → Keys b ∧ ∀ k c, (k, c) ∈ b → Keys c ∧ ∀ cd d, (cd, d) ∈ c → Keys d

/-- the entries of a target for a node, in the order of the tables -/
def entries {E : Env} (t : Table E) (lang : E.L) (n : E.N) : List (Bool × E.Impl) :=
  match t.lookup lang with
  | none => []
  | some a => match a.lookup (E.op n) with
    | none => []
    | some b => match b.lookup (E.key n) with
      | none => []
      | some c => c.flatMap fun p => if E.cond p.1 n then p.2.filterMap (fun q => (E.ifc q.1 n).map fun w => (w, q.2)) else []

/-- the implementation to use: the first one that is not weak, over the target and its parents, or else the first weak one -/
def best {Impl : Type} (l : List (Bool × Impl)) : Option Impl :=
  match l.find? (fun p => !p.1) with
  | some p => some p.2
  | none => l.head?.map Prod.snd

end Verif.Backend
