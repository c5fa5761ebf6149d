import Mathlib.Data.List.Basic

/-!
# Specification vocabulary for generated names (C20, C21)

A *name* is a list of characters.  Symbol tables are identified by a number; a *scope* owns one
constant table and some other tables and has enclosing (parent) scopes.
-/

namespace Verif.Names

abbrev Name := List Char

/-- A scope: its identity, its constant table, its other tables, its enclosing scopes.
Two scopes may share a table (same number). -/
inductive Scope where
  | mk (id : ℕ) (cst : ℕ) (others : List ℕ) (parents : List Scope)

/-- Table `t` belongs to the scope or (transitively) to an enclosing scope. -/
inductive Visible (t : ℕ) : Scope → Prop
  | cst {i o ps} : Visible t (.mk i t o ps)
  | other {i c o ps} : t ∈ o → Visible t (.mk i c o ps)
  | parent {i c o ps p} : p ∈ ps → Visible t p → Visible t (.mk i c o ps)

/-- `n` is fresh for scope `s` when `decl t` lists the names declared in table `t`: it is declared
neither in a table of the scope nor in one of an enclosing scope. -/
def Fresh (decl : ℕ → List Name) (s : Scope) (n : Name) : Prop :=
  ∀ t, Visible t s → n ∉ decl t

end Verif.Names
