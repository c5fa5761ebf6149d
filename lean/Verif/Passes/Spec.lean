import Mathlib.Data.List.Basic

/-!
# Specification vocabulary for pass scheduling (C23) and worklist passes (C24)
-/

namespace Verif.Passes

/-- A pass: its identifier, the classes it is an instance of, and what it does to one input. -/
structure Pass (V : Type) where
  pid : ℕ
  cls : List ℕ
  exec : V → V

/-- A declared dependency. -/
inductive Dep where
  | none
  | afterClass (c : ℕ)
  | afterId (i : ℕ)
  | and (a b : Dep)
  | or (a b : Dep)

/-- A dependency is met by the passes that ran before. -/
def Met {V : Type} (before : List (Pass V)) : Dep → Prop
  | .none => True
  | .afterClass c => ∃ p ∈ before, c ∈ p.cls
  | .afterId i => ∃ p ∈ before, p.pid = i
  | .and a b => Met before a ∧ Met before b
  | .or a b => Met before a ∨ Met before b

/-- A registered pass. -/
structure Wrapper (V : Type) where
  pass : Pass V
  dep : Dep

/-- What a user of the scheduler does: register a pass in a slot, or execute a slot on some inputs. -/
inductive Act (V : Type) where
  | reg (slot : ℕ) (w : Wrapper V)
  | exec (slot : ℕ) (inputs : List V)

/-- Registrations of slot `k` made since it was last executed.  The latest action of the history comes first. -/
def pending {V : Type} (k : ℕ) : List (Act V) → List (Wrapper V)
  | [] => []
  | .reg k' w :: h => if k' = k then pending k h ++ [w] else pending k h
  | .exec k' _ :: h => if k' = k then [] else pending k h

/-- The registrations whose slot was executed after they were made. -/
def due {V : Type} : List (Act V) → List (Wrapper V)
  | [] => []
  | .reg _ _ :: h => due h
  | .exec k _ :: h => due h ++ pending k h

/-- Nodes reachable from `root` through operands. -/
inductive Reach {α : Type} (operands : α → List α) (root : α) : α → Prop
  | root : Reach operands root root
  | step {n m} : Reach operands root n → m ∈ operands n → Reach operands root m

/-- In `order`, every node comes after all its operands, except those already in `known`. -/
def OperandsFirst {α : Type} (operands : α → List α) (known : List α) (order : List α) : Prop :=
  ∀ pre n post, order = pre ++ n :: post → ∀ m ∈ operands n, m ∈ pre ∨ m ∈ known

end Verif.Passes
