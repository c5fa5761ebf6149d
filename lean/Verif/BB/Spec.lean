import Mathlib.Data.List.Basic

/-!
# Specification vocabulary for basic-block generation (C25): structured programs

`S` is the type of program states, `V` the type of returned values.  Conditions, assignments and
returned expressions are arbitrary functions of the state.
-/

namespace Verif.BB

/-- Structured programs. -/
inductive Stmt (S V : Type) where
  | skip
  | act (f : S → S)
  | ret (e : S → V)
  | seq (s t : Stmt S V)
  | ite (c : S → Bool) (t : Stmt S V) (e : Option (Stmt S V))
  | loop (init : Stmt S V) (c : S → Bool) (body : Stmt S V)

/-- How an execution ends: at the end of the text in a state, or by returning a value. -/
inductive Res (S V : Type) where
  | normal (s : S)
  | ret (s : S) (v : V)

/-- Sequencing of results. -/
def Res.bind {S V : Type} (f : S → Option (Res S V)) : Option (Res S V) → Option (Res S V)
  | none => none
  | some (.ret s v) => some (.ret s v)
  | some (.normal s) => f s

/-- `while c do body`, at most `n` iterations (`none`: not finished after `n` tests). -/
def whileN {S V : Type} (c : S → Bool) (body : S → Option (Res S V)) : ℕ → S → Option (Res S V)
  | 0, _ => none
  | n + 1, s => if c s then Res.bind (whileN c body n) (body s) else some (.normal s)

mutual
/-- Meaning of structured programs; `n` bounds the number of iterations of each loop. -/
def exec {S V : Type} (n : ℕ) : Stmt S V → S → Option (Res S V)
  | .skip, s => some (.normal s)
  | .act f, s => some (.normal (f s))
  | .ret e, s => some (.ret s (e s))
  | .seq a b, s => Res.bind (exec n b) (exec n a s)
  | .ite c t e, s => if c s then exec n t s else execElse n e s
  | .loop i c b, s => Res.bind (whileN c (exec n b) n) (exec n i s)
/-- An absent else-branch does nothing. -/
def execElse {S V : Type} (n : ℕ) : Option (Stmt S V) → S → Option (Res S V)
  | none, s => some (.normal s)
  | some e, s => exec n e s
end

/-- The program terminates from `s` with result `r`. -/
def Terminates {S V : Type} (p : Stmt S V) (s : S) (r : Res S V) : Prop :=
  ∃ n, exec n p s = some r

/-! ## Programs that can be cut into basic blocks -/

/-- Does the last line of `p` end with a return, given whether the text before did?  (After a
conditional or a loop a new line starts.) -/
def fin {S V : Type} : Bool → Stmt S V → Bool
  | f, .skip => f
  | f, .act _ => f
  | _, .ret _ => true
  | f, .seq a b => fin (fin f a) b
  | _, .ite _ _ _ => false
  | _, .loop _ _ _ => false

/-- A sequence of assignments. -/
def Straight {S V : Type} : Stmt S V → Prop
  | .skip => True
  | .act _ => True
  | .seq a b => Straight a ∧ Straight b
  | _ => False

mutual
/-- No conditional and no loop directly follows a return (`f`: the text before ended with a return),
loops are initialised by assignments only, and no loop body ends with a return. -/
def Acceptable {S V : Type} : Bool → Stmt S V → Prop
  | _, .skip => True
  | _, .act _ => True
  | _, .ret _ => True
  | f, .seq a b => Acceptable f a ∧ Acceptable (fin f a) b
  | f, .ite _ t e => f = false ∧ Acceptable false t ∧ AcceptableElse e
  | f, .loop i _ b => f = false ∧ Straight i ∧ Acceptable false b ∧ fin false b = false
def AcceptableElse {S V : Type} : Option (Stmt S V) → Prop
  | none => True
  | some e => Acceptable false e
end

end Verif.BB
