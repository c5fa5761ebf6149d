import Mathlib.Data.Nat.Notation
import Mathlib.Data.Int.Notation

/-! # Programs with shared nodes, and what they compute

A program is a tree of statements over expressions.  Every operation node carries the identity of the Python object it stands for: two occurrences with the same identity
are the same node. -/

namespace Verif.Share

/-- expressions; `inp` is an input variable, `var` any other variable -/
inductive Expr where
  | inp (n : ℕ)
  | var (n : ℕ)
  | cst (v : ℤ)
  | op (id f : ℕ) (args : List Expr)

/-- statements; `expr` is an operation in statement position, `loop` runs its body as long as its condition is not zero -/
inductive Stmt where
  | expr (e : Expr)
  | assign (id v : ℕ) (e : Expr)
  | ret (id : ℕ) (e : Expr)
  | raise (id x : ℕ)
  | cond (id : ℕ) (c : Expr) (t f : Stmt)
  | switch (id : ℕ) (c : Expr) (cases : List (ℤ × Stmt))
  | loop (init : Stmt) (c : Expr) (body : Stmt)
  | block (prevent : Bool) (ss : List Stmt)

/-- what a program does: a value may be returned (`none`: the end was reached), flags may be raised; `trap` when an operation has no result (a table read out of its
bounds, an integer division by zero), `stuck` when a loop runs longer than it is given time for -/
inductive Res where
  | trap
  | stuck
  | fin (vars : ℕ → ℤ) (flags : List ℕ) (r : Option ℤ)

/-- the operations, which may have no result -/
abbrev Sem := ℕ → List ℤ → Option ℤ

mutual
/-- the value of an expression -/
def eval (S : Sem) (inp vars : ℕ → ℤ) : Expr → Option ℤ
  | .inp n => some (inp n)
  | .var n => some (vars n)
  | .cst v => some v
  | .op _ f args => match evalL S inp vars args with
    | none => none
    | some vs => S f vs
def evalL (S : Sem) (inp vars : ℕ → ℤ) : List Expr → Option (List ℤ)
  | [] => some []
  | e :: es => match eval S inp vars e with
    | none => none
    | some v => match evalL S inp vars es with
      | none => none
      | some vs => some (v :: vs)
end

/-- continue with `k` unless something was returned or went wrong -/
def Res.andThen (r : Res) (k : (ℕ → ℤ) → List ℕ → Res) : Res :=
  match r with
  | .fin vars fl none => k vars fl
  | r => r

/-- at most `n` rounds of a loop -/
def iter (c : (ℕ → ℤ) → Option ℤ) (body : (ℕ → ℤ) → List ℕ → Res) : ℕ → (ℕ → ℤ) → List ℕ → Res
  | 0, _, _ => .stuck
  | n + 1, vars, fl => match c vars with
    | none => .trap
    | some v => if v = 0 then .fin vars fl none else (body vars fl).andThen (iter c body n)

mutual
/-- the execution of a program, each loop running at most `N` times -/
def exec (S : Sem) (inp : ℕ → ℤ) (N : ℕ) : Stmt → (ℕ → ℤ) → List ℕ → Res
  | .expr e, vars, fl => match eval S inp vars e with
    | none => .trap
    | some _ => .fin vars fl none
  | .assign _ v e, vars, fl => match eval S inp vars e with
    | none => .trap
    | some x => .fin (fun n => if n = v then x else vars n) fl none
  | .ret _ e, vars, fl => match eval S inp vars e with
    | none => .trap
    | some x => .fin vars fl (some x)
  | .raise _ x, vars, fl => .fin vars (x :: fl) none
  | .cond _ c t f, vars, fl => match eval S inp vars c with
    | none => .trap
    | some x => if x ≠ 0 then exec S inp N t vars fl else exec S inp N f vars fl
  | .switch _ c cases, vars, fl => match eval S inp vars c with
    | none => .trap
    | some x => execC S inp N cases x vars fl
  | .loop init c body, vars, fl => (exec S inp N init vars fl).andThen
      (iter (fun vars => eval S inp vars c) (exec S inp N body) N)
  | .block _ ss, vars, fl => execL S inp N ss vars fl
def execC (S : Sem) (inp : ℕ → ℤ) (N : ℕ) : List (ℤ × Stmt) → ℤ → (ℕ → ℤ) → List ℕ → Res
  | [], _, vars, fl => .fin vars fl none
  | (k, s) :: cs, x, vars, fl => if x = k then exec S inp N s vars fl else execC S inp N cs x vars fl
def execL (S : Sem) (inp : ℕ → ℤ) (N : ℕ) : List Stmt → (ℕ → ℤ) → List ℕ → Res
  | [], vars, fl => .fin vars fl none
  | s :: ss, vars, fl => (exec S inp N s vars fl).andThen (execL S inp N ss)
end

mutual
/-- the operation nodes of an expression -/
def nodes : Expr → List Expr
  | .op i f args => .op i f args :: nodesL args
  | _ => []
def nodesL : List Expr → List Expr
  | [] => []
  | e :: es => nodes e ++ nodesL es
end

mutual
/-- the operation nodes of a program -/
def Stmt.nodes : Stmt → List Expr
  | .expr e => Share.nodes e
  | .assign _ _ e => Share.nodes e
  | .ret _ e => Share.nodes e
  | .raise _ _ => []
  | .cond _ c t f => Share.nodes c ++ t.nodes ++ f.nodes
  | .switch _ c cases => Share.nodes c ++ casesNodes cases
  | .loop i c b => i.nodes ++ Share.nodes c ++ b.nodes
  | .block _ ss => stmtsNodes ss
def casesNodes : List (ℤ × Stmt) → List Expr
  | [] => []
  | (_, s) :: cs => s.nodes ++ casesNodes cs
def stmtsNodes : List Stmt → List Expr
  | [] => []
  | s :: ss => s.nodes ++ stmtsNodes ss
end

mutual
/-- the identities of the nodes that return a value or raise an exception -/
def Stmt.effects : Stmt → List ℕ
  | .ret i _ => [i]
  | .raise i _ => [i]
  | .cond _ _ t f => t.effects ++ f.effects
  | .switch _ _ cases => casesEffects cases
  | .loop i _ b => i.effects ++ b.effects
  | .block _ ss => stmtsEffects ss
  | _ => []
def casesEffects : List (ℤ × Stmt) → List ℕ
  | [] => []
  | (_, s) :: cs => s.effects ++ casesEffects cs
def stmtsEffects : List Stmt → List ℕ
  | [] => []
  | s :: ss => s.effects ++ stmtsEffects ss
end

mutual
/-- does the value depend on a variable that is not an input? -/
def hasVar : Expr → Bool
  | .inp _ => false
  | .var _ => true
  | .cst _ => false
  | .op _ _ args => hasVarL args
def hasVarL : List Expr → Bool
  | [] => false
  | e :: es => hasVar e || hasVarL es
end

mutual
/-- no operation in statement position depends on a variable that is not an input -/
def Stmt.clean : Stmt → Prop
  | .expr e => hasVar e = false
  | .cond _ _ t f => t.clean ∧ f.clean
  | .switch _ _ cases => casesClean cases
  | .loop i _ b => i.clean ∧ b.clean
  | .block _ ss => stmtsClean ss
  | _ => True
def casesClean : List (ℤ × Stmt) → Prop
  | [] => True
  | (_, s) :: cs => s.clean ∧ casesClean cs
def stmtsClean : List Stmt → Prop
  | [] => True
  | s :: ss => s.clean ∧ stmtsClean ss
end

end Verif.Share
