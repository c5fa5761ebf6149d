import Mathlib.Data.Nat.Notation

/-! # Expressions with scalar booleans and the width of their booleans -/

namespace Verif.SBool

/-- Boolean formats: without a chosen width (`ML_Bool`), or of `w` bits. -/
inductive BFmt
  | virtual
  | bits (w : ℕ)
  deriving DecidableEq

/-- Expressions.  Numbers of `w` bits are leaves, operations or selections; booleans are
variables, comparisons, connectives, negations, tests which the pass knows and other tests. -/
inductive Expr
  | num (w : ℕ)
  | op (w : ℕ) (a b : Expr)
  | sel (w : ℕ) (c a b : Expr)
  | bvar (f : BFmt)
  | cmp (f : BFmt) (a b : Expr)
  | conn (f : BFmt) (a b : Expr)
  | lnot (f : BFmt) (a : Expr)
  | test (f : BFmt) (a : Expr)
  | other (f : BFmt) (a : Expr)
  deriving DecidableEq

/-- The width of a format: `ML_Bool` is stored on 32 bits. -/
def BFmt.width : BFmt → ℕ
  | .virtual => 32
  | .bits w => w

def Expr.width : Expr → ℕ
  | .num w | .op w _ _ | .sel w _ _ _ => w
  | .bvar f | .cmp f _ _ | .conn f _ _ | .lnot f _ | .test f _ | .other f _ => f.width

/-- The expression without the formats of its booleans. -/
def erase : Expr → Expr
  | .num w => .num w
  | .op w a b => .op w (erase a) (erase b)
  | .sel w c a b => .sel w (erase c) (erase a) (erase b)
  | .bvar f => .bvar f
  | .cmp _ a b => .cmp .virtual (erase a) (erase b)
  | .conn _ a b => .conn .virtual (erase a) (erase b)
  | .lnot _ a => .lnot .virtual (erase a)
  | .test _ a => .test .virtual (erase a)
  | .other f a => .other f (erase a)

/-- The widths on which a boolean depends: those of the numbers, boolean variables and
typed booleans which its virtual operations combine. -/
def sources : Expr → List ℕ
  | .cmp .virtual a b | .conn .virtual a b => sources a ++ sources b
  | .lnot .virtual a | .test .virtual a => sources a
  | e => [e.width]

/-- The widths for which there is a boolean format. -/
def Standard (w : ℕ) : Prop := w = 8 ∨ w = 16 ∨ w = 32 ∨ w = 64

/-- The subexpressions. -/
inductive Sub : Expr → Expr → Prop
  | refl {e} : Sub e e
  | op1 {x w a b} : Sub x a → Sub x (.op w a b)
  | op2 {x w a b} : Sub x b → Sub x (.op w a b)
  | sel1 {x w c a b} : Sub x c → Sub x (.sel w c a b)
  | sel2 {x w c a b} : Sub x a → Sub x (.sel w c a b)
  | sel3 {x w c a b} : Sub x b → Sub x (.sel w c a b)
  | cmp1 {x f a b} : Sub x a → Sub x (.cmp f a b)
  | cmp2 {x f a b} : Sub x b → Sub x (.cmp f a b)
  | conn1 {x f a b} : Sub x a → Sub x (.conn f a b)
  | conn2 {x f a b} : Sub x b → Sub x (.conn f a b)
  | lnot {x f a} : Sub x a → Sub x (.lnot f a)
  | test {x f a} : Sub x a → Sub x (.test f a)
  | other {x f a} : Sub x a → Sub x (.other f a)

/-- An operation of a class which the pass knows and whose width is not chosen. -/
def Pending : Expr → Prop
  | .cmp f _ _ | .conn f _ _ | .lnot f _ | .test f _ => f = .virtual
  | _ => False

end Verif.SBool
