import Verif.Interval.Spec
import Mathlib.Order.WithBot
import Mathlib.Algebra.Order.Ring.Rat

/-!
# Values of the expressions seen by the numerical simplification

Numbers are extended rationals (both infinities, no NaN: a value inside an interval is never NaN), booleans, and the trace of
side effects of statements.
-/

namespace Verif.Simplify
open Verif.Interval (Iv)

/-- Extended rationals. -/
abbrev E := WithBot (WithTop ℚ)

/-- A finite number. -/
def fin (q : ℚ) : E := ((q : WithTop ℚ) : WithBot (WithTop ℚ))
def plusInf : E := ((⊤ : WithTop ℚ) : WithBot (WithTop ℚ))
def minusInf : E := ⊥

/-- Value of a node: number, boolean or trace of effects. -/
inductive V where
  | num (x : E)
  | bool (b : Bool)
  | trace (l : List ℕ)
  deriving DecidableEq

/-- Comparison predicates. -/
inductive Cmp where
  | eq | ne | lt | le | gt | ge
  deriving DecidableEq, Repr

def Cmp.sem : Cmp → E → E → Bool
  | .eq, x, y => x = y
  | .ne, x, y => x ≠ y
  | .lt, x, y => x < y
  | .le, x, y => x ≤ y
  | .gt, x, y => y < x
  | .ge, x, y => y ≤ x

/-- Test predicates; `isSubnormal` knows the smallest normal magnitude and the bound the format reports for subnormals. -/
inductive Tst where
  | isZero
  | isSubnormal (minNormal maxSubnormal : ℚ)
  | isInfty | isInfOrNaN
  | other (f : E → Bool)

/-- Subnormal: non-zero and smaller in magnitude than the smallest normal number. -/
def IsSubnormal (minNormal : ℚ) (x : E) : Bool := x ≠ fin 0 ∧ fin (-minNormal) < x ∧ x < fin minNormal

def Tst.sem : Tst → E → Bool
  | .isZero, x => x = fin 0
  | .isSubnormal m _, x => IsSubnormal m x
  | .isInfty, x => x = plusInf ∨ x = minusInf
  | .isInfOrNaN, x => x = plusInf ∨ x = minusInf
  | .other f, x => f x

/-- Expressions with the interval attribute of each node.  `fixed` says that a number has a fixed-point format. -/
inductive Expr where
  | var (n : ℕ) (iv : Option (Iv E)) (fixed : Bool)
  | bvar (n : ℕ)
  | cst (x : E) (fixed : Bool)
  | bcst (b : Bool)
  | minOp (iv : Option (Iv E)) (fixed : Bool) (a b : Expr)
  | maxOp (iv : Option (Iv E)) (fixed : Bool) (a b : Expr)
  | mul (iv : Option (Iv E)) (fixed : Bool) (a b : Expr)
  | op2 (iv : Option (Iv E)) (fixed : Bool) (f : E → E → E) (a b : Expr)
  | select (iv : Option (Iv E)) (fixed : Bool) (c a b : Expr)
  | cmp (c : Cmp) (a b : Expr)
  | test (t : Tst) (a : Expr)
  | and (a b : Expr)
  | or (a b : Expr)
  | not (a : Expr)
  | act (n : ℕ)
  | stmt (a b : Expr)
  | block2 (pre c s : Expr)
  | block3 (pre c s t : Expr)

def V.toNum : V → E | .num x => x | _ => fin 0
def V.toBool : V → Bool | .bool b => b | _ => false
def V.toTrace : V → List ℕ | .trace l => l | _ => []

/-- Product of finite numbers (the simplification of products only concerns fixed-point operands, which are finite). -/
def mulE : E → E → E
  | some (some x), some (some y) => fin (x * y)
  | _, _ => fin 0

/-- Values of the free variables. -/
structure Env where
  num : ℕ → E
  bool : ℕ → Bool

def eval (ρ : Env) : Expr → V
  | .var n _ _ => .num (ρ.num n)
  | .bvar n => .bool (ρ.bool n)
  | .cst x _ => .num x
  | .bcst b => .bool b
  | .minOp _ _ a b => .num (min (eval ρ a).toNum (eval ρ b).toNum)
  | .maxOp _ _ a b => .num (max (eval ρ a).toNum (eval ρ b).toNum)
  | .mul _ _ a b => .num (mulE (eval ρ a).toNum (eval ρ b).toNum)
  | .op2 _ _ f a b => .num (f (eval ρ a).toNum (eval ρ b).toNum)
  | .select _ _ c a b => .num (if (eval ρ c).toBool then (eval ρ a).toNum else (eval ρ b).toNum)
  | .cmp c a b => .bool (c.sem (eval ρ a).toNum (eval ρ b).toNum)
  | .test t a => .bool (t.sem (eval ρ a).toNum)
  | .and a b => .bool ((eval ρ a).toBool && (eval ρ b).toBool)
  | .or a b => .bool ((eval ρ a).toBool || (eval ρ b).toBool)
  | .not a => .bool (!(eval ρ a).toBool)
  | .act n => .trace [n]
  | .stmt a b => .trace ((eval ρ a).toTrace ++ (eval ρ b).toTrace)
  | .block2 p c s => .trace ((eval ρ p).toTrace ++ if (eval ρ c).toBool then (eval ρ s).toTrace else [])
  | .block3 p c s t => .trace ((eval ρ p).toTrace ++ if (eval ρ c).toBool then (eval ρ s).toTrace else (eval ρ t).toTrace)

end Verif.Simplify
