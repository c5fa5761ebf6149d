import Verif.Elem.Fp
import Mathlib.Algebra.Ring.Defs

/-! # Arithmetic expressions and their exact value, independently of the fusion

An expression is a tree; a node that is shared in the description appears as often as it is used. -/

namespace Verif.Fuse

/-- formats of the operations -/
inductive Prec
  | b32 | b64 | int (bits : ℕ)
  deriving DecidableEq, Repr

/-- metalibm_core/core/ml_operations.py:994-1024 the fused operations of three operands -/
inductive Spec
  | standard | subtract | negate | subtractNegate
  deriving DecidableEq, Repr

/-- metalibm_core/core/ml_operations.py:989-1100 the operations of the pass; `sum true` is a subtraction.  The flags are: of a product, `prevent_optimization`, a debug
display, `exact`; of a sum, `unbreakable` and `exact`; of a fused operation, `exact`.  `op1` and `op2` are the other operations, of any code. -/
inductive Expr
  | leaf (n : ℕ) (p : Prec)
  | mul (p : Prec) (noOpt debug ex : Bool) (a b : Expr)
  | sum (sub : Bool) (p : Prec) (unbr ex : Bool) (a b : Expr)
  | fma (s : Spec) (p : Prec) (ex : Bool) (a b c : Expr)
  | dot (sub : Bool) (p : Prec) (ex : Bool) (a b c d : Expr)
  | op1 (f : ℕ) (p : Prec) (a : Expr)
  | op2 (f : ℕ) (p : Prec) (a b : Expr)
  deriving Repr

/-- the value of a fused operation, as documented (ml_operations.py:995-1019) -/
def Spec.value {R : Type} [CommRing R] : Spec → R → R → R → R
  | .standard, a, b, c => a * b + c
  | .subtract, a, b, c => a * b - c
  | .negate, a, b, c => -(a * b) - c
  | .subtractNegate, a, b, c => -(a * b) + c

/-- the value of an expression without rounding, in any commutative ring (the reals, or the integers modulo a power of two) and for any meaning of the other operations -/
def Expr.exact {R : Type} [CommRing R] (env : ℕ → R) (o1 : ℕ → R → R) (o2 : ℕ → R → R → R) : Expr → R
  | .leaf n _ => env n
  | .mul _ _ _ _ a b => a.exact env o1 o2 * b.exact env o1 o2
  | .sum s _ _ _ a b => if s then a.exact env o1 o2 - b.exact env o1 o2 else a.exact env o1 o2 + b.exact env o1 o2
  | .fma s _ _ a b c => s.value (a.exact env o1 o2) (b.exact env o1 o2) (c.exact env o1 o2)
  | .dot s _ _ a b c d =>
    if s then a.exact env o1 o2 * b.exact env o1 o2 - c.exact env o1 o2 * d.exact env o1 o2 else a.exact env o1 o2 * b.exact env o1 o2 + c.exact env o1 o2 * d.exact env o1 o2
  | .op1 f _ a => o1 f (a.exact env o1 o2)
  | .op2 f _ a b => o2 f (a.exact env o1 o2) (b.exact env o1 o2)

end Verif.Fuse
