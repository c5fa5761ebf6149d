import Verif.Names.Model
import Mathlib.Data.Rat.Defs
import Mathlib.Algebra.Order.Field.Power
import Mathlib.Algebra.Order.Field.Basic
import Mathlib.Algebra.Order.Ring.Rat

/-!
# Specification for the evaluation errors (property C117)

An operation graph computes a number in floating-point arithmetic, and the same graph stands for a number in exact
arithmetic. The evaluation error is the difference. Both evaluations are defined here, on the graph, without reference to
the generation of a Gappa script.
-/

namespace Verif.Gappa

open Verif.Names (Name)

/-- The precision of a node: one of the two floating-point formats, or exact. -/
inductive Prec | b32 | b64 | exact
deriving DecidableEq, Repr

/-- Number of significant bits of a floating-point format. -/
def Prec.bits : Prec → ℕ | .b32 => 24 | .b64 => 53 | .exact => 0

/-- Exponent of the least positive number of a floating-point format. -/
def Prec.low : Prec → ℤ | .b32 => -149 | .b64 => -1074 | .exact => 0

/-- `x` is a number of the format (the largest exponent is not bounded: overflow is not considered). -/
def Grid (p : Prec) (x : ℚ) : Prop := ∃ m e : ℤ, x = m * (2 : ℚ) ^ e ∧ |m| < 2 ^ p.bits ∧ p.low ≤ e

/-- The roundings of a machine: to each floating-point format and to an integer. -/
structure Rnd where
  fp : Prec → ℚ → ℚ
  int : ℚ → ℚ

/-- What is required of roundings: the result is in the format, and numbers of the format are kept. -/
def Rnd.Ok (R : Rnd) : Prop := ∀ p, p ≠ .exact → ∀ x, Grid p (R.fp p x) ∧ (Grid p x → R.fp p x = x)

/-- Rounding to the precision of a node. -/
def Rnd.to (R : Rnd) (p : Prec) (x : ℚ) : ℚ := if p = .exact then x else R.fp p x

inductive Op2 | add | sub | mul | div
deriving DecidableEq, Repr

def Op2.on : Op2 → ℚ → ℚ → ℚ
  | .add, x, y => x + y
  | .sub, x, y => x - y
  | .mul, x, y => x * y
  | .div, x, y => x / y

/-- The four fused operations. -/
inductive Fma | std | negate | sub | subNegate
deriving DecidableEq, Repr

def Fma.on : Fma → ℚ → ℚ → ℚ → ℚ
  | .std, x, y, z => x * y + z
  | .negate, x, y, z => -(x * y + z)
  | .sub, x, y, z => x * y - z
  | .subNegate, x, y, z => -(x * y) + z

/-- An operation graph, unfolded: every node carries its identity (two occurrences of a shared node carry the same), its
precision and, for operations, its tag if it has one. -/
inductive E
  | var (id : ℕ) (tag : Name) (p : Prec)
  | cst (id : ℕ) (v : ℚ) (p : Prec)
  | bin (id : ℕ) (o : Op2) (p : Prec) (tag : Option Name) (a b : E)
  | fma (id : ℕ) (s : Fma) (p : Prec) (tag : Option Name) (a b c : E)
  | neg (id : ℕ) (p : Prec) (tag : Option Name) (a : E)
  | conv (id : ℕ) (p : Prec) (tag : Option Name) (a : E)
  | rint (id : ℕ) (p : Prec) (tag : Option Name) (a : E)
deriving DecidableEq, Repr

def E.id : E → ℕ
  | .var i _ _ | .cst i _ _ | .bin i _ _ _ _ _ | .fma i _ _ _ _ _ _ | .neg i _ _ _ | .conv i _ _ _ | .rint i _ _ _ => i

/-- What the machine computes, from the numbers `A` in the variables. -/
def machine (R : Rnd) (A : ℕ → ℚ) : E → ℚ
  | .var i _ _ => A i
  | .cst _ v p => R.to p v
  | .bin _ o p _ a b => R.to p (o.on (machine R A a) (machine R A b))
  | .fma _ s p _ a b c => R.to p (s.on (machine R A a) (machine R A b) (machine R A c))
  | .neg _ p _ a => R.to p (-machine R A a)
  | .conv _ p _ a => R.to p (machine R A a)
  | .rint _ _ _ a => R.int (machine R A a)

/-- What the graph stands for, from the numbers `X` that the variables stand for. -/
def exact (R : Rnd) (X : ℕ → ℚ) : E → ℚ
  | .var i _ _ => X i
  | .cst _ v _ => v
  | .bin _ o _ _ a b => o.on (exact R X a) (exact R X b)
  | .fma _ s _ _ a b c => s.on (exact R X a) (exact R X b) (exact R X c)
  | .neg _ _ _ a => -exact R X a
  | .conv _ _ _ a => exact R X a
  | .rint _ _ _ a => R.int (exact R X a)

/-- The absolute or the relative difference between what is computed and what is meant. -/
def difference (relative : Bool) (computed meant : ℚ) : ℚ :=
  if relative then (computed - meant) / meant else computed - meant

/-- What the machine computes, but for the rounding of the last operation. -/
def beforeLast (R : Rnd) (A : ℕ → ℚ) : E → ℚ
  | .bin _ o _ _ a b => o.on (machine R A a) (machine R A b)
  | .fma _ s _ _ a b c => s.on (machine R A a) (machine R A b) (machine R A c)
  | .neg _ _ _ a => -machine R A a
  | e => machine R A e

/-- What is known of a variable: its interval and, when the machine only has an approximation of it, the largest absolute
error of that approximation. -/
structure Bnd where
  id : ℕ
  tag : Name
  p : Prec
  lo : ℚ
  hi : ℚ
  err : Option ℚ
deriving DecidableEq, Repr

/-- The machine's number `a` and the number `x` it stands for are as the bound says. -/
def Bnd.Allows (b : Bnd) (a x : ℚ) : Prop :=
  match b.err with
  | none => a = x ∧ b.lo ≤ a ∧ a ≤ b.hi ∧ (b.p ≠ .exact → Grid b.p a)
  | some e => b.lo ≤ x ∧ x ≤ b.hi ∧ |a - x| ≤ e

/-- Every occurrence of a node is the node with its identity. -/
def Shares (d : ℕ → E) : E → Prop
  | .var i t p => d i = .var i t p
  | .cst i v p => d i = .cst i v p
  | .bin i o p t a b => d i = .bin i o p t a b ∧ Shares d a ∧ Shares d b
  | .fma i s p t a b c => d i = .fma i s p t a b c ∧ Shares d a ∧ Shares d b ∧ Shares d c
  | .neg i p t a => d i = .neg i p t a ∧ Shares d a
  | .conv i p t a => d i = .conv i p t a ∧ Shares d a
  | .rint i p t a => d i = .rint i p t a ∧ Shares d a

/-- Every variable of the graph is one of the bounded variables. -/
def Bounded (bs : List Bnd) : E → Prop
  | .var i t p => ∃ b ∈ bs, b.id = i ∧ b.tag = t ∧ b.p = p
  | .cst _ _ _ => True
  | .bin _ _ _ _ a b => Bounded bs a ∧ Bounded bs b
  | .fma _ _ _ _ a b c => Bounded bs a ∧ Bounded bs b ∧ Bounded bs c
  | .neg _ _ _ a | .conv _ _ _ a | .rint _ _ _ a => Bounded bs a

/-- The operations for which the evaluation error is computed correctly: addition, subtraction, multiplication, the fused
operations and the rounding to an integer in floating-point precision, on constants that are numbers of their format. -/
def Plain : E → Prop
  | .var _ _ _ => True
  | .cst _ v p => p ≠ .exact → Grid p v
  | .bin _ o _ _ a b => o ≠ .div ∧ Plain a ∧ Plain b
  | .fma _ _ _ _ a b c => Plain a ∧ Plain b ∧ Plain c
  | .neg _ _ _ _ => False
  | .conv _ _ _ _ => False
  | .rint _ p _ a => p ≠ .exact ∧ Plain a

end Verif.Gappa
