import Mathlib.Data.Real.Basic
import Mathlib.Analysis.SpecialFunctions.Log.Base

/-! # Specification vocabulary of the critical path report (property C91): the paths of a circuit -/

namespace Verif.Crit

/-- the operations whose delay depends on sizes, and those with a fixed delay -/
inductive Kind where
  /-- addition, subtraction, negation: size of the result -/
  | add (n : ℕ)
  /-- multiplication: sizes of the operands and of the result -/
  | mul (n m o : ℕ)
  /-- comparison: is it an (in)equality, size of the operands, size of the result -/
  | cmp (eq : Bool) (operand result : ℕ)
  /-- shift: size of the data, size of the amount -/
  | shift (data amount : ℕ)
  /-- any other operation -/
  | level (d : ℝ)

/-- expressions of a circuit: a constant, a signal, an operation (with its identity) -/
inductive N where
  | cst
  | sig (x : ℕ)
  | op (id : ℕ) (k : Kind) (args : List N)

/-- the circuit: signals and the expressions that drive them -/
abbrev Circuit := List (ℕ × N)

/-- the delays a signal can take to go from the start of a path to an expression: through the operations, and through the signals that are driven by expressions -/
inductive Path (delay : Kind → ℝ) (C : Circuit) : N → ℝ → Prop where
  | cst : Path delay C .cst 0
  | start (x : ℕ) : Path delay C (.sig x) 0
  | driven (x : ℕ) (e : N) (l : ℝ) : (x, e) ∈ C → Path delay C e l → Path delay C (.sig x) l
  | op (id : ℕ) (k : Kind) (args : List N) (a : N) (l : ℝ) : a ∈ args → Path delay C a l → Path delay C (.op id k args) (delay k + l)

mutual
/-- the signals of an expression -/
def N.sigs : N → List ℕ
  | .cst => []
  | .sig x => [x]
  | .op _ _ args => N.sigsL args
def N.sigsL : List N → List ℕ
  | [] => []
  | e :: es => N.sigs e ++ N.sigsL es
end

mutual
/-- the operation nodes of an expression -/
def N.ops : N → List N
  | .cst => []
  | .sig _ => []
  | .op i k args => .op i k args :: N.opsL args
def N.opsL : List N → List N
  | [] => []
  | e :: es => N.ops e ++ N.opsL es
end

/-- Every operation has an operand. -/
def Full (C : Circuit) : Prop := ∀ p ∈ C, ∀ i k args, N.op i k args ∈ p.2.ops → args ≠ []

/-- Two occurrences with the same identity are the same node. -/
def Same (C : Circuit) : Prop := ∀ p ∈ C, ∀ q ∈ C, ∀ i k args k' args', N.op i k args ∈ p.2.ops → N.op i k' args' ∈ q.2.ops → k = k' ∧ args = args'

/-- No expression reads a signal of the circuit that is driven. -/
def Flat (C : Circuit) : Prop := ∀ p ∈ C, ∀ q ∈ C, q.1 ∉ p.2.sigs

end Verif.Crit
