import Mathlib.Algebra.BigOperators.Group.List.Basic
import Mathlib.Algebra.Ring.Basic

/-!
# Values of arithmetic graphs and of polynomials
-/

namespace Verif.Poly

/-- Arithmetic graphs built by the generators, over a coefficient ring. -/
inductive Expr (K : Type) where
  | var (n : ℕ)
  | cst (c : K)
  | add (a b : Expr K)
  | sub (a b : Expr K)
  | mul (a b : Expr K)
  deriving DecidableEq, Repr

/-- Value of a graph in exact arithmetic. -/
def Expr.eval {K : Type} [CommRing K] (ρ : ℕ → K) : Expr K → K
  | .var n => ρ n
  | .cst c => c
  | .add a b => a.eval ρ + b.eval ρ
  | .sub a b => a.eval ρ - b.eval ρ
  | .mul a b => a.eval ρ * b.eval ρ

/-- Value at `x` of the polynomial with the monomials `c * X^i`, `(i, c)` in the list. -/
def polyValue {K : Type} [CommRing K] (m : List (ℕ × K)) (x : K) : K := (m.map fun p => p.2 * x ^ p.1).sum

end Verif.Poly
