import Mathlib.Data.Nat.Notation

/-!
# Specification for vectors of booleans (property C120)
-/

namespace Verif.Mask

/-- The comparisons of two vectors. -/
inductive Comp
  | eq | ne | le | lt | gt | ge
  deriving DecidableEq, Repr

/-- Equality and order of the elements.  Nothing is assumed about them: the equality of floating-point numbers is not reflexive. -/
structure Order (α : Type) where
  eq : α → α → Bool
  lt : α → α → Bool

/-- What a comparison says of two elements. -/
def Comp.holds {α : Type} (o : Order α) : Comp → α → α → Bool
  | .eq, a, b => o.eq a b
  | .ne, a, b => !(o.eq a b)
  | .le, a, b => o.lt a b || o.eq a b
  | .lt, a, b => o.lt a b
  | .gt, a, b => o.lt b a
  | .ge, a, b => o.lt b a || o.eq a b

/-- Vectors of booleans: comparisons of two variables, tests of a variable (not a number, infinite, zero, ...), logical
operations, vectors assembled from scalar booleans or from two shorter vectors. -/
inductive BExpr
  | cmp (c : Comp) (i j : ℕ)
  | test (t : ℕ) (i : ℕ)
  | scal (l : List ℕ)
  | not (a : BExpr)
  | and (a b : BExpr)
  | or (a b : BExpr)
  | join (a b : BExpr)

/-- The values of the variables. -/
structure Env (α : Type) where
  order : Order α
  vec : ℕ → List α
  tests : ℕ → α → Bool
  scal : ℕ → Bool

/-- What a vector of booleans means: one truth value for each lane. -/
def BExpr.truth {α : Type} (v : Env α) : BExpr → List Bool
  | .cmp c i j => List.zipWith (c.holds v.order) (v.vec i) (v.vec j)
  | .test t i => (v.vec i).map (v.tests t)
  | .scal l => l.map v.scal
  | .not a => (a.truth v).map fun b => !b
  | .and a b => List.zipWith (fun x y => x && y) (a.truth v) (b.truth v)
  | .or a b => List.zipWith (fun x y => x || y) (a.truth v) (b.truth v)
  | .join a b => a.truth v ++ b.truth v

/-- The tests of a whole vector of booleans. -/
inductive MaskTest
  | allZero | notAllZero | anyZero | notAnyZero
  deriving DecidableEq, Repr

/-- What they say of the truth values of the lanes. -/
def MaskTest.holds : MaskTest → List Bool → Prop
  | .allZero, l => ∀ b ∈ l, b = false
  | .notAllZero, l => ∃ b ∈ l, b = true
  | .anyZero, l => ∃ b ∈ l, b = false
  | .notAnyZero, l => ∀ b ∈ l, b = true

/-- No difference of two vectors is asked for. -/
def BExpr.noNe : BExpr → Bool
  | .cmp c _ _ => c != .ne
  | .test _ _ => true
  | .scal _ => true
  | .not a => a.noNe
  | .and a b => a.noNe && b.noNe
  | .or a b => a.noNe && b.noNe
  | .join a b => a.noNe && b.noNe

/-- Nothing is assembled from scalar booleans. -/
def BExpr.noScal : BExpr → Bool
  | .cmp _ _ _ => true
  | .test _ _ => true
  | .scal _ => false
  | .not a => a.noScal
  | .and a b => a.noScal && b.noScal
  | .or a b => a.noScal && b.noScal
  | .join a b => a.noScal && b.noScal

/-- What is negated is not assembled from scalar booleans. -/
def BExpr.noNotScal : BExpr → Bool
  | .cmp _ _ _ => true
  | .test _ _ => true
  | .scal _ => true
  | .not a => a.noScal
  | .and a b => a.noNotScal && b.noNotScal
  | .or a b => a.noNotScal && b.noNotScal
  | .join a b => a.noNotScal && b.noNotScal

end Verif.Mask
