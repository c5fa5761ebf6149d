import Mathlib.Data.Nat.Notation
import Mathlib.Data.Int.Notation

/-! # Approximations

What is stored: polynomial approximations and their errors, over abstract numbers `V`, functions `F`, intervals `I`, formats `P` and indexings `X`.
Independent of the code. -/

namespace Verif.Axf

/-- A way to write the values of a type as text and to read them back. -/
structure Codec (α : Type) where
  str : α → String
  parse : String → Option α

/-- Reading what was written gives the value back. -/
def Codec.Faithful {α : Type} (c : Codec α) : Prop := ∀ a, c.parse (c.str a) = some a

inductive ErrKind | absolute | relative
deriving DecidableEq

structure ErrVal (V : Type) where
  kind : ErrKind
  value : V

/-- One polynomial approximation; `coeffs` is a dictionary. -/
structure Simple (V F I P : Type) where
  coeffs : List (ℕ × V)
  function : F
  degrees : List ℤ
  formats : List P
  interval : I
  error : ErrVal V

/-- A piecewise approximation with an indexing. -/
structure Split (V F I P X : Type) where
  offsetFct : String
  precision : P
  indexing : X
  maxDegree : ℤ
  error : ErrVal V
  tag : String
  pieces : List (Simple V F I P)
  odd : Bool
  even : Bool

/-- A piecewise approximation on equal sub-intervals. -/
structure Uniform (V F I P X : Type) where
  function : String
  precision : P
  interval : I
  num : ℤ
  maxDegree : ℤ
  error : ErrVal V
  odd : Bool
  even : Bool
  tag : String
  pieces : List (Simple V F I P)
  indexing : X

inductive Approx (V F I P X : Type)
  | simple (s : Simple V F I P)
  | split (s : Split V F I P X)
  | uniform (s : Uniform V F I P X)

/-- Equality of dictionaries: the same entries. -/
def SameDict {K V : Type} [BEq K] (a b : List (K × V)) : Prop := ∀ k, a.lookup k = b.lookup k

/-- Two polynomial approximations are the same. -/
def Simple.Same {V F I P : Type} (a b : Simple V F I P) : Prop :=
  SameDict a.coeffs b.coeffs ∧ a.function = b.function ∧ a.degrees = b.degrees ∧ a.formats = b.formats ∧ a.interval = b.interval ∧ a.error = b.error

def SamePieces {V F I P : Type} : List (Simple V F I P) → List (Simple V F I P) → Prop
  | [], [] => True
  | a :: l, b :: m => a.Same b ∧ SamePieces l m
  | _, _ => False

/-- Two approximations are the same. -/
def Approx.Same {V F I P X : Type} : Approx V F I P X → Approx V F I P X → Prop
  | .simple a, .simple b => a.Same b
  | .split a, .split b => a.offsetFct = b.offsetFct ∧ a.precision = b.precision ∧ a.indexing = b.indexing ∧ a.maxDegree = b.maxDegree ∧
      a.error = b.error ∧ a.tag = b.tag ∧ SamePieces a.pieces b.pieces ∧ a.odd = b.odd ∧ a.even = b.even
  | .uniform a, .uniform b => a.function = b.function ∧ a.precision = b.precision ∧ a.interval = b.interval ∧ a.num = b.num ∧
      a.maxDegree = b.maxDegree ∧ a.error = b.error ∧ a.odd = b.odd ∧ a.even = b.even ∧ a.tag = b.tag ∧ SamePieces a.pieces b.pieces ∧
      a.indexing = b.indexing
  | _, _ => False

end Verif.Axf
