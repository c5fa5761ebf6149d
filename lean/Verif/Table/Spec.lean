import Mathlib.Data.Rat.Floor

/-!
# Tables and table indices: what the properties talk about
-/

namespace Verif.Table

/-- The index tuples of a table with the given dimensions: one index per dimension, each below its size. -/
def InRange (dims idx : List ℕ) : Prop := List.Forall₂ (fun d i => i < d) dims idx

/-- Closed interval of rationals. -/
structure Ival where
  lo : ℚ
  hi : ℚ
  deriving DecidableEq, Repr

/-- Membership. -/
def Ival.Has (i : Ival) (x : ℚ) : Prop := i.lo ≤ x ∧ x ≤ i.hi

end Verif.Table
