import Mathlib.Algebra.Order.Field.Basic

/-!
# What intervals mean

An interval denotes the set of points between its two bounds, an interval list the union of its members.
Everything is generic in the ordered field of the bounds (rationals, reals).
-/

namespace Verif.Interval

variable {K : Type*}

/-- A closed interval given by its bounds. -/
structure Iv (K : Type*) where
  inf : K
  sup : K
  deriving DecidableEq, Repr

/-- Bounds in the right order (what the Sollya constructor accepts). -/
def Iv.Valid [LE K] (a : Iv K) : Prop := a.inf ≤ a.sup

/-- `x` is a point of the interval. -/
def Iv.Has [LE K] (a : Iv K) (x : K) : Prop := a.inf ≤ x ∧ x ≤ a.sup

/-- `x` is covered by the list of intervals. -/
def Covers [LE K] (l : List (Iv K)) (x : K) : Prop := ∃ a ∈ l, a.Has x

/-- Sorted and pairwise disjoint: every interval ends strictly before the next ones start. -/
def Separated [LT K] (l : List (Iv K)) : Prop := l.Pairwise (fun a b => a.sup < b.inf)

end Verif.Interval
