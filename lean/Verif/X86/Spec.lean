import Verif.Special.Spec

/-! # Vector comparisons and selections: what they mean, lane by lane, independently of the instructions -/

namespace Verif.X86

open Verif.Float (Fmt Val)
open Verif.Special

/-- the relations of a comparison -/
inductive Cmp
  | eq | ne | lt | le | gt | ge
  deriving DecidableEq, Repr

/-- element types of the vectors: integers of 32 and 64 bits and floating-point numbers -/
inductive Kind
  | i32 | u32 | f32 | i64 | u64
  deriving DecidableEq, Repr

/-- comparison of signed or unsigned integers -/
def Cmp.int (c : Cmp) (x y : ℤ) : Bool :=
  match c with
  | .eq => decide (x = y)
  | .ne => decide (x ≠ y)
  | .lt => decide (x < y)
  | .le => decide (x ≤ y)
  | .gt => decide (y < x)
  | .ge => decide (y ≤ x)

/-- C comparison of floating-point data (IEEE-754): every relation but `!=` is false on a NaN -/
def Cmp.flt (c : Cmp) (x y : Val) : Bool :=
  match c with
  | .eq => decide (eqSpec x y = .yes)
  | .ne => decide (neSpec x y = .yes)
  | .lt => decide (ltSpec x y = .yes)
  | .le => decide (leSpec x y = .yes)
  | .gt => decide (ltSpec y x = .yes)
  | .ge => decide (leSpec y x = .yes)

/-- the comparison of two lanes of `w` bits; `F` is the format of the floating-point lanes -/
def Kind.cmp (F : Fmt) {w : ℕ} (k : Kind) (c : Cmp) (x y : BitVec w) : Bool :=
  match k with
  | .i32 | .i64 => c.int x.toInt y.toInt
  | .u32 | .u64 => c.int x.toNat y.toNat
  | .f32 => c.flt (F.decode x.toNat) (F.decode y.toNat)

/-- conditions of a selection; the operands of the comparisons are the vectors of an environment, `var` is a vector of booleans -/
inductive Cond
  | cmp (k : Kind) (c : Cmp) (a b : ℕ)
  | not (a : Cond)
  | and (a b : Cond)
  | or (a b : Cond)
  | var (n : ℕ)
  deriving Repr

/-- truth of a condition in a lane; a boolean is true when its lane is not null -/
def Cond.holds (F : Fmt) {w : ℕ} (env : ℕ → BitVec w) : Cond → Bool
  | .cmp k c a b => k.cmp F c (env a) (env b)
  | .not a => !a.holds F env
  | .and a b => a.holds F env && b.holds F env
  | .or a b => a.holds F env || b.holds F env
  | .var n => env n != 0

/-- the mask of a truth value: every bit set, or clear -/
def mask (w : ℕ) (b : Bool) : BitVec w := if b then BitVec.allOnes w else 0

end Verif.X86
