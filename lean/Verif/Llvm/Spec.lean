import Verif.Elem.Fp
import Verif.Check.Spec
import Mathlib.Data.Int.ModEq

/-! # What the operations of a scalar or vector graph compute

A datum is the list of its lanes; a scalar has one lane. An integer of `w` bits is given by its bits, as a number below `2 ^ w`; a boolean is an integer of one bit. -/

namespace Verif.Llvm

open Verif.Float (Fmt Val)
open Verif.Check (value)
open Verif.Elem

/-- binary32 and binary64 -/
inductive FK | single | double
  deriving DecidableEq, Repr

def FK.fmt : FK → Fmt
  | .single => ⟨8, 23⟩
  | .double => ⟨11, 52⟩

/-- format of a lane -/
inductive Elt
  | i (w : ℕ)
  | f (k : FK)
  deriving DecidableEq, Repr

/-- format: a vector has a number of lanes -/
structure Ty where
  lanes : Option ℕ
  elt : Elt
  deriving DecidableEq, Repr

/-- value of a lane -/
inductive Sc
  | i (w x : ℕ)
  | f (k : FK) (x : Val)
  deriving DecidableEq

/-- the lane has the format -/
def Sc.Has : Sc → Elt → Prop
  | .i w x, .i w' => w = w' ∧ x < 2 ^ w
  | .f k x, .f k' => k = k' ∧ k.fmt.Datum x
  | _, _ => False

/-- the datum has the format -/
def Has (d : List Sc) (t : Ty) : Prop := d.length = t.lanes.getD 1 ∧ ∀ s ∈ d, s.Has t.elt

/-- the operations -/
inductive Op
  | add | sub | mul | neg
  | band | shl | shr
  | land | lor | lnot
  | eq | ne | lt | le | gt | ge
  | nearest | convert
  | fma | fmaSub | fmaNeg | fmaSubNeg
  deriving DecidableEq, Repr

/-- the signed integer of `w` bits -/
def sval (w x : ℕ) : ℤ := if 2 * x < 2 ^ w then x else x - 2 ^ w

/-- `z` is the truth value of `p` -/
def Truth (p : Prop) : Sc → Prop
  | .i w z => w = 1 ∧ ((z = 1 ∧ p) ∨ (z = 0 ∧ ¬ p))
  | _ => False

/-- `z` are the `w` low bits of the integer `n` -/
def Low (w : ℕ) (n : ℤ) : Sc → Prop
  | .i w' z => w' = w ∧ z < 2 ^ w ∧ (z : ℤ) ≡ n [ZMOD 2 ^ w]
  | _ => False

/-- a comparison of two data of a floating-point format; a NaN is unordered -/
def Cmp (r : EReal → EReal → Prop) (a b : Val) : Prop := ∃ p q, value a = some p ∧ value b = some q ∧ r p q

/-- what an operation computes on one lane: integers of `w` bits wrap around and are compared as signed integers; floating-point numbers follow IEEE-754. `o` is the format of
the result. -/
def Lane (o : Elt) : Op → List Sc → Sc → Prop
  | .add, [.i w x, .i _ y], z => Low w (x + y) z
  | .sub, [.i w x, .i _ y], z => Low w (x - y) z
  | .mul, [.i w x, .i _ y], z => Low w (x * y) z
  | .neg, [.i w x], z => Low w (-x) z
  | .add, [.f k a, .f _ b], z => z = .f k (fadd k.fmt a b)
  | .sub, [.f k a, .f _ b], z => z = .f k (fsub k.fmt a b)
  | .mul, [.f k a, .f _ b], z => z = .f k (fmul k.fmt a b)
  | .neg, [.f k a], z => z = .f k (fneg a)
  | .band, [.i w x, .i _ y], z => z = .i w (x &&& y)
  | .shl, [.i w x, .i _ y], z => Low w (x * 2 ^ y) z
  | .shr, [.i w x, .i _ y], z => z = .i w (x / 2 ^ y)
  | .land, [.i _ x, .i _ y], z => Truth (x = 1 ∧ y = 1) z
  | .lor, [.i _ x, .i _ y], z => Truth (x = 1 ∨ y = 1) z
  | .lnot, [.i _ x], z => Truth (x = 0) z
  | .eq, [.i _ x, .i _ y], z => Truth (x = y) z
  | .ne, [.i _ x, .i _ y], z => Truth (x ≠ y) z
  | .lt, [.i w x, .i _ y], z => Truth (sval w x < sval w y) z
  | .le, [.i w x, .i _ y], z => Truth (sval w x ≤ sval w y) z
  | .gt, [.i w x, .i _ y], z => Truth (sval w y < sval w x) z
  | .ge, [.i w x, .i _ y], z => Truth (sval w y ≤ sval w x) z
  | .eq, [.f _ a, .f _ b], z => Truth (Cmp (· = ·) a b) z
  | .ne, [.f _ a, .f _ b], z => Truth (¬ Cmp (· = ·) a b) z
  | .lt, [.f _ a, .f _ b], z => Truth (Cmp (· < ·) a b) z
  | .le, [.f _ a, .f _ b], z => Truth (Cmp (· ≤ ·) a b) z
  | .gt, [.f _ a, .f _ b], z => Truth (Cmp (· > ·) a b) z
  | .ge, [.f _ a, .f _ b], z => Truth (Cmp (· ≥ ·) a b) z
  | .nearest, [.f k a], z => match o with
    | .f k' => z = .f k' (fnearest a) ∧ k' = k
    | .i w => Low w (nearestZ a) z
  | .convert, [.i w x], z => match o with
    | .i w' => Low w' (sval w x) z
    | _ => False
  | .fma, [.f k a, .f _ b, .f _ c], z => z = .f k (ffma k.fmt a b c)
  | .fmaSub, [.f k a, .f _ b, .f _ c], z => z = .f k (ffma k.fmt a b (fneg c))
  | .fmaNeg, [.f k a, .f _ b, .f _ c], z => z = .f k (fneg (ffma k.fmt a b c))
  | .fmaSubNeg, [.f k a, .f _ b, .f _ c], z => z = .f k (ffma k.fmt (fneg a) b c)
  | _, _, _ => False

/-- the datum of format `out` the operation computes from the operands: lane by lane -/
def Computes (op : Op) (out : Ty) (args : List (List Sc)) (r : List Sc) : Prop :=
  r.length = out.lanes.getD 1 ∧
    ∀ j : ℕ, j < out.lanes.getD 1 → ∃ (l : List Sc) (z : Sc), args.map (fun a => a[j]?) = l.map some ∧ r[j]? = some z ∧ Lane out.elt op l z

/-- the amounts of a shift are less than the width -/
def ShiftOk : Op → List (List Sc) → Prop
  | .shl, [_, b] => ∀ w y, Sc.i w y ∈ b → y < w
  | .shr, [_, b] => ∀ w y, Sc.i w y ∈ b → y < w
  | _, _ => True

/-- an integer format -/
def Ty.isInt (t : Ty) : Bool := match t.elt with | .i _ => true | .f _ => false

/-- the operations the backend implements: negations and complements of scalar integers and booleans, roundings to floating-point integers, comparisons with a boolean result but `!=` on
floating-point numbers and `>=` on integers, and no fused operation with a negation -/
def Covered (op : Op) (out : Ty) (ins : List Ty) : Bool :=
  match op with
  | .neg | .lnot => out.isInt && out.lanes = none
  | .nearest => !out.isInt && out.lanes = none
  | .lt | .le | .gt | .eq => out.elt = .i 1
  | .ne => out.elt = .i 1 && ins.all Ty.isInt
  | .ge => out.elt = .i 1 && ins.all fun t => !t.isInt
  | .fmaSub | .fmaNeg | .fmaSubNeg => false
  | _ => true

end Verif.Llvm
