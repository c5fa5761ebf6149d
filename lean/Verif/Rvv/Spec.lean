import Mathlib.Data.Rat.Floor
import Mathlib.Data.BitVec
import Mathlib.Data.Real.Basic
import Mathlib.Algebra.Order.Floor.Ring

/-! # What the vector operations mean, and what the intrinsics of the RISC-V vector extension are

One element width `w` (32 or 64) is fixed: each operation of the table relates vectors of elements of one width and of one group size. A lane holds a `BitVec w`;
a lane of a mask holds 1 or 0. -/

namespace Verif.Rvv

/-- the element types of a width: unsigned, signed, floating-point -/
inductive Kind | u | i | f
  deriving DecidableEq

/-- a vector of elements, one scalar, or a mask -/
inductive Fmt | vec (k : Kind) | sca (k : Kind) | mask
  deriving DecidableEq

/-- the operations (`fms` is `x*y - z`, `fnms` is `-x*y + z`; `cast` keeps the bits, `conv` keeps the number) -/
inductive Op | add | sub | mul | mod | and | or | fma | fms | fnms | neg | splat | sll | srl | sra | cast | conv | nearest | floor | trunc | select | gt | lt | eq
  | recip | abs | min | max
  deriving DecidableEq

/-- to nearest, ties to even -/
def rne (q : ℚ) : ℤ := if q - ⌊q⌋ < 1 / 2 then ⌊q⌋ else if 1 / 2 < q - ⌊q⌋ then ⌊q⌋ + 1 else if ⌊q⌋ % 2 = 0 then ⌊q⌋ else ⌊q⌋ + 1

/-- towards zero -/
def rtz (q : ℚ) : ℤ := if 0 ≤ q then ⌊q⌋ else ⌈q⌉

/-- The floating-point unit: its operations on the encodings, and `val`, the number an encoding stands for (`none`: an infinity or a NaN). What is assumed of it: the
commutations, the integers up to `2^p` are converted exactly and so are the others that have an encoding, and a number above `2^p` is an integer. -/
structure Fp (w : ℕ) where
  (add sub mul min max : BitVec w → BitVec w → BitVec w)
  fma : BitVec w → BitVec w → BitVec w → BitVec w
  (neg abs rec7 : BitVec w → BitVec w)
  less : BitVec w → BitVec w → Bool
  val : BitVec w → Option ℚ
  /-- the conversion to an integer of an infinity or a NaN -/
  special : BitVec w → BitVec w
  /-- the conversion of a signed integer -/
  ofInt : BitVec w → BitVec w
  /-- the conversion of an unsigned integer -/
  ofNat : BitVec w → BitVec w
  p : ℕ
  add_comm : ∀ x y, add x y = add y x
  mul_comm : ∀ x y, mul x y = mul y x
  min_comm : ∀ x y, min x y = min y x
  max_comm : ∀ x y, max x y = max y x
  fma_comm : ∀ x y z, fma x y z = fma y x z
  ofInt_small : ∀ n : BitVec w, |n.toInt| ≤ 2 ^ p → val (ofInt n) = some (n.toInt : ℚ)
  ofInt_exact : ∀ n y : BitVec w, val y = some (n.toInt : ℚ) → val (ofInt n) = some (n.toInt : ℚ)
  large : ∀ x q, val x = some q → 2 ^ p ≤ |q| → ∃ n : ℤ, q = n

variable {w : ℕ}

def bit (b : Bool) : BitVec w := if b then 1#w else 0#w

/-- the type of the elements an operation works on: the one of its first operand that is not a mask -/
def elt : List Fmt → Kind
  | .mask :: r => elt r
  | .vec k :: _ => k
  | .sca k :: _ => k
  | [] => .u

/-- a rounded number as a signed integer, if it is one of the type; C leaves the other cases undefined -/
def toSigned (r : ℚ → ℤ) (v : Option ℚ) : Option (BitVec w) :=
  v.bind fun q => if -2 ^ (w - 1) ≤ r q ∧ r q < 2 ^ (w - 1) then some (BitVec.ofInt w (r q)) else none

/-- What an operation yields in a lane, given its operands there (a scalar is the same in each lane). `none`: not defined, or described by another statement (the
roundings that yield a float). Integers wrap; `mod` is the C remainder; a shift amount is below the width. -/
def sem (P : Fp w) (op : Op) (k : Kind) (out : Fmt) : List (BitVec w) → Option (BitVec w)
  | [x] => match op with
    | .neg => some (if k = .f then P.neg x else -x)
    | .splat => some x
    | .cast => some x
    | .conv => match k, out with
      | .i, .vec .f => some (P.ofInt x)
      | .u, .vec .f => some (P.ofNat x)
      | .f, .vec .i => toSigned rtz (P.val x)
      | _, _ => none
    | .nearest => if out = .vec .i then toSigned rne (P.val x) else none
    | .floor => if out = .vec .i then toSigned Int.floor (P.val x) else none
    | .trunc => if out = .vec .i then toSigned rtz (P.val x) else none
    | .recip => some (P.rec7 x)
    | .abs => some (P.abs x)
    | _ => none
  | [x, y] => match op with
    | .add => some (if k = .f then P.add x y else x + y)
    | .sub => some (if k = .f then P.sub x y else x - y)
    | .mul => some (if k = .f then P.mul x y else x * y)
    | .mod => if y = 0 then none else some (if k = .i then BitVec.ofInt w (x.toInt.tmod y.toInt) else BitVec.ofNat w (x.toNat % y.toNat))
    | .and => some (x &&& y)
    | .or => some (x ||| y)
    | .sll => if y.toNat < w then some (x <<< y.toNat) else none
    | .srl => if y.toNat < w then some (x >>> y.toNat) else none
    | .sra => if y.toNat < w then some (x.sshiftRight y.toNat) else none
    | .gt => some (bit (P.less y x))
    | .lt => some (bit (P.less x y))
    | .eq => some (bit (decide (x = y)))
    | .min => some (match k with | .f => P.min x y | .i => if x.toInt ≤ y.toInt then x else y | .u => if x.toNat ≤ y.toNat then x else y)
    | .max => some (match k with | .f => P.max x y | .i => if x.toInt ≤ y.toInt then y else x | .u => if x.toNat ≤ y.toNat then y else x)
    | _ => none
  | [x, y, z] => match op with
    | .fma => some (P.fma x y z)
    | .fms => some (P.fma x y (P.neg z))
    | .fnms => some (P.fma (P.neg x) y z)
    | .select => some (if x = 0 then z else y)
    | _ => none
  | _ => none

/-- an expression of vector operations with their result formats -/
inductive Tm
  | opd (k : ℕ) (f : Fmt)
  | un (op : Op) (out : Fmt) (a : Tm)
  | bin (op : Op) (out : Fmt) (a b : Tm)
  | ter (op : Op) (out : Fmt) (a b c : Tm)

/-- the format of the result -/
def Tm.fmt : Tm → Fmt
  | .opd _ f => f
  | .un _ o _ => o
  | .bin _ o _ _ => o
  | .ter _ o _ _ _ => o

/-- what an expression yields in a lane -/
def den (P : Fp w) (ρ : ℕ → ℕ → BitVec w) (j : ℕ) : Tm → Option (BitVec w)
  | .opd k _ => some (ρ k j)
  | .un op out a => (den P ρ j a).bind fun x => sem P op (elt [a.fmt]) out [x]
  | .bin op out a b => (den P ρ j a).bind fun x => (den P ρ j b).bind fun y => sem P op (elt [a.fmt, b.fmt]) out [x, y]
  | .ter op out a b c => (den P ρ j a).bind fun x => (den P ρ j b).bind fun y => (den P ρ j c).bind fun z => sem P op (elt [a.fmt, b.fmt, c.fmt]) out [x, y, z]

/-- the rounding an operation does -/
def roundOf : Op → ℚ → ℤ
  | .nearest => rne
  | .floor => Int.floor
  | _ => rtz

/-! ## The intrinsics (RISC-V vector C intrinsics, version 0.10) -/

/-- the names without suffixes; `reinterpret k` has the suffix of its source first -/
inductive Base | fadd | add | fsub | sub | rem | remu | and | or | fmul | mul | fmadd | fmsub | fnmsub | fneg | neg | mvvx | fmvvf | sll | srl | sra | reinterpret (src : Kind)
  | cvtFX | cvtXF | cvtRtzXF | merge | fmerge | fgt | flt | seq | frec7 | fabs | fmin | fmax | min | max
  deriving DecidableEq

/-- `v<base>_vv_<k>`, or `v<base>_vx_<k>`, `v<base>_vf_<k>` where `vs` -/
structure Intr where
  base : Base
  vs : Bool
  k : Kind
  deriving DecidableEq

/-- the second or last operand of the form -/
def last (vs : Bool) (k : Kind) : Fmt := if vs then .sca k else .vec k

/-- the prototypes: the type of the result for operands of these types, `none` if the header declares no such function -/
def sig : Intr → List Fmt → Option Fmt
  | ⟨.fadd, s, .f⟩, l | ⟨.fsub, s, .f⟩, l | ⟨.fmul, s, .f⟩, l | ⟨.fmin, s, .f⟩, l | ⟨.fmax, s, .f⟩, l => if l = [.vec .f, last s .f] then some (.vec .f) else none
  | ⟨.add, s, k⟩, l | ⟨.sub, s, k⟩, l | ⟨.mul, s, k⟩, l | ⟨.and, s, k⟩, l | ⟨.or, s, k⟩, l => if k ≠ .f ∧ l = [.vec k, last s k] then some (.vec k) else none
  | ⟨.rem, s, .i⟩, l | ⟨.min, s, .i⟩, l | ⟨.max, s, .i⟩, l => if l = [.vec .i, last s .i] then some (.vec .i) else none
  | ⟨.remu, s, .u⟩, l => if l = [.vec .u, last s .u] then some (.vec .u) else none
  | ⟨.fmadd, s, .f⟩, l | ⟨.fmsub, s, .f⟩, l | ⟨.fnmsub, s, .f⟩, l => if l = [.vec .f, last s .f, .vec .f] then some (.vec .f) else none
  | ⟨.fneg, false, .f⟩, l | ⟨.fabs, false, .f⟩, l | ⟨.frec7, false, .f⟩, l => if l = [.vec .f] then some (.vec .f) else none
  | ⟨.neg, false, .i⟩, l => if l = [.vec .i] then some (.vec .i) else none
  | ⟨.mvvx, false, k⟩, l => if k ≠ .f ∧ l = [.sca k] then some (.vec k) else none
  | ⟨.fmvvf, false, .f⟩, l => if l = [.sca .f] then some (.vec .f) else none
  | ⟨.sll, true, k⟩, l => if k ≠ .f ∧ (l = [.vec k, .sca .u] ∨ l = [.vec k, .sca .i]) then some (.vec k) else none
  | ⟨.srl, true, .u⟩, l => if l = [.vec .u, .sca .u] ∨ l = [.vec .u, .sca .i] then some (.vec .u) else none
  | ⟨.sra, true, .i⟩, l => if l = [.vec .i, .sca .u] ∨ l = [.vec .i, .sca .i] then some (.vec .i) else none
  | ⟨.reinterpret k, false, k'⟩, l => if k ≠ k' ∧ l = [.vec k] then some (.vec k') else none
  | ⟨.cvtFX, false, .f⟩, l => if l = [.vec .i] then some (.vec .f) else none
  | ⟨.cvtXF, false, .i⟩, l | ⟨.cvtRtzXF, false, .i⟩, l => if l = [.vec .f] then some (.vec .i) else none
  | ⟨.merge, false, k⟩, l => if l = [.mask, .vec k, .vec k] then some (.vec k) else none
  | ⟨.fmerge, true, .f⟩, l => if l = [.mask, .vec .f, .sca .f] then some (.vec .f) else none
  | ⟨.fgt, s, .f⟩, l | ⟨.flt, s, .f⟩, l => if l = [.vec .f, last s .f] then some .mask else none
  | ⟨.seq, s, k⟩, l => if k ≠ .f ∧ l = [.vec k, last s k] then some .mask else none
  | _, _ => none

/-- the conversion of a float: it saturates -/
def cvt (P : Fp w) (r : ℚ → ℤ) (x : BitVec w) : BitVec w :=
  match P.val x with
  | some q => BitVec.ofInt w (max (-2 ^ (w - 1)) (min (2 ^ (w - 1) - 1) (r q)))
  | none => P.special x

/-- what the instruction does in a lane; the rounding mode is to nearest, ties to even; `vmerge` takes its second vector where the mask is set -/
def run (P : Fp w) (n : Base) : List (BitVec w) → BitVec w
  | [x] => match n with
    | .fneg => P.neg x
    | .neg => -x
    | .fabs => P.abs x
    | .frec7 => P.rec7 x
    | .cvtFX => P.ofInt x
    | .cvtXF => cvt P rne x
    | .cvtRtzXF => cvt P rtz x
    | _ => x
  | [x, y] => match n with
    | .fadd => P.add x y
    | .fsub => P.sub x y
    | .fmul => P.mul x y
    | .fmin => P.min x y
    | .fmax => P.max x y
    | .add => x + y
    | .sub => x - y
    | .mul => x * y
    | .and => x &&& y
    | .or => x ||| y
    | .rem => BitVec.ofInt w (x.toInt.tmod y.toInt)
    | .remu => BitVec.ofNat w (x.toNat % y.toNat)
    | .sll => x <<< (y.toNat % w)
    | .srl => x >>> (y.toNat % w)
    | .sra => x.sshiftRight (y.toNat % w)
    | .fgt => bit (P.less y x)
    | .flt => bit (P.less x y)
    | .seq => bit (decide (x = y))
    | .min => if x.toInt ≤ y.toInt then x else y
    | .max => if x.toInt ≤ y.toInt then y else x
    | _ => 0
  | [x, y, z] => match n with
    | .fmadd => P.fma x y z
    | .fmsub => P.fma x y (P.neg z)
    | .fnmsub => P.fma (P.neg x) y z
    | .merge => if x = 0 then y else z
    | .fmerge => if x = 0 then y else z
    | _ => 0
  | _ => 0

/-- C expressions made of intrinsics and of the operands of the operation -/
inductive Code
  | opd (k : ℕ)
  | c1 (n : Intr) (a : Code)
  | c2 (n : Intr) (a b : Code)
  | c3 (n : Intr) (a b c : Code)

/-- the C type of an expression; `none`: it does not compile -/
def typ (Γ : ℕ → Fmt) : Code → Option Fmt
  | .opd k => some (Γ k)
  | .c1 n a => (typ Γ a).bind fun x => sig n [x]
  | .c2 n a b => (typ Γ a).bind fun x => (typ Γ b).bind fun y => sig n [x, y]
  | .c3 n a b c => (typ Γ a).bind fun x => (typ Γ b).bind fun y => (typ Γ c).bind fun z => sig n [x, y, z]

/-- the value of an expression in a lane: an intrinsic called with the length `vl` leaves anything in the lanes from `vl`, a reinterpretation takes no length -/
def eval (P : Fp w) (vl : ℕ) (junk : Intr → ℕ → BitVec w) (ρ : ℕ → ℕ → BitVec w) : Code → ℕ → BitVec w
  | .opd k, j => ρ k j
  | .c1 n a, j => match n.base with
    | .reinterpret _ => eval P vl junk ρ a j
    | b => if j < vl then run P b [eval P vl junk ρ a j] else junk n j
  | .c2 n a b, j => if j < vl then run P n.base [eval P vl junk ρ a j, eval P vl junk ρ b j] else junk n j
  | .c3 n a b c, j => if j < vl then run P n.base [eval P vl junk ρ a j, eval P vl junk ρ b j, eval P vl junk ρ c j] else junk n j

/-- the formats for which the header declares no function that does the operation under the name of the signed or floating-point one: fused operations on integers, arithmetic
shift, minimum and maximum of unsigned, negation of unsigned to unsigned, conversion of unsigned -/
def noFunction (op : Op) (out : Fmt) (ins : List Fmt) : Bool :=
  (decide (op ∈ [Op.fma, .fms, .fnms]) && decide (elt ins ≠ .f)) || (decide (op ∈ [Op.sra, .min, .max]) && decide (elt ins = .u)) ||
  (decide (op = .neg) && decide (out = .vec .u)) || (decide (op = .conv) && decide (elt ins = .u))

end Verif.Rvv
