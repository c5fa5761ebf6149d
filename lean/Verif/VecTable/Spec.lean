import Mathlib.Data.Nat.Notation

/-!
# Specification for the operations on vectors (property C121)
-/

namespace Verif.VecTable

/-- The formats of the lanes. -/
inductive Sc
  | f32 | f64 | i32 | u32 | i64 | u64
  deriving DecidableEq, Repr

/-- A vector format: the format of the lanes and their number. -/
structure VFmt where
  sc : Sc
  n : ℕ
  deriving DecidableEq, Repr

/-- Signed integers. -/
def Sc.signed : Sc → Bool
  | .i32 => true
  | .i64 => true
  | _ => false

/-- Unsigned integers. -/
def Sc.unsigned : Sc → Bool
  | .u32 => true
  | .u64 => true
  | _ => false

/-- Bytes of a lane. -/
def Sc.bytes : Sc → ℕ
  | .f32 => 4
  | .f64 => 8
  | .i32 => 4
  | .u32 => 4
  | .i64 => 8
  | .u64 => 8

/-- The scalar functions: arithmetic, bitwise operations, shifts to the right that fill with zeros (`srl`) or with the sign bit (`sra`), the three fused
operations a * b + c, a * b - c, c - a * b, conversion of the value and of the representation, the functions of numbers, access to a table with
one or two indices, and copy. -/
inductive Fn
  | add | sub | mul | div | mod | band | bor | bxor | bnot | shl | srl | sra | neg | fma | fms | fmsn | conv | bits | floor | trunc | abs | rint | nearest | clz
  | expIns | expExt | mant | load1 | load2 | copy
  deriving DecidableEq, Repr

/-- The operations on vectors. -/
inductive VOp
  | addition | subtraction | multiplication | division | modulo | bitAnd | bitOr | bitXor | bitNegate | shiftLeft | shiftRightLogic | shiftRightArith | negation
  | fma | fmaSubtract | fmaSubtractNegate | conversion | typeCast | floor | trunc | abs | nearestInteger | countLeadingZeros | exponentInsertion
  | exponentExtraction | mantissaExtraction | gather1 | gather2 | load | store
  deriving DecidableEq, Repr

/-- What an operation computes in each lane.  The nearest integer is either a floating-point number or an integer. -/
def VOp.fn (o : VOp) (out : Sc) : Fn :=
  match o with
  | .addition => .add
  | .subtraction => .sub
  | .multiplication => .mul
  | .division => .div
  | .modulo => .mod
  | .bitAnd => .band
  | .bitOr => .bor
  | .bitXor => .bxor
  | .bitNegate => .bnot
  | .shiftLeft => .shl
  | .shiftRightLogic => .srl
  | .shiftRightArith => .sra
  | .negation => .neg
  | .fma => .fma
  | .fmaSubtract => .fms
  | .fmaSubtractNegate => .fmsn
  | .conversion => .conv
  | .typeCast => .bits
  | .floor => .floor
  | .trunc => .trunc
  | .abs => .abs
  | .nearestInteger => if out = .f32 ∨ out = .f64 then .rint else .nearest
  | .countLeadingZeros => .clz
  | .exponentInsertion => .expIns
  | .exponentExtraction => .expExt
  | .mantissaExtraction => .mant
  | .gather1 => .load1
  | .gather2 => .load2
  | .load => .copy
  | .store => .copy

/-- The scalar functions, on values of any kind: the function, the formats of its arguments and of its result, the arguments.  Nothing is
assumed about them. -/
abbrev Sem (V : Type) := Fn → List Sc → Sc → List V → V

/-- The result `r` of an operation is right: each lane is the scalar function of the lanes of the arguments. -/
def Right {V : Type} (sem : Sem V) (o : VOp) (out : VFmt) (ins : List VFmt) (args : List (ℕ → V)) (r : ℕ → V) : Prop :=
  ∀ i < out.n, r i = sem (o.fn out.sc) (ins.map (·.sc)) out.sc (args.map fun a => a i)

end Verif.VecTable
