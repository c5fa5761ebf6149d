import Verif.VecTable.Spec

/-!
# Model of the C code generation table for vectors (property C121)

Files: metalibm_core/targets/common/vector_backend.py (`vector_c_code_generation_table`), metalibm_core/support_lib/ml_support_lib.h.

Modelled: arithmetic, bitwise operations, shifts, fused multiply-add, conversions, casts, rounding, absolute value, exponents and mantissas, table accesses.
Not modelled here: comparisons, logical operations, selections and tests (property C120), assembling and element selection, multi-precision vectors, minimum and
maximum.  The loads and stores are those from and to tables; those with pointers use the same code.
-/

namespace Verif.VecTable

/-- Operators of C, applied to vectors by the compiler -/
inductive Sym
  | plus | minus | star | slash | percent | amp | bar | caret | tilde | shl | shr | neg
  deriving DecidableEq, Repr

/-- Functions and casts that the loops apply to a lane (the cast to the type of a lane is `cast`); `assign`: none; `item1`, `item2`: an item of a table -/
inductive CFn
  | fabsf | fabs | truncf | trunc | floor | clz | toBits32 | fromBits32 | toBits64 | fromBits64 | cast (s : Sc) | assign | item1 | item2
  deriving DecidableEq, Repr

/-- A function of ml_support_lib.h: the types of the result and of the arguments, the number of iterations of its loop and the function it applies to a lane -/
structure Lib where
  res : VFmt
  args : List VFmt
  count : ℕ
  fn : Fn
  deriving DecidableEq, Repr

/-- What the table gives for an operation -/
inductive Impl
  | sym (s : Sym)
  | loop (c : CFn) (count : ℕ)
  | call (f : Lib)
  | memcpy (bytes : ℕ)
  deriving DecidableEq, Repr

/-- An entry of the table -/
structure Entry where
  op : VOp
  out : VFmt
  ins : List VFmt
  impl : Impl
  deriving DecidableEq, Repr

/-! ## What the implementations compute -/

/-- ml_support_lib.h:248-287: the vector types exist for 2, 4 and 8 lanes; there is no `ml_float3_t` -/
def typeExists (f : VFmt) : Bool := f.n = 2 ∨ f.n = 4 ∨ f.n = 8

/-- The meaning of an operator on vectors in C: `>>` fills with the sign bit for signed lanes and with zeros for unsigned ones.  `percent` and the bitwise
operators are for integers. -/
def symFn (s : Sym) (in0 : Sc) : Fn :=
  match s with
  | .plus => .add
  | .minus => .sub
  | .star => .mul
  | .slash => .div
  | .percent => .mod
  | .amp => .band
  | .bar => .bor
  | .caret => .bxor
  | .tilde => .bnot
  | .shl => .shl
  | .shr => if in0.signed then .sra else .srl
  | .neg => .neg

/-- The meaning of a function of C for a lane of format `i` and a result lane of format `o`; `none`: not one of the functions of the specification.
ml_support_lib.h:92-115 for the encodings: the integer of the same width with the same bits.  A cast between integers of the same width keeps the bits.
`floor` of a `float` is computed in double precision and is exact. -/
def cFn (c : CFn) (i o : Sc) : Option Fn :=
  match c with
  | .fabsf => if i = .f32 ∧ o = .f32 then some .abs else none
  | .fabs => if i = .f64 ∧ o = .f64 then some .abs else none
  | .truncf => if i = .f32 ∧ o = .f32 then some .trunc else none
  | .trunc => if i = .f64 ∧ o = .f64 then some .trunc else none
  | .floor => if i = o ∧ (o = .f32 ∨ o = .f64) then some .floor else none
  | .clz => if i = .u32 ∧ o = .u32 then some .clz else none
  | .toBits32 => if i = .f32 ∧ (o = .i32 ∨ o = .u32) then some .bits else none
  | .fromBits32 => if o = .f32 ∧ (i = .i32 ∨ i = .u32) then some .bits else none
  | .toBits64 => if i = .f64 ∧ (o = .i64 ∨ o = .u64) then some .bits else none
  | .fromBits64 => if o = .f64 ∧ (i = .i64 ∨ i = .u64) then some .bits else none
  | .cast s => if o = s ∧ i.bytes = s.bytes ∧ (i.signed || i.unsigned) ∧ (s.signed || s.unsigned) then some .bits else none
  | .assign => some .conv
  | .item1 => some .load1
  | .item2 => some .load2

/-- ml_support_lib.h:335-339 `VECTORIZE_OP1`, 351-378 the loops of the functions, 1112-1120 `ML_VLOAD`, `ML_VLOAD2D`, `ML_VCONV`: the first `count` lanes of the
result are written, the others keep what was there before (`old`).  `none`: lanes beyond the end of the vectors are written. -/
def runLoop {V : Type} (sem : Sem V) (old : ℕ → V) (f : Fn) (count : ℕ) (out : VFmt) (ins : List VFmt) (args : List (ℕ → V)) : Option (ℕ → V) :=
  if count ≤ out.n then
    some fun i => if i < count then sem f (ins.map (·.sc)) out.sc (args.map fun a => a i) else old i
  else none

/-- The result of the generated code for an operation.  `none`: the code is not valid (a type does not exist, the types of a function are not those of the
operation) or its behaviour is not defined. -/
def run {V : Type} (sem : Sem V) (old : ℕ → V) (e : Entry) (args : List (ℕ → V)) : Option (ℕ → V) :=
  if typeExists e.out && e.ins.all typeExists then
    match e.impl with
    | .sym s => some fun i => sem (symFn s (e.ins.head?.map (·.sc) |>.getD e.out.sc)) (e.ins.map (·.sc)) e.out.sc (args.map fun a => a i)
    | .loop c count =>
      match cFn c (e.ins.head?.map (·.sc) |>.getD e.out.sc) e.out.sc with
      | some f => runLoop sem old f count e.out e.ins args
      | none => none
    | .call f => if f.res = e.out ∧ f.args = e.ins then runLoop sem old f.fn f.count e.out e.ins args else none
    | .memcpy bytes => if bytes % e.out.sc.bytes = 0 then runLoop sem old .copy (bytes / e.out.sc.bytes) e.out e.ins args else none
  else none

/-! ## The table -/

/-- vector_backend.py:83 `supported_vector_size` -/
def sizes : List ℕ := [2, 3, 4, 8]

/-- vector_backend.py:678-685 `BASIC_INTEGER_VFORMAT_LIST` -/
def intFmts : List VFmt := [.i32, .u32, .i64, .u64].flatMap fun s => sizes.map fun n => ⟨s, n⟩

/-- vector_backend.py:687-692 `BASIC_VFORMAT_LIST` -/
def basicFmts : List VFmt := ([.f32, .f64].flatMap fun s => sizes.map fun n => ⟨s, n⟩) ++ intFmts

/-- The formats of a comprehension over scalar types and sizes -/
def fmts (l : List Sc) : List VFmt := l.flatMap fun s => sizes.map fun n => ⟨s, n⟩

/-- An operator with operands and result of the same format -/
def uniform (op : VOp) (arity : ℕ) (s : Sym) (l : List VFmt) : List Entry := l.map fun f => ⟨op, f, List.replicate arity f, .sym s⟩

/-- vector_backend.py:973-1044 (bitwise operations and shifts), 1072-1145 (arithmetic), 1301-1318 (negation) -/
def operators : List Entry :=
  uniform .bitAnd 2 .amp intFmts ++ uniform .bitOr 2 .bar intFmts ++ uniform .bitXor 2 .caret intFmts ++ uniform .bitNegate 1 .tilde intFmts ++
  uniform .shiftLeft 2 .shl intFmts ++ uniform .shiftRightLogic 2 .shr intFmts ++ uniform .shiftRightArith 2 .shr intFmts ++
  uniform .modulo 2 .percent intFmts ++ uniform .division 2 .slash basicFmts ++
  uniform .addition 2 .plus (fmts [.f32, .f64, .i32, .u32, .i64, .u64]) ++
  uniform .subtraction 2 .minus (fmts [.f32, .f64, .i32, .u32]) ++
  uniform .multiplication 2 .star (fmts [.f32, .f64, .i32, .u32]) ++
  uniform .negation 1 .neg (fmts [.f32, .f64, .i32, .u32, .i64, .u64])

/-- ml_support_lib.h:351-357 `DEF_ML_VECTOR_PRIMITIVES_FUNC3` with 471-496: `ml_vfma`, `ml_vfms`, `ml_vfmsn` for the formats `f`, `d` and the sizes 2, 4, 8 -/
def fmaLib (fn : Fn) (s : Sc) (n : ℕ) : Lib := ⟨⟨s, n⟩, [⟨s, n⟩, ⟨s, n⟩, ⟨s, n⟩], n, fn⟩

/-- An entry for a fused operation with the library function of `m` lanes -/
def fmaEntry (op : VOp) (fn : Fn) (s : Sc) (n m : ℕ) : Entry := ⟨op, ⟨s, n⟩, [⟨s, n⟩, ⟨s, n⟩, ⟨s, n⟩], .call (fmaLib fn s m)⟩

/-- vector_backend.py:1146-1194 -/
def fused : List Entry :=
  [fmaEntry .fma .fma .f32 2 2, fmaEntry .fma .fma .f32 4 4, fmaEntry .fma .fma .f32 8 8, fmaEntry .fma .fma .f64 4 4, fmaEntry .fma .fma .f64 8 8,
   fmaEntry .fmaSubtract .fms .f32 2 2, fmaEntry .fmaSubtract .fms .f32 3 4, fmaEntry .fmaSubtract .fms .f32 4 4, fmaEntry .fmaSubtract .fms .f32 8 8,
   fmaEntry .fmaSubtract .fms .f64 4 4, fmaEntry .fmaSubtract .fms .f64 8 8,
   fmaEntry .fmaSubtractNegate .fmsn .f32 2 2, fmaEntry .fmaSubtractNegate .fmsn .f32 3 4, fmaEntry .fmaSubtractNegate .fmsn .f32 4 4,
   fmaEntry .fmaSubtractNegate .fmsn .f32 8 8, fmaEntry .fmaSubtractNegate .fmsn .f64 4 4, fmaEntry .fmaSubtractNegate .fmsn .f64 8 8]

/-- ml_support_lib.h:931-994 `DEF_ML_VECTOR_NONUN_FUNC_OP1`: a function of `n` lanes -/
def lib1 (fn : Fn) (r a : Sc) (n : ℕ) : Lib := ⟨⟨r, n⟩, [⟨a, n⟩], n, fn⟩

/-- An entry with one argument -/
def e1 (op : VOp) (r a : Sc) (n : ℕ) (i : Impl) : Entry := ⟨op, ⟨r, n⟩, [⟨a, n⟩], i⟩

/-- vector_backend.py:1195-1248 (exponents and mantissas), 1249-1275 (nearest integer) -/
def library : List Entry :=
  [e1 .exponentInsertion .f32 .i32 2 (.call (lib1 .expIns .f32 .i32 2)), e1 .exponentInsertion .f32 .i32 4 (.call (lib1 .expIns .f32 .i32 4)),
   e1 .exponentInsertion .f32 .i32 8 (.call (lib1 .expIns .f32 .i32 8)), e1 .exponentInsertion .f64 .i64 4 (.call (lib1 .expIns .f64 .i64 4)),
   e1 .exponentInsertion .f64 .i64 8 (.call (lib1 .expIns .f64 .i64 8)),
   e1 .exponentExtraction .i32 .f32 2 (.call (lib1 .expExt .i32 .f32 2)), e1 .exponentExtraction .i32 .f32 3 (.call (lib1 .expExt .i32 .f32 4)),
   e1 .exponentExtraction .i32 .f32 4 (.call (lib1 .expExt .i32 .f32 4)), e1 .exponentExtraction .i32 .f32 8 (.call (lib1 .expExt .i32 .f32 8)),
   e1 .exponentExtraction .i32 .f64 4 (.call (lib1 .expExt .i64 .f64 4)), e1 .exponentExtraction .i32 .f64 8 (.call (lib1 .expExt .i64 .f64 8)),
   e1 .exponentExtraction .i64 .f64 4 (.call (lib1 .expExt .i64 .f64 4)), e1 .exponentExtraction .i64 .f64 8 (.call (lib1 .expExt .i64 .f64 8)),
   e1 .mantissaExtraction .f32 .f32 2 (.call (lib1 .mant .f32 .f32 2)), e1 .mantissaExtraction .f32 .f32 4 (.call (lib1 .mant .f32 .f32 4)),
   e1 .mantissaExtraction .f32 .f32 8 (.call (lib1 .mant .f32 .f32 8)), e1 .mantissaExtraction .f64 .f64 4 (.call (lib1 .mant .f64 .f64 4)),
   e1 .mantissaExtraction .f64 .f64 8 (.call (lib1 .mant .f64 .f64 8)),
   e1 .nearestInteger .i32 .f32 2 (.call (lib1 .nearest .i32 .f32 2)), e1 .nearestInteger .i32 .f32 4 (.call (lib1 .nearest .i32 .f32 4)),
   e1 .nearestInteger .i32 .f32 8 (.call (lib1 .nearest .i32 .f32 8)),
   e1 .nearestInteger .f32 .f32 2 (.call (lib1 .rint .f32 .f32 2)), e1 .nearestInteger .f32 .f32 3 (.call (lib1 .rint .f32 .f32 4)),
   e1 .nearestInteger .f32 .f32 4 (.call (lib1 .rint .f32 .f32 4)), e1 .nearestInteger .f32 .f32 8 (.call (lib1 .rint .f32 .f32 8)),
   e1 .nearestInteger .i64 .f64 4 (.call (lib1 .nearest .i64 .f64 4)), e1 .nearestInteger .i64 .f64 8 (.call (lib1 .nearest .i64 .f64 8)),
   e1 .nearestInteger .f64 .f64 2 (.call (lib1 .rint .f64 .f64 2)), e1 .nearestInteger .f64 .f64 4 (.call (lib1 .rint .f64 .f64 4)),
   e1 .nearestInteger .f64 .f64 8 (.call (lib1 .rint .f64 .f64 8))]

/-- vector_backend.py:1276-1300 (floor), 1367-1373 (leading zeros), 1374-1397 (absolute value), 1398-1413 (truncation) -/
def loops : List Entry :=
  [e1 .floor .f32 .f32 2 (.loop .floor 2), e1 .floor .f32 .f32 4 (.loop .floor 4), e1 .floor .f32 .f32 8 (.loop .floor 8),
   e1 .floor .f64 .f64 2 (.loop .floor 2), e1 .floor .f64 .f64 4 (.loop .floor 4), e1 .floor .f64 .f64 8 (.loop .floor 8),
   e1 .countLeadingZeros .u32 .u32 4 (.loop .clz 4),
   e1 .abs .f32 .f32 2 (.loop .fabsf 2), e1 .abs .f32 .f32 3 (.loop .fabsf 3), e1 .abs .f32 .f32 4 (.loop .fabsf 4), e1 .abs .f32 .f32 8 (.loop .fabsf 8),
   e1 .abs .f64 .f64 2 (.loop .fabs 2), e1 .abs .f64 .f64 3 (.loop .fabs 3), e1 .abs .f64 .f64 4 (.loop .fabs 4), e1 .abs .f64 .f64 8 (.loop .fabs 8),
   e1 .trunc .f32 .f32 2 (.loop .truncf 2), e1 .trunc .f32 .f32 3 (.loop .truncf 3), e1 .trunc .f32 .f32 4 (.loop .truncf 4), e1 .trunc .f32 .f32 8 (.loop .truncf 8),
   e1 .trunc .f64 .f64 2 (.loop .trunc 2), e1 .trunc .f64 .f64 3 (.loop .trunc 3), e1 .trunc .f64 .f64 4 (.loop .trunc 4), e1 .trunc .f64 .f64 8 (.loop .trunc 8)]

/-- A conversion with `ML_VCONV` -/
def vconv (r a : Sc) (n count : ℕ) : Entry := e1 .conversion r a n (.loop .assign count)

/-- vector_backend.py:1319-1366 -/
def conversions : List Entry :=
  [vconv .u32 .i32 2 2, vconv .i32 .u32 2 2, vconv .f32 .i32 2 2, vconv .i32 .f32 2 2,
   vconv .u32 .i32 4 4, vconv .i32 .u32 4 4, vconv .f32 .i32 4 4, vconv .i32 .f32 4 4,
   vconv .u32 .i32 8 8, vconv .i32 .u32 8 8, vconv .f32 .i32 8 8, vconv .i32 .f32 8 8,
   vconv .i64 .i32 8 8,
   vconv .f64 .f32 2 2, vconv .f32 .f64 2 2, vconv .f32 .f64 4 4, vconv .f64 .f32 4 4,
   vconv .f64 .i64 4 4, vconv .f64 .i64 8 8, vconv .i64 .f64 4 4, vconv .i64 .f64 8 8, vconv .f64 .i32 8 8,
   vconv .u32 .u64 4 4, vconv .i64 .i32 4 4, vconv .f64 .i32 4 4, vconv .u32 .u64 8 4, vconv .i64 .i32 8 4]

/-- A cast with `VECTORIZE_OP1` -/
def vcast (r a : Sc) (n : ℕ) (c : CFn) (count : ℕ) : Entry := e1 .typeCast r a n (.loop c count)

/-- vector_backend.py:1414-1478.  The first two entries are the functions `v4si_cast2_v4sf` and `v4sf_cast2_v4si` (ml_support_lib.h:341-349), which read the other field of a union -/
def casts : List Entry :=
  [e1 .typeCast .f32 .i32 4 (.call (lib1 .bits .f32 .i32 4)), e1 .typeCast .i32 .f32 4 (.call (lib1 .bits .i32 .f32 4)),
   vcast .f32 .i32 3 .fromBits32 4, vcast .i32 .f32 3 .toBits32 4, vcast .f32 .i32 2 .fromBits32 2, vcast .i32 .f32 2 .toBits32 2,
   vcast .f32 .i32 4 .fromBits32 4, vcast .i32 .f32 4 .toBits32 4, vcast .f32 .u32 4 .fromBits32 4, vcast .u32 .f32 4 .toBits32 4,
   vcast .f32 .u32 2 .fromBits32 2, vcast .u32 .f32 2 .toBits32 2,
   vcast .u32 .i32 4 (.cast .u32) 4, vcast .i32 .u32 4 (.cast .i32) 4, vcast .u64 .i64 4 (.cast .u64) 4, vcast .i64 .u64 4 (.cast .i64) 4,
   vcast .i64 .f64 4 .toBits64 4, vcast .f64 .i64 4 .fromBits64 4, vcast .u64 .f64 4 .toBits64 4, vcast .f64 .u64 4 .fromBits64 4,
   vcast .i64 .f64 8 .toBits64 8, vcast .f64 .i64 8 .fromBits64 8, vcast .u64 .f64 8 .toBits64 8, vcast .f64 .u64 8 .fromBits64 8,
   vcast .u64 .i64 8 (.cast .u64) 4, vcast .i64 .u64 8 (.cast .i64) 4,
   vcast .f32 .i32 8 .fromBits32 8, vcast .i32 .f32 8 .toBits32 8, vcast .u32 .f32 8 .toBits32 8, vcast .f32 .u32 8 .fromBits32 8,
   vcast .u32 .i32 8 (.cast .u32) 4, vcast .i32 .u32 8 (.cast .i32) 4]

/-- `ML_VLOAD` -/
def vload (r i : Sc) (n count : ℕ) : Entry := ⟨.gather1, ⟨r, n⟩, [⟨i, n⟩], .loop .item1 count⟩

/-- `ML_VLOAD2D` -/
def vload2 (r i j : Sc) (n count : ℕ) : Entry := ⟨.gather2, ⟨r, n⟩, [⟨i, n⟩, ⟨j, n⟩], .loop .item2 count⟩

/-- a load or store of neighbours with `memcpy` -/
def copy (op : VOp) (s : Sc) (n bytes : ℕ) : Entry := ⟨op, ⟨s, n⟩, [⟨s, n⟩], .memcpy bytes⟩

/-- vector_backend.py:809-955 -/
def memory : List Entry :=
  [vload .f32 .i32 2 2, vload2 .f32 .i32 .i32 2 2, vload .f32 .i32 4 4, vload .f32 .i32 8 8, vload .f32 .u32 4 4, vload2 .f32 .i32 .i32 4 4,
   vload2 .f32 .i32 .i32 8 8, vload .f64 .i32 4 4, vload .f64 .i64 4 4, vload2 .f64 .i32 .i32 4 4, vload .f64 .i32 2 2, vload2 .f64 .i32 .i32 2 2,
   vload .f64 .u32 4 4, vload .f64 .i64 4 4, vload2 .f64 .u32 .u32 4 4, vload2 .f64 .i64 .i32 4 4, vload2 .f64 .i64 .i64 4 4,
   vload .f64 .i64 8 8, vload2 .f64 .i64 .i64 8 8, vload2 .f64 .i64 .i32 8 8, vload .f32 .u32 8 8, vload .f64 .u32 8 8,
   copy .load .i32 2 8, copy .load .i32 4 16, copy .load .i32 8 32, copy .load .f32 2 8, copy .load .f32 4 16, copy .load .f32 8 32,
   copy .load .i64 2 16, copy .load .i64 4 32, copy .load .i64 8 64, copy .load .f64 2 16, copy .load .f64 4 32, copy .load .f64 8 64,
   copy .store .i32 2 8, copy .store .i32 4 16, copy .store .i32 8 32, copy .store .f32 2 8, copy .store .f32 4 16, copy .store .f32 8 32,
   copy .store .f64 2 16, copy .store .f64 4 32, copy .store .f64 8 64]

/-- vector_backend.py:708-1700, the part modelled here -/
def table : List Entry := operators ++ fused ++ library ++ loops ++ conversions ++ casts ++ memory

/-- abstract_backend.py:110-140 `get_implementation`: the first entry of the table with the formats of the operation -/
def lookup (op : VOp) (out : VFmt) (ins : List VFmt) : Option Entry := table.find? fun e => e.op = op ∧ e.out = out ∧ e.ins = ins

end Verif.VecTable
