import Verif.Rvv.Spec

/-! # Model of the RISC-V vector backend (metalibm_core/targets/riscv)

The length operand, the same in each operation of an expression, is left out of the operand lists, as is the group size. -/

namespace Verif.Rvv

/-- what an entry of the table holds: an intrinsic (`flip`: the `arg_map` that swaps the operands 1 and 2), or a `ComplexOperator` with one of the modifiers -/
inductive Impl
  | call (b : Base) (vs : Bool) (k : Kind) (flip : Bool)
  | swap
  | splat (k : Kind) (n : ℕ)
  | castIn (k : Kind) (n : ℕ)
  | castBoth (k : Kind)
  | viaInt

structure Entry where
  op : Op
  out : Fmt
  ins : List Fmt
  impl : Impl

def ints : List Kind := [.u, .i]
def kinds : List Kind := [.u, .i, .f]

/-- an entry for a call without `arg_map` -/
def ent (op : Op) (out : Fmt) (ins : List Fmt) (b : Base) (vs : Bool) (k : Kind) : Entry := ⟨op, out, ins, .call b vs k false⟩

/-- `"f" if isinstance(eltType, ML_FP_Format) else ""` (riscv_vector.py:364) -/
def pick (k : Kind) (f x : Base) : Base := if k = .f then f else x

/-- riscv_vector.py:109-122 `RVV_castEltTypeMapping` -/
def castTo : Kind → List Kind
  | .i => [.f, .u]
  | .u => [.f, .i]
  | .f => [.u, .i]

/-- riscv_vector.py:314-359 -/
def addRows : List Entry :=
  [ent .add (.vec .f) [.vec .f, .vec .f] .fadd false .f, ent .add (.vec .f) [.vec .f, .sca .f] .fadd true .f] ++
  ints.map (fun k => ent .add (.vec k) [.vec k, .sca k] .add true k) ++ ints.map (fun k => ent .add (.vec k) [.vec k, .vec k] .add false k) ++
  kinds.map (fun k => ⟨.add, .vec k, [.sca k, .vec k], .swap⟩) ++
  [ent .mod (.vec .i) [.vec .i, .sca .i] .rem true .i, ent .mod (.vec .u) [.vec .u, .sca .u] .remu true .u]

/-- riscv_vector.py:360-379 -/
def subRows : List Entry :=
  kinds.map (fun k => ent .sub (.vec k) [.vec k, .vec k] (pick k .fsub .sub) false k) ++
  kinds.map (fun k => ent .sub (.vec k) [.vec k, .sca k] (pick k .fsub .sub) true k) ++ [⟨.sub, .vec .f, [.sca .f, .vec .f], .splat .f 0⟩]

/-- riscv_vector.py:380-407 -/
def logicRows : List Entry :=
  ints.map (fun k => ent .and (.vec k) [.vec k, .vec k] .and false k) ++ ints.map (fun k => ent .and (.vec k) [.vec k, .sca k] .and true k) ++
  ints.map (fun k => ent .or (.vec k) [.vec k, .vec k] .or false k) ++ ints.map (fun k => ent .or (.vec k) [.vec k, .sca k] .or true k)

/-- riscv_vector.py:408-433 -/
def mulRows : List Entry :=
  [ent .mul (.vec .f) [.vec .f, .vec .f] .fmul false .f, ent .mul (.vec .f) [.vec .f, .sca .f] .fmul true .f] ++
  kinds.map (fun k => ⟨.mul, .vec k, [.sca k, .vec k], .swap⟩) ++ ints.map (fun k => ent .mul (.vec k) [.vec k, .sca k] .mul true k)

/-- riscv_vector.py:434-493 -/
def fmaRows : List Entry :=
  kinds.map (fun k => ent .fma (.vec k) [.vec k, .vec k, .vec k] .fmadd false k) ++ kinds.map (fun k => ent .fma (.vec k) [.vec k, .sca k, .vec k] .fmadd true k) ++
  kinds.map (fun k => ⟨.fma, .vec k, [.sca k, .vec k, .vec k], .swap⟩) ++ kinds.map (fun k => ⟨.fma, .vec k, [.vec k, .sca k, .sca k], .splat k 2⟩) ++
  kinds.map (fun k => ⟨.fma, .vec k, [.vec k, .vec k, .sca k], .splat k 2⟩) ++
  kinds.map (fun k => ent .fms (.vec k) [.vec k, .vec k, .vec k] .fmsub false k) ++ kinds.map (fun k => ent .fms (.vec k) [.vec k, .sca k, .vec k] .fmsub true k) ++
  kinds.map (fun k => ent .fnms (.vec k) [.vec k, .vec k, .vec k] .fnmsub false k) ++ kinds.map (fun k => ent .fnms (.vec k) [.vec k, .sca k, .vec k] .fnmsub true k)

/-- riscv_vector.py:494-522 -/
def negRows : List Entry :=
  kinds.map (fun k => ent .neg (.vec k) [.vec k] (pick k .fneg .neg) false k) ++ [⟨.neg, .vec .i, [.vec .u], .castIn .i 0⟩] ++
  ints.map (fun k => ent .splat (.vec k) [.sca k] .mvvx false k) ++ [ent .splat (.vec .f) [.sca .f] .fmvvf false .f]

/-- riscv_vector.py:523-560 -/
def shiftRows : List Entry :=
  ints.map (fun k => ent .sll (.vec k) [.vec k, .sca k] .sll true k) ++
  [ent .srl (.vec .u) [.vec .u, .sca .u] .srl true .u, ent .srl (.vec .u) [.vec .u, .sca .i] .srl true .u, ⟨.srl, .vec .i, [.vec .i, .sca .i], .castBoth .u⟩] ++
  ints.map (fun k => ent .sra (.vec k) [.vec k, .sca k] .sra true k)

/-- riscv_vector.py:561-621 -/
def convRows : List Entry :=
  kinds.flatMap (fun k => (castTo k).map fun d => ent .cast (.vec d) [.vec k] (.reinterpret k) false d) ++
  ints.map (fun k => ent .conv (.vec .f) [.vec k] .cvtFX false .f) ++
  [ent .conv (.vec .i) [.vec .f] .cvtXF false .i, ent .nearest (.vec .i) [.vec .f] .cvtXF false .i, ⟨.nearest, .vec .f, [.vec .f], .viaInt⟩,
   ⟨.floor, .vec .f, [.vec .f], .viaInt⟩, ent .floor (.vec .i) [.vec .f] .cvtRtzXF false .i,
   ⟨.trunc, .vec .f, [.vec .f], .viaInt⟩, ent .trunc (.vec .i) [.vec .f] .cvtRtzXF false .i]

/-- riscv_vector.py:652-709 -/
def selectRows : List Entry :=
  kinds.map (fun k => ⟨.select, .vec k, [.mask, .vec k, .vec k], .call .merge false k true⟩) ++
  [⟨.select, .vec .f, [.mask, .vec .f, .sca .f], .splat .f 2⟩, ⟨.select, .vec .f, [.mask, .sca .f, .vec .f], .call .fmerge true .f true⟩,
   ⟨.select, .vec .f, [.mask, .sca .f, .sca .f], .splat .f 1⟩,
   ent .gt .mask [.vec .f, .sca .f] .fgt true .f, ent .gt .mask [.vec .f, .vec .f] .fgt false .f,
   ent .lt .mask [.vec .f, .sca .f] .flt true .f, ent .lt .mask [.vec .f, .vec .f] .flt false .f] ++
  ints.map (fun k => ent .eq .mask [.vec k, .sca k] .seq true k)

/-- riscv_vector.py:710-775 -/
def minRows : List Entry :=
  [ent .recip (.vec .f) [.vec .f] .frec7 false .f, ent .abs (.vec .f) [.vec .f] .fabs false .f,
   ent .min (.vec .f) [.vec .f, .vec .f] .fmin false .f, ent .min (.vec .f) [.vec .f, .sca .f] .fmin true .f] ++
  kinds.map (fun k => ⟨.min, .vec k, [.sca k, .vec k], .swap⟩) ++ ints.map (fun k => ent .min (.vec k) [.vec k, .sca k] .min true k) ++
  [ent .max (.vec .f) [.vec .f, .vec .f] .fmax false .f, ent .max (.vec .f) [.vec .f, .sca .f] .fmax true .f] ++
  kinds.map (fun k => ⟨.max, .vec k, [.sca k, .vec k], .swap⟩) ++ ints.map (fun k => ent .max (.vec k) [.vec k, .sca k] .max true k)

/-- riscv_vector.py:296-787 `rvv64_CCodeGenTable`, the entries of `VLAOperation` except the loads and stores; they are tried in order -/
def table : List Entry := addRows ++ subRows ++ logicRows ++ mulRows ++ fmaRows ++ negRows ++ shiftRows ++ convRows ++ selectRows ++ minRows

/-- the entry found for an operation, by `type_strict_match` (abstract_backend.py:110-139) -/
def find (op : Op) (out : Fmt) (ins : List Fmt) : Option Impl := (table.find? fun e => decide (e.op = op ∧ e.out = out ∧ e.ins = ins)).map Entry.impl

/-- the expression of a call -/
def mk (n : Intr) : List Code → Option Code
  | [a] => some (.c1 n a)
  | [a, b] => some (.c2 n a b)
  | [a, b, c] => some (.c3 n a b c)
  | _ => none

/-- `arg_map={0: FO_Arg(0), 1: FO_Arg(2), 2: FO_Arg(1), 3: FO_Arg(3)}` (riscv_vector.py:655) -/
def flipArgs : List Code → List Code
  | [a, b, c] => [a, c, b]
  | l => l

/-- riscv_vector.py:218-232 `swapOperand(arity, {0: 1})` -/
def swapArgs {α : Type} : List α → List α
  | a :: b :: r => b :: a :: r
  | l => l

/-- `node.set_input(n, f(node.get_input(n)))` -/
def onArg (n : ℕ) (f : Fmt × Code → Option (Fmt × Code)) (l : List (Fmt × Code)) : Option (List (Fmt × Code)) :=
  (l[n]?).bind fun a => (f a).map fun b => l.set n b

/-- The expression generated for an operation whose operands have these formats and expressions: complex_generator.py:66-73 `generate_expr`, which generates the node that
the modifier returns (riscv_vector.py:197-280: `RVV_legalizeIntConversion`, `swapOperand`, `expandOpSplat`, `typeCastInput`, `typeCastOutput`). The operands are generated
first here; the expression of an operand does not depend on the node it is an operand of. -/
def emit : ℕ → Op → Fmt → List (Fmt × Code) → Option Code
  | 0, _, _, _ => none
  | n + 1, op, out, args => (find op out (args.map Prod.fst)).bind fun e =>
    match e with
    | .call b vs k fl => mk ⟨b, vs, k⟩ (if fl then flipArgs (args.map Prod.snd) else args.map Prod.snd)
    | .swap => emit n op out (swapArgs args)
    | .splat k m => (onArg m (fun a => (emit n .splat (.vec k) [a]).map fun c => (.vec k, c)) args).bind fun args' => emit n op out args'
    | .castIn k m => (onArg m (fun a => (emit n .cast (.vec k) [a]).map fun c => (.vec k, c)) args).bind fun args' => emit n op out args'
    | .castBoth k => (onArg 0 (fun a => (emit n .cast (.vec k) [a]).map fun c => (.vec k, c)) args).bind fun args' =>
        (emit n op (.vec k) args').bind fun c => emit n .cast out [(.vec k, c)]
    | .viaInt => (emit n op (.vec .i) args).bind fun c => emit n .conv out [(.vec .i, c)]

/-- the C expression of an expression; three levels of modifiers are enough for each operation of the table (`C124_compiles`) -/
def gen : Tm → Option Code
  | .opd k _ => some (.opd k)
  | .un op out a => (gen a).bind fun x => emit 4 op out [(a.fmt, x)]
  | .bin op out a b => (gen a).bind fun x => (gen b).bind fun y => emit 4 op out [(a.fmt, x), (b.fmt, y)]
  | .ter op out a b c => (gen a).bind fun x => (gen b).bind fun y => (gen c).bind fun z => emit 4 op out [(a.fmt, x), (b.fmt, y), (c.fmt, z)]

/-- rvv_legalization.py:96-104, riscv_vector.py:622-645: the byte address a lane of an indexed load reads, for a lane `i` of the index of width `w`.
The index is multiplied by the byte size of the elements of the index, in that type, and zero extended. -/
def loadAddr {w : ℕ} (base : ℕ) (i : BitVec w) : ℕ := base + (i * BitVec.ofNat w (w / 8)).toNat

/-- rvv_table.py:52-66 -/
def rec7Data : List ℕ :=
  [127, 125, 123, 121, 119, 117, 116, 114, 112, 110, 109, 107, 105, 104, 102, 100, 99, 97, 96, 94, 93, 91, 90, 88, 87, 85, 84, 83, 81, 80, 79, 77, 76, 75, 74, 72,
   71, 70, 69, 68, 66, 65, 64, 63, 62, 61, 60, 59, 58, 57, 56, 55, 54, 53, 52, 51, 50, 49, 48, 47, 46, 45, 44, 43, 42, 41, 40, 40, 39, 38, 37, 36, 35, 35, 34, 33,
   32, 31, 31, 30, 29, 28, 28, 27, 26, 25, 25, 24, 23, 23, 22, 21, 21, 20, 19, 19, 18, 17, 17, 16, 15, 15, 14, 14, 13, 12, 12, 11, 11, 10, 9, 9, 8, 8, 7, 7, 6, 5,
   5, 4, 4, 3, 3, 2, 2, 1, 1, 0]

/-- rvv_table.py:45-68 `rvv_vfrec7_table_ctor`: the entries -/
def rec7Table : List ℚ := rec7Data.map fun v : ℕ => (1 + (v : ℚ) / 128) / 2

end Verif.Rvv
