import Verif.Llvm.Spec

/-! # Model of the LLVM-IR backend: metalibm_core/targets/common/llvm_ir.py

The lines of LLVM-IR are kept with their mnemonics and literals. LLVM itself is external: `exec` gives the lines the meaning of the LLVM language reference, and no meaning to the lines it does not
accept. The casts between floating-point formats and integers of the same size are not modelled, and neither are the operations expanded by the legalizers of core/legalizer.py
(see C56 and the following ones), the fused operations excepted. -/

namespace Verif.Llvm

open Verif.Float (Fmt Val)
open Verif.Check (cLe cEq numOf)
open Verif.Elem

/-- operand: a register, by its rank (the operands first, then the results of the lines), or a literal -/
inductive Opd
  | reg (k : ℕ)
  | lit (s : String)
  deriving DecidableEq, Repr

/-- a line -/
inductive Line
  | bin (op : String) (ty : Ty) (a b : Opd)
  | cmp (op pred : String) (ty : Ty) (a b : Opd)
  | cast (op : String) (src : Ty) (a : Opd) (dst : Ty)
  | call (fn : String) (ret : Ty) (args : List (Ty × Opd))
  deriving DecidableEq, Repr

/-! ## LLVM -/

/-- a literal: a scalar; vectors need one literal for each lane -/
def litVal (t : Ty) (s : String) : Option (List Sc) :=
  match t.lanes, t.elt, s with
  | none, .i w, "0" => some [.i w 0]
  | none, .i w, "1" => some [.i w 1]
  | none, .f k, "0.0" => some [.f k .plusZero]
  | _, _, _ => none

/-- an operand read with a type; a register has one type -/
def opd (env : List (Ty × List Sc)) (t : Ty) : Opd → Option (List Sc)
  | .lit s => litVal t s
  | .reg k => match env[k]? with
    | some (t', d) => if t' = t then some d else none
    | none => none

/-- the binary instructions on a lane; a shift by the width or more is a poison value -/
noncomputable def bop (op : String) : Sc → Sc → Option Sc
  | .i w x, .i _ y => match op with
    | "add" => some (.i w ((x + y) % 2 ^ w))
    | "sub" => some (.i w ((x + (2 ^ w - y)) % 2 ^ w))
    | "mul" => some (.i w ((x * y) % 2 ^ w))
    | "and" => some (.i w (x &&& y))
    | "or" => some (.i w (x ||| y))
    | "xor" => some (.i w (x ^^^ y))
    | "shl" => if y < w then some (.i w ((x * 2 ^ y) % 2 ^ w)) else none
    | "lshr" => if y < w then some (.i w (x / 2 ^ y)) else none
    | _ => none
  | .f k a, .f _ b => match op with
    | "fadd" => some (.f k (fadd k.fmt a b))
    | "fsub" => some (.f k (fsub k.fmt a b))
    | "fmul" => some (.f k (fmul k.fmt a b))
    | _ => none
  | _, _ => none

/-- the predicates of `icmp` -/
def ipred (pred : String) (w x y : ℕ) : Option Bool :=
  match pred with
  | "eq" => some (x = y)
  | "ne" => some (x ≠ y)
  | "ugt" => some (y < x)
  | "uge" => some (y ≤ x)
  | "ult" => some (x < y)
  | "ule" => some (x ≤ y)
  | "sgt" => some (sval w y < sval w x)
  | "sge" => some (sval w y ≤ sval w x)
  | "slt" => some (sval w x < sval w y)
  | "sle" => some (sval w x ≤ sval w y)
  | _ => none

/-- the predicates of `fcmp` -/
def fpred (pred : String) (a b : Val) : Option Bool :=
  match pred with
  | "oeq" => some (cEq a b)
  | "ogt" => some (flt b a)
  | "oge" => some (cLe b a)
  | "olt" => some (flt a b)
  | "ole" => some (cLe a b)
  | "one" => some (flt a b || flt b a)
  | "ord" => some (!isNaN a && !isNaN b)
  | "ueq" => some (!(flt a b || flt b a))
  | "ugt" => some (!cLe a b)
  | "uge" => some (!flt a b)
  | "ult" => some (!cLe b a)
  | "ule" => some (!flt b a)
  | "une" => some (!cEq a b)
  | "uno" => some (isNaN a || isNaN b)
  | _ => none

/-- the comparisons on a lane -/
def cop (op pred : String) : Sc → Sc → Option Sc
  | .i w x, .i _ y => if op = "icmp" then (ipred pred w x y).map fun b => .i 1 b.toNat else none
  | .f _ a, .f _ b => if op = "fcmp" then (fpred pred a b).map fun b => .i 1 b.toNat else none
  | _, _ => none

/-- the integer part -/
def trunc (v : ℚ) : ℤ := if v < 0 then -⌊-v⌋ else ⌊v⌋

/-- the casts on a lane; `fptosi` drops the fractional part and gives a poison value out of the range -/
def castop (op : String) (dst : Elt) : Sc → Option Sc
  | .i w x => match op, dst with
    | "sext", .i w' => if w < w' then some (.i w' ((sval w x) % 2 ^ w').toNat) else none
    | _, _ => none
  | .f _ a => match op, dst with
    | "fptosi", .i w =>
      if isNaN a || isInf a then none
      else if -2 ^ (w - 1) ≤ trunc (numOf a) ∧ trunc (numOf a) < 2 ^ (w - 1) then some (.i w ((trunc (numOf a)) % 2 ^ w).toNat) else none
    | _, _ => none

/-- the bits of a vector of integers: the first lane is the least significant -/
def bits : List Sc → ℕ
  | [] => 0
  | .i w x :: l => x + 2 ^ w * bits l
  | .f _ _ :: l => bits l

/-- the intrinsic functions, with the mangled name of their type -/
noncomputable def intrinsic (fn : String) (ret : Ty) : List (List Sc) → Option (List Sc)
  | [[.f k a], [.f _ b], [.f _ c]] =>
    if (fn = "llvm.fma.f32" ∧ k = .single ∨ fn = "llvm.fma.f64" ∧ k = .double) ∧ ret = ⟨none, .f k⟩ then some [.f k (ffma k.fmt a b c)] else none
  | [[.f k a]] =>
    if (fn = "llvm.nearbyint.f32" ∧ k = .single ∨ fn = "llvm.nearbyint.f64" ∧ k = .double) ∧ ret = ⟨none, .f k⟩ then some [.f k (fnearest a)] else none
  | _ => none

/-- one line -/
noncomputable def exec (env : List (Ty × List Sc)) : Line → Option (Ty × List Sc)
  | .bin op ty a b => do
    let x ← opd env ty a
    let y ← opd env ty b
    let z ← (x.zip y).mapM fun p => bop op p.1 p.2
    return (ty, z)
  | .cmp op pred ty a b => do
    let x ← opd env ty a
    let y ← opd env ty b
    let z ← (x.zip y).mapM fun p => cop op pred p.1 p.2
    return (⟨ty.lanes, .i 1⟩, z)
  | .cast op src a dst => do
    let x ← opd env src a
    if op = "bitcast" then
      match dst with
      | ⟨none, .i w⟩ => return (dst, [.i w (bits x)])
      | _ => none
    else if src.lanes = dst.lanes then
      let z ← x.mapM (castop op dst.elt)
      return (dst, z)
    else none
  | .call fn ret args => do
    let xs ← args.mapM fun p => opd env p.1 p.2
    let z ← intrinsic fn ret xs
    return (ret, z)

/-- the lines in order: the last result -/
noncomputable def run : List Line → List (Ty × List Sc) → Option (Ty × List Sc)
  | [], env => env.getLast?
  | l :: ls, env => do
    let r ← exec env l
    run ls (env ++ [r])

/-! ## The table of the backend -/

inductive GErr | unsupported
  deriving DecidableEq, Repr

def bool : Ty := ⟨none, .i 1⟩
def i32 : Ty := ⟨none, .i 32⟩
def i64 : Ty := ⟨none, .i 64⟩
def i128 : Ty := ⟨none, .i 128⟩
def i256 : Ty := ⟨none, .i 256⟩
def f32 : Ty := ⟨none, .f .single⟩
def f64 : Ty := ⟨none, .f .double⟩
def vec (n : ℕ) (t : Ty) : Ty := ⟨some n, t.elt⟩

/-- the integer formats of the tables, e.g. llvm_ir.py:356-358 -/
def ints : List Ty := [i32, i64, vec 2 i32, vec 4 i32, vec 8 i32, vec 2 i64, vec 4 i64, vec 8 i64]

/-- the floating-point formats of the tables, e.g. llvm_ir.py:365-367 -/
def floats : List Ty := [f32, f64, vec 2 f32, vec 4 f32, vec 8 f32, vec 2 f64, vec 4 f64, vec 8 f64]

/-- the boolean formats of the tables, e.g. llvm_ir.py:421-422 -/
def bools : List Ty := [bool, vec 2 bool, vec 4 bool, vec 8 bool]

/-- `llvm_op_function`, llvm_ir.py:136-137 with 140-150 -/
def line2 (name : String) (t : Ty) : List Line := [.bin name t (.reg 0) (.reg 1)]

/-- an operation on formats of two lists, e.g. llvm_ir.py:346-371 -/
def arith (iname fname : String) (out : Ty) (ins : List Ty) : Except GErr (List Line) :=
  if ins = [out, out] then
    if out ∈ ints then .ok (line2 iname out) else if out ∈ floats then .ok (line2 fname out) else .error .unsupported
  else .error .unsupported

/-- an operation on the formats of a list, e.g. llvm_ir.py:393-408 -/
def only (l : List Ty) (name : String) (out : Ty) (ins : List Ty) : Except GErr (List Line) :=
  if ins = [out, out] ∧ out ∈ l then .ok (line2 name out) else .error .unsupported

/-- llvm_ir.py:193-225 `generate_comp_mapping`, with 129-134 -/
def comp (fdesc idesc : String) (out : Ty) : List Ty → Except GErr (List Line)
  | [a, b] =>
    if a ≠ b then .error .unsupported
    else if out ∈ [bool, i32] ∧ a ∈ [f32, f64] then .ok [.cmp "fcmp" fdesc a (.reg 0) (.reg 1)]
    else if out = vec 4 bool ∧ a ∈ [vec 4 f32, vec 4 f64] then .ok [.cmp "fcmp" fdesc a (.reg 0) (.reg 1)]
    else if out ∈ [bool, i32] ∧ a ∈ [i32, i64, i128, i256] then .ok [.cmp "icmp" idesc a (.reg 0) (.reg 1)]
    else if out = vec 4 bool ∧ a ∈ [vec 4 i32] then .ok [.cmp "icmp" idesc a (.reg 0) (.reg 1)]
    else .error .unsupported
  | _ => .error .unsupported

/-- llvm_ir.py:86-98 `llvm_negation_function` -/
def negation (t : Ty) (k : ℕ) : Line :=
  match t.elt with
  | .f _ => .bin "fsub" t (.lit "0.0") (.reg k)
  | .i _ => .bin "sub" t (.lit "0") (.reg k)

/-- llvm_ir.py:307-313: `llvm.fma` -/
def fmaLine (t : Ty) (a b c : ℕ) : Line := .call (if t = f32 then "llvm.fma.f32" else "llvm.fma.f64") t [(t, .reg a), (t, .reg b), (t, .reg c)]

/-- the line or the lines of an operation, `llvm_ir_code_generation_table` (llvm_ir.py:271-700), with core/legalizer.py:713-740 for the fused operations -/
def gen (op : Op) (out : Ty) (ins : List Ty) : Except GErr (List Line) :=
  match op with
  | .add => arith "add" "fadd" out ins
  | .sub => arith "sub" "fsub" out ins
  | .mul => arith "mul" "fmul" out ins
  | .neg => if ins = [out] ∧ (out ∈ ints ∨ out ∈ floats) then .ok [negation out 0] else .error .unsupported
  | .band => only ints "and" out ins
  | .shl => only ints "shl" out ins
  | .shr => only ints "lshr" out ins
  | .land => only bools "and" out ins
  | .lor => only bools "or" out ins
  -- llvm_ir.py:100-111 `llvm_not_function`
  | .lnot => if ins = [out] ∧ out ∈ bools then .ok [.bin "xor" out (.lit "1") (.reg 0)] else .error .unsupported
  -- llvm_ir.py:609-634
  | .ge => comp "oge" "ge" out ins
  | .gt => comp "ogt" "sgt" out ins
  | .lt => comp "olt" "slt" out ins
  | .le => comp "ole" "sle" out ins
  | .eq => comp "oeq" "eq" out ins
  | .ne => comp "ne" "ne" out ins
  -- llvm_ir.py:286-304
  | .nearest =>
    if out = i32 ∧ ins = [f32] then .ok [.cast "fptosi" f32 (.reg 0) i32]
    else if out = f32 ∧ ins = [f32] then .ok [.call "llvm.nearbyint.f32" f32 [(f32, .reg 0)]]
    else if out = i64 ∧ ins = [f64] then .ok [.cast "fptosi" f32 (.reg 0) i64]
    else if out = f64 ∧ ins = [f64] then .ok [.call "llvm.nearbyint.f64" f64 [(f64, .reg 0)]]
    else if out = vec 4 f32 ∧ ins = [vec 4 f32] then .ok [.call "llvm.nearbyint.f32" (vec 4 f32) [(vec 4 f32, .reg 0)]]
    else if out = vec 4 i32 ∧ ins = [vec 4 f32] then .ok [.cast "fptosi" (vec 4 f32) (.reg 0) (vec 4 i32)]
    else .error .unsupported
  -- llvm_ir.py:272-284
  | .convert =>
    if out = i64 ∧ ins = [i32] then .ok [.cast "sext" i32 (.reg 0) i64]
    else if out = vec 2 i32 ∧ ins = [vec 2 bool] ∨ out = vec 4 i32 ∧ ins = [vec 4 bool] ∨ out = vec 8 i32 ∧ ins = [vec 8 bool] then
      .ok [.cast "sext" ⟨out.lanes, .i 1⟩ (.reg 0) out]
    else .error .unsupported
  -- llvm_ir.py:305-344
  | .fma => if (out = f32 ∨ out = f64) ∧ ins = [out, out, out] then .ok [fmaLine out 0 1 2] else .error .unsupported
  | .fmaSub => if (out = f32 ∨ out = f64) ∧ ins = [out, out, out] then .ok [negation out 2, fmaLine out 0 1 3] else .error .unsupported
  | .fmaNeg => if (out = f32 ∨ out = f64) ∧ ins = [out, out, out] then .ok [fmaLine out 0 1 2, negation out 3] else .error .unsupported
  | .fmaSubNeg => if (out = f32 ∨ out = f64) ∧ ins = [out, out, out] then .ok [negation out 0, fmaLine out 3 1 2] else .error .unsupported

/-- `Test.IsMaskNotAnyZero`, llvm_ir.py:680-685, with 247-268 `legalize_vector_reduction_test`: the mask is extended to 32-bit lanes (281-282), cast to an integer and compared with 0 -/
def maskTest : List Line :=
  [.cast "sext" (vec 4 bool) (.reg 0) (vec 4 i32), .cast "bitcast" (vec 4 i32) (.reg 1) i128, .cmp "icmp" "eq" i128 (.reg 2) (.lit "0")]

end Verif.Llvm
