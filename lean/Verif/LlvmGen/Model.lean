import Verif.LlvmGen.Spec
import Verif.Lin.Model

/-! # Model of metalibm_core/code_generation/generators/llvm_ir_code_generator.py, `LLVMIRCodeGenerator.generate_expr`

Every operation of the graph is one instruction (what the instructions of the LLVM backend compute is property C113); formats are not modelled.  The register `%tag` of a variable
is named by the variable, the free names of the other results are numbered: names are assumed not to collide.  A `Return` node is not shared by two blocks.  Debug messages,
tables and vectors are not modelled. -/

namespace Verif.LlvmGen

open Verif.Lin (E Reg Opnd)

/-- `%r = f args` (llvm_ir_code_generator.py:422-424, 438-451) -/
structure Ins (V : Type) where
  r : Reg
  f : List V → V
  args : List (Opnd V)

/-- the end of a block: `br label`, `br i1 c, label, label` (321-344), `ret` -/
inductive TTerm (V : Type) where
  | br (b : ℕ)
  | cbr (c : Opnd V) (yes no : ℕ)
  | ret (o : Option (Opnd V))

/-- the text of a block: phi instructions, instructions, the end -/
structure TBlock (V : Type) where
  phis : List (Reg × List (Reg × ℕ))
  code : List (Ins V)
  term : TTerm V

/-- the state of the generator: the next free name, `generated_map` restricted to the operations (232-272) -/
structure St where
  next : ℕ
  memo : ℕ → Option Reg

/-- 226-249 `__init__` -/
def St.init : St := ⟨0, fun _ => none⟩

/-- code_generation/generator_utility.py, `result_varname`: `result_var` when there is one, else a free name -/
def name (rv : Option ℕ) (k : ℕ) : Reg :=
  match rv with
  | some x => .v x
  | none => .t k

mutual
/-- 289-437 `generate_expr` on an expression, `rv` is `result_var`: the operand and the instructions added -/
def gen {V : Type} : E V → Option ℕ → St → St × Opnd V × List (Ins V)
  -- 305-306
  | .var x, _, S => (S, .reg (.v x), [])
  -- 308-311
  | .cst c, _, S => (S, .cst c, [])
  -- 294-295, 422-427; generator_utility.py: the operands first, then the result in `result_var` or in a free name
  | .op i f args, rv, S =>
    match S.memo i with
    | some r => (S, .reg r, [])
    | none =>
      let q := genL args S
      let r := name rv q.1.next
      (⟨q.1.next + 1, Function.update q.1.memo i (some r)⟩, .reg r, q.2.2 ++ [⟨r, f, q.2.1⟩])
/-- the operands, in order -/
def genL {V : Type} : List (E V) → St → St × List (Opnd V) × List (Ins V)
  | [], S => (S, [], [])
  | e :: es, S =>
    let r := gen e none S
    let q := genL es r.1
    (q.1, r.2.1 :: q.2.1, r.2.2 ++ q.2.2)
end

/-- 389-420 `ReferenceAssign`: a constant is added to the constant 0 (`addz` is what this addition gives), the rest is generated with the variable as `result_var` -/
def genA {V : Type} (addz : V → V) (x : ℕ) : E V → St → St × List (Ins V)
  | .cst c, S => (S, [⟨.v x, fun _ => addz c, []⟩])
  | e, S =>
    let r := gen e (some x) S
    (r.1, r.2.2)

/-- 313-319 the assignments of a `BasicBlock` -/
def genBody {V : Type} (addz : V → V) : List (ℕ × E V) → St → St × List (Ins V)
  | [], S => (S, [])
  | (x, e) :: r, S =>
    let c := genA addz x e S
    let d := genBody addz r c.1
    (d.1, c.2 ++ d.2)

/-- 321-344 the branches; `Return` -/
def genT {V : Type} : Term V → St → St × List (Ins V) × TTerm V
  | .br b, S => (S, [], .br b)
  | .cbr c y z, S =>
    let r := gen c none S
    (r.1, r.2.2, .cbr r.2.1 y z)
  | .ret none, S => (S, [], .ret none)
  | .ret (some e), S =>
    let r := gen e none S
    (r.1, r.2.2, .ret (some r.2.1))

/-- 366-387 `PhiNode` -/
def genPhi (p : ℕ × List (ℕ × ℕ)) : Reg × List (Reg × ℕ) := (.v p.1, p.2.map fun q => (.v q.1, q.2))

/-- 313-319 `BasicBlock` -/
def genB {V : Type} (addz : V → V) (B : Block V) (S : St) : St × TBlock V :=
  let c := genBody addz B.body S
  let d := genT B.term c.1
  (d.1, ⟨B.phis.map genPhi, c.2 ++ d.2.1, d.2.2⟩)

/-- 346-349 `BasicBlockList`: the memoization is not cleared between the blocks -/
def genP {V : Type} (addz : V → V) : Prog V → St → St × List (ℕ × TBlock V)
  | [], S => (S, [])
  | p :: ps, S =>
    let c := genB addz p.2 S
    let d := genP addz ps c.1
    (d.1, (p.1, c.2) :: d.2)

/-- the code of a function -/
def generate {V : Type} (addz : V → V) (P : Prog V) : List (ℕ × TBlock V) := (genP addz P St.init).2

/-! ## What the generated text does -/

/-- the phi instructions of a block read their registers together -/
def exPhis {V : Type} (pred : ℕ) (σ : Reg → V) : List (Reg × List (Reg × ℕ)) → (Reg → V) → Except Reg (Reg → V)
  | [], acc => .ok acc
  | (x, src) :: r, acc =>
    match src.find? (fun p => p.2 == pred) with
    | some p => exPhis pred σ r (Function.update acc x (σ p.1))
    | none => .error x

/-- instructions, one after the other -/
def exI {V : Type} : List (Ins V) → (Reg → V) → (Reg → V)
  | [], σ => σ
  | i :: c, σ => exI c (Function.update σ i.r (i.f (i.args.map (Opnd.val σ))))

/-- the end of a block -/
def exT {V : Type} (truth : V → Bool) (σ : Reg → V) : TTerm V → Option V ⊕ ℕ
  | .br b => .inr b
  | .cbr c y z => .inr (if truth (c.val σ) then y else z)
  | .ret o => .inl (o.map (Opnd.val σ))

/-- the end of a run of the generated text -/
inductive TOut (V : Type) where
  | ret (v : Option V)
  | missing (b : ℕ)
  | nophi (r : Reg)

/-- the end of a run of the blocks, read in the generated text: the register of a variable has its name -/
def Out.text {V : Type} : Out V → TOut V
  | .ret v => .ret v
  | .missing b => .missing b
  | .nophi x => .nophi (.v x)

/-- the execution of the generated text; a register that was not defined holds what it held at the beginning -/
def runT {V : Type} (truth : V → Bool) (Q : List (ℕ × TBlock V)) : ℕ → ℕ → ℕ → (Reg → V) → Option (TOut V)
  | 0, _, _, _ => none
  | n + 1, pred, b, σ =>
    match (Q.find? (fun x => x.1 == b)).map Prod.snd with
    | none => some (.missing b)
    | some B =>
      match exPhis pred σ B.phis σ with
      | .error x => some (.nophi x)
      | .ok σ1 =>
        match exT truth (exI B.code σ1) B.term with
        | .inl v => some (.ret v)
        | .inr d => runT truth Q n b d (exI B.code σ1)

/-- the registers that the text defines, in the order of the text -/
def defs {V : Type} (Q : List (ℕ × TBlock V)) : List Reg := Q.flatMap fun p => p.2.phis.map Prod.fst ++ p.2.code.map Ins.r

end Verif.LlvmGen
