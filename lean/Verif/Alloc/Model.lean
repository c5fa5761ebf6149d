import Verif.Alloc.Spec

/-! # Model of metalibm_core/code_generation/asmde_translator.py and metalibm_core/targets/common/dummy_asm_target.py

The allocator itself (the library asmde: live ranges, graph colouring, check of the colouring) is external: it receives the description of the program built by
`translate_to_asmde_program` and is only assumed to return a colouring that is valid for this description (`Valid`).  Every value fits one register: the pairs of registers
(dummy_asm_target.py:183-195) and the bundles are not modelled. The physical register of number `n` is written `.t n` in the final program. -/

namespace Verif.Alloc

open Verif.Lin

variable {V : Type}

inductive AErr
  | assertion | missingBlock | indexError
  deriving DecidableEq, Repr

/-- registers of asmde: physical ones (dummy_asm_target.py:147,151,170) and virtual ones (dummy_asm_target.py:181) -/
inductive AReg where
  | phys (n : ℕ)
  | virt (r : Reg)
  deriving DecidableEq

/-- asmde_translator.py:126-141 `generate_ABI_phys_input_regs`, `generate_ABI_phys_output_regs` with dummy_asm_target.py:134-174: the registers of the list are mapped, in order, to the physical
registers from number `n` on; an older mapping is replaced -/
def abi : List Reg → ℕ → (Reg → AReg) → Reg → AReg
  | [], _, m => m
  | r :: l, n, m => abi l (n + 1) (Function.update m r (.phys n))

/-- asmde_translator.py:28-45, 152-153: `ml_to_asmde_reg_map` once every register has been met; inputs first, then outputs; the others get a virtual register -/
def regMap (ins outs : List Reg) : Reg → AReg := abi outs 0 (abi ins 0 .virt)

/-- asmde.Instruction: `def_list` and `use_list` -/
structure AIns where
  defs : List AReg
  uses : List AReg

/-- asmde_translator.py:20-24 `extract_src_regs_from_node` -/
def srcs : List (Opnd V) → List Reg
  | [] => []
  | .reg r :: l => r :: srcs l
  | .cst _ :: l => srcs l

/-- asmde_translator.py:95-124 `generate_insn_from_node`, 181-216 for returns and branches: the condition of a branch must be a register (38) -/
def insn (m : Reg → AReg) : Ins V → Except AErr AIns
  | .op r _ args => .ok ⟨[m r], (srcs args).map m⟩
  | .copy r s => .ok ⟨[m r], [m s]⟩
  | .mat r _ => .ok ⟨[m r], []⟩
  | .store args => .ok ⟨[], (srcs args).map m⟩
  | .br _ => .ok ⟨[], []⟩
  | .cbr (.reg r) _ => .ok ⟨[], [m r]⟩
  | .cbr (.cst _) _ => .error .assertion
  | .ret => .ok ⟨[], []⟩

/-- a basic block of asmde: its instructions, its successors (194-205, 224-236; by position), whether the exit is one (187-188) -/
structure ABlock where
  code : List AIns
  succs : List ℕ
  exit : Bool

/-- 194-205 `destination_list` of the branches of a block -/
def dests : List (Ins V) → List ℕ
  | [] => []
  | .br b :: l => b :: dests l
  | .cbr _ b :: l => b :: dests l
  | _ :: l => dests l

/-- 180-188 -/
def hasRet : List (Ins V) → Bool
  | [] => false
  | .ret :: _ => true
  | _ :: l => hasRet l

/-- asmde.Program as it is built by asmde_translator.py:143-241 -/
structure Desc where
  blocks : List ABlock
  pre : List AReg
  post : List AReg

/-- the links of a block, 224-236 -/
def link (labels : List ℕ) (b : ℕ) : Except AErr ℕ := if b ∈ labels then .ok (labels.idxOf b) else .error .missingBlock

/-- one block, 174-222 -/
def block (m : Reg → AReg) (labels : List ℕ) (l : List (Ins V)) : Except AErr ABlock := do
  let c ← l.mapM (insn m)
  let s ← (dests l).mapM (link labels)
  return ⟨c, s, hasRet l⟩

/-- asmde_translator.py:143-241 `translate_to_asmde_program` -/
def translate (ins outs : List Reg) (Q : List (ℕ × List (Ins V))) : Except AErr Desc :=
  match Q with
  | [] => .error .indexError
  | _ => do
    let bs ← Q.mapM fun p => block (regMap ins outs) (Q.map Prod.fst) p.2
    return ⟨bs, (List.range ins.length).map .phys, (List.range outs.length).map .phys⟩

/-- a colouring that the allocator accepts (`check_liverange_map`, `create_conflict_map`, `check_color_map`, 243-263): physical registers keep their number; there are sets of live registers,
before every instruction, that contain what is read there and what is live after and not written; at the entry they only contain the arguments; a written register has not the colour
of another one that is live after -/
structure Valid (D : Desc) (color : AReg → ℕ) : Prop where
  phys : ∀ n, color (.phys n) = n
  live : ∃ L : ℕ → ℕ → AReg → Prop,
    (∀ k (B : ABlock) i (a : AIns), D.blocks[k]? = some B → B.code[i]? = some a →
      (∀ x ∈ a.uses, L k i x) ∧
      (∀ x, ((i + 1 < B.code.length ∧ L k (i + 1) x) ∨ (i + 1 = B.code.length ∧ ((∃ s ∈ B.succs, L s 0 x) ∨ (B.exit = true ∧ x ∈ D.post)))) →
        (x ∉ a.defs → L k i x) ∧ ∀ y ∈ a.defs, y ≠ x → color y ≠ color x)) ∧
    ∀ x, L 0 0 x → x ∈ D.pre

/-- operands with physical registers -/
def Opnd.map (ρ : Reg → Reg) : Opnd V → Opnd V
  | .reg r => .reg (ρ r)
  | .cst v => .cst v

/-- asmde_translator.py:47-93 `get_physical_reg` and `transform_to_physical_reg` on one instruction -/
def rename (ρ : Reg → Reg) : Ins V → Ins V
  | .op r f args => .op (ρ r) f (args.map (Opnd.map ρ))
  | .copy r s => .copy (ρ r) (ρ s)
  | .mat r v => .mat (ρ r) v
  | .store args => .store (args.map (Opnd.map ρ))
  | .br b => .br b
  | .cbr c b => .cbr (Opnd.map ρ c) b
  | .ret => .ret

/-- metalibm_core/opt/p_machine_code_gen.py:130-144 `Pass_RegisterAllocation.execute_on_graph`, with the colouring found by the allocator -/
def allocate (ins outs : List Reg) (color : AReg → ℕ) (Q : List (ℕ × List (Ins V))) : Except AErr (List (ℕ × List (Ins V))) := do
  let _ ← translate ins outs Q
  return Q.map fun p => (p.1, p.2.map (rename fun r => .t (color (regMap ins outs r))))

end Verif.Alloc
