import Verif.Lin.Spec

/-! # Model of metalibm_core/code_generation/machine_program_linearizer.py, `MachineInsnGenerator`

The register of a variable is named by the variable, the new registers are numbered.  Loads are operations like the others: the order of loads and stores of a same table is not
modelled; formats are not modelled. -/

namespace Verif.Lin

open Verif.Machine (Ctl)

/-- registers: of a variable (machine_program_linearizer.py:108-111), of an operation (99-106) -/
inductive Reg where
  | v (x : ℕ)
  | t (k : ℕ)
  deriving DecidableEq

/-- operands of the machine instructions -/
inductive Opnd (V : Type) where
  | reg (r : Reg)
  | cst (v : V)

/-- machine instructions: `RegisterAssign` of an operation, of a `RegisterCopy`, of a `MaterializeConstant`; a store; branches; the return -/
inductive Ins (V : Type) where
  | op (r : Reg) (f : List V → V) (args : List (Opnd V))
  | copy (r s : Reg)
  | mat (r : Reg) (v : V)
  | store (args : List (Opnd V))
  | br (b : ℕ)
  | cbr (c : Opnd V) (b : ℕ)
  | ret

inductive Err
  | nameError | keyError
  deriving DecidableEq, Repr

/-- the state of the generator: the next register, the registers of the operation nodes already met, the variables already read -/
structure St where
  next : ℕ
  memo : ℕ → Option ℕ
  seen : ℕ → Bool

/-- 71-86 `__init__` -/
def St.init : St := ⟨0, fun _ => none, fun _ => false⟩

mutual
/-- 129-284 `linearize_graph` on an expression: the operand and the instructions added to the current block -/
def lin {V : Type} : E V → St → St × Opnd V × List (Ins V)
  -- 145-147
  | .var x, S => ({ S with seen := Function.update S.seen x true }, .reg (.v x), [])
  -- 149-151
  | .cst c, S => (S, .cst c, [])
  -- 137-138, 259-282
  | .op i f args, S =>
    match S.memo i with
    | some k => (S, .reg (.t k), [])
    | none =>
      let r := linL args S
      ({ r.1 with next := r.1.next + 1, memo := Function.update r.1.memo i (some r.1.next) }, .reg (.t r.1.next), r.2.2 ++ [.op (.t r.1.next) f r.2.1])
/-- the operands (260), in order -/
def linL {V : Type} : List (E V) → St → St × List (Opnd V) × List (Ins V)
  | [], S => (S, [], [])
  | e :: es, S =>
    let r := lin e S
    let q := linL es r.1
    (q.1, r.2.1 :: q.2.1, r.2.2 ++ q.2.2)
end

/-- 221-227 the instruction that gives a value to the register of a variable -/
def assignIns {V : Type} (x : ℕ) : Opnd V → Ins V
  | .cst c => .mat (.v x) c
  | .reg r => .copy (.v x) r

/-- 129-284 `linearize_graph` on a statement -/
def linS {V : Type} : Stm V → St → Except Err (St × List (Ins V))
  | .assign x e, S =>
    let r := lin e S
    .ok (r.1, r.2.2 ++ [assignIns x r.2.1])
  -- 190-211: the name `optree` is not defined
  | .phi .., _ => .error .nameError
  -- 248-257
  | .store es, S =>
    let r := linL es S
    .ok (r.1, r.2.2 ++ [.store r.2.1])
  -- 172-176
  | .br b, S => .ok (S, [.br b])
  -- 160-170
  | .cbr c y z, S =>
    let r := lin c S
    .ok (r.1, r.2.2 ++ [.cbr r.2.1 y, .br z])
  -- 232-243
  | .ret none, S => .ok (S, [.ret])
  | .ret (some e), S =>
    let r := lin e S
    .ok (r.1, r.2.2 ++ [.ret])

/-- 153-158 a basic block -/
def linB {V : Type} : List (Stm V) → St → Except Err (St × List (Ins V))
  | [], S => .ok (S, [])
  | s :: ss, S => do
    let r ← linS s S
    let q ← linB ss r.1
    return (q.1, r.2 ++ q.2)

/-- 178-183 the list of the basic blocks -/
def linP {V : Type} : Prog V → St → Except Err (St × List (ℕ × List (Ins V)))
  | [], S => .ok (S, [])
  | p :: ps, S => do
    let r ← linB p.2 S
    let q ← linP ps r.1
    return (q.1, (p.1, r.2) :: q.2)

/-- 113-115 `get_reg_from_node` -/
def regOf {V : Type} (S : St) : E V → Except Err Reg
  | .var x => if S.seen x then .ok (.v x) else .error .keyError
  | .cst _ => .error .keyError
  | .op i _ _ => match S.memo i with
    | some k => .ok (.t k)
    | none => .error .keyError

/-- metalibm_core/opt/p_machine_code_gen.py:52-72 `locate_return_values`: the expressions that are returned (their order is not modelled) -/
def returned {V : Type} (P : Prog V) : List (E V) :=
  P.flatMap fun p => p.2.filterMap fun s => match s with
    | .ret e => e
    | _ => none

/-- p_machine_code_gen.py:96-114 `Pass_LinearizeOperationGraph.execute_on_function`: the registers of the arguments, those of the results, each once, and the program -/
def linF {V : Type} (args : List ℕ) (P : Prog V) : Except Err (List Reg × List Reg × List (ℕ × List (Ins V))) := do
  let r ← linP P St.init
  let ins ← args.mapM (fun x => regOf (V := V) r.1 (.var x))
  let outs ← (returned P).mapM (regOf r.1)
  return (ins, outs.dedup, r.2)

/-! ## What the machine instructions do -/

/-- the value of an operand -/
def Opnd.val {V : Type} (σ : Reg → V) : Opnd V → V
  | .reg r => σ r
  | .cst v => v

/-- registers and stores of a machine -/
abbrev Mach (V : Type) := (Reg → V) × List (List V)

/-- the control of an instruction, for `Verif.Machine.runL` -/
def Ins.ctl {V : Type} (truth : V → Bool) : Ins V → Ctl (Mach V) Unit
  | .op r f args => .act fun s => (Function.update s.1 r (f (args.map (Opnd.val s.1))), s.2)
  | .copy r q => .act fun s => (Function.update s.1 r (s.1 q), s.2)
  | .mat r v => .act fun s => (Function.update s.1 r v, s.2)
  | .store args => .act fun s => (s.1, s.2 ++ [args.map (Opnd.val s.1)])
  | .br b => .goto b
  | .cbr c b => .cond (fun s => truth (c.val s.1)) b
  | .ret => .ret fun _ => ()

/-- the contents of the blocks -/
def codeOf {V : Type} (truth : V → Bool) (Q : List (ℕ × List (Ins V))) (b : ℕ) : List (Ctl (Mach V) Unit) :=
  (((Q.find? (fun x => x.1 == b)).map Prod.snd).getD []).map (Ins.ctl truth)

end Verif.Lin
