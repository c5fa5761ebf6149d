import Verif.BB.Spec

/-!
# Model of basic-block generation (`opt/p_gen_bb.py`)

Basic blocks are numbered in order of creation, which is also their order in the block list
(`push_new_bb`, p_gen_bb.py:834-849).  An instruction is an effect, an evaluated expression without
effect (the loop condition pushed into the header), a return, or a branch.
Not modelled: placeholders inside expressions (C54), `WhileLoop` and `SwitchBlock` nodes (which the
translator does not treat), tags.
-/

namespace Verif.BB

inductive Instr (S V : Type) where
  | act (f : S → S)
  | eval (c : S → Bool)
  | ret (e : S → V)
  | br (dst : ℕ)
  | cbr (c : S → Bool) (t e : ℕ)

/-- `isinstance(op, ControlFlowOperation)`: the two branches; `Return` is not one
(bb_operations.py:40-43, ml_operations.py:841,1193). -/
def Instr.isCF {S V : Type} : Instr S V → Bool
  | .br _ => true
  | .cbr _ _ _ => true
  | _ => false

/-- `BasicBlock` (bb_operations.py:149-156): its instructions and the `final` flag. -/
structure Block (S V : Type) where
  insts : List (Instr S V)
  final : Bool

/-- The translator's state: all blocks, and `current_bb_stack` (top first)
(p_gen_bb.py:798-805). -/
structure Tr (S V : Type) where
  blocks : List (Block S V)
  stack : List ℕ

variable {S V : Type}

/-- `BasicBlock.add` on block `b`. -/
def addRaw (st : Tr S V) (b : ℕ) (i : Instr S V) : Tr S V :=
  { st with blocks := st.blocks.modify b (fun bb => { bb with insts := bb.insts ++ [i] }) }

/-- Set the `final` flag of block `b`. -/
def setFinal (st : Tr S V) (b : ℕ) : Tr S V :=
  { st with blocks := st.blocks.modify b (fun bb => { bb with final := true }) }

/-- `add_to_bb` (p_gen_bb.py:785-790); `none` is `NotImplementedError`. -/
def addToBB (st : Tr S V) (b : ℕ) (i : Instr S V) : Option (Tr S V) :=
  match st.blocks[b]? with
  | none => none
  | some bb =>
    if !bb.final && (bb.insts.isEmpty || !(bb.insts.getLast?.map Instr.isCF).getD false) then
      some (addRaw st b i)
    else none

/-- `push_new_bb` (p_gen_bb.py:834-849). -/
def pushNew (st : Tr S V) : ℕ × Tr S V :=
  (st.blocks.length, { blocks := st.blocks ++ [⟨[], false⟩], stack := st.blocks.length :: st.stack })

/-- `pop_current_bb` (p_gen_bb.py:851-864), on a non-empty stack. -/
def pop (st : Tr S V) : Option (ℕ × Tr S V) :=
  match st.stack with
  | [] => none
  | b :: rest => some (b, { st with stack := rest })

/-- `get_current_bb` (p_gen_bb.py:877-879). -/
def cur (st : Tr S V) : Option ℕ := st.stack.head?

/-- Is the block final? -/
def isFinal (st : Tr S V) (b : ℕ) : Bool := (st.blocks[b]?.map Block.final).getD false

mutual
/-- `execute_on_optree` (p_gen_bb.py:881-909) with `transform_cb_to_bb` (62-138) and
`transform_loop_to_bb` (141-192).  A `Statement` with many operands is a nest of `seq`. -/
def trans : Stmt S V → Tr S V → Option (Tr S V)
  | .skip, st => some st
  | .act f, st => do
    let b ← cur st
    some (addRaw st b (.act f))
  | .ret e, st => do
    let b ← cur st
    some (setFinal (addRaw st b (.ret e)) b)
  | .seq s t, st => do
    let st ← trans s st
    trans t st
  | .ite c t e, st => do
    let (entry, st) ← pop st
    let (ifEntry, st) := pushNew st
    let st ← trans t st
    let (ifEnd, st) ← pop st
    let (elseEntry, next, st) ← transElse e st
    let st ← addToBB st entry (.cbr c ifEntry elseEntry)
    if isFinal st ifEnd then some st else addToBB st ifEnd (.br next)
  | .loop init c body, st => do
    let initBlock ← cur st
    let st ← trans init st
    let (header, st) := pushNew st
    let st := addRaw st header (.eval c)
    let (_, st) ← pop st
    let (bodyEntry, st) := pushNew st
    let st ← trans body st
    let endBody ← cur st
    let st ← addToBB st endBody (.br header)
    let (_, st) ← pop st
    let (next, st) := pushNew st
    let st ← addToBB st header (.cbr c bodyEntry next)
    addToBB st initBlock (.br header)
/-- The else part of `transform_cb_to_bb` (p_gen_bb.py:112-128): returns the entry of the else part
and the block that follows. -/
def transElse : Option (Stmt S V) → Tr S V → Option (ℕ × ℕ × Tr S V)
  | none, st => some ((pushNew st).1, (pushNew st).1, (pushNew st).2)
  | some e, st => do
    let (elseEntry, st) := pushNew st
    let st ← trans e st
    let (elseEnd, st) ← pop st
    let (next, st) := pushNew st
    if isFinal st elseEnd then some (elseEntry, next, st)
    else do
      let st ← addToBB st elseEnd (.br next)
      some (elseEntry, next, st)
end

/-- `execute_on_graph` (p_gen_bb.py:911-922): a fresh entry block, numbered 0. -/
def translate (p : Stmt S V) : Option (List (Block S V)) :=
  (trans p ⟨[⟨[], false⟩], [0]⟩).map Tr.blocks

/-! ## Execution of basic blocks -/

/-- Execution from instruction `i` of block `b` (`none`: not finished).  Running past the last
instruction of a block that has no branch ends the program. -/
def run (B : List (Block S V)) : ℕ → ℕ → ℕ → S → Option (Res S V)
  | 0, _, _, _ => none
  | n + 1, b, i, s =>
    match (B[b]?).bind (fun bb => bb.insts[i]?) with
    | none => some (.normal s)
    | some (.act f) => run B n b (i + 1) (f s)
    | some (.eval _) => run B n b (i + 1) s
    | some (.ret e) => some (.ret s (e s))
    | some (.br d) => run B n d 0 s
    | some (.cbr c t e) => run B n (if c s then t else e) 0 s

end Verif.BB
