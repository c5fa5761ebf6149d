import Verif.Machine.Spec

/-!
# Model of machine-code passes (`opt/p_machine_code_gen.py`)

Basic blocks are objects named by numbers; a heap gives their contents.
-/

namespace Verif.Machine

/-- One turn of the loop (p_machine_code_gen.py:176-187) on block `b`, when `c` is the next one in
the list: the trailing jump to `c` is removed from the block object. -/
def dropJump {S V : Type} (h : ℕ → List (Ctl S V)) (b c : ℕ) (x : ℕ) : List (Ctl S V) :=
  match (h b).getLast? with
  | some (.goto d) => if d = c ∧ x = b then (h b).dropLast else h x
  | _ => h x

/-- `Pass_SimplifyBBFallback.execute_on_graph` (p_machine_code_gen.py:170-188): the loop over
`enumerate(inputs)`, on what is left of the block list (the last block has no next one: 179). -/
def simplifyFallback {S V : Type} : List ℕ → (ℕ → List (Ctl S V)) → (ℕ → List (Ctl S V))
  | [], h => h
  | [_], h => h
  | b :: c :: L, h => simplifyFallback (c :: L) (dropJump h b c)

/-! ## `Pass_CollapseRegisterCopy` (p_machine_code_gen.py:204-262) -/

/-- All instructions with the block and index where they are (232-233, `enumerate`).  Blocks and
instructions are taken to be distinct objects. -/
def located {V : Type} (P : List (List (Insn V))) : List ((ℕ × ℕ) × Insn V) :=
  (P.zipIdx).flatMap fun (blk, b) => blk.zipIdx.map fun (x, i) => ((b, i), x)

/-- `reg_defs[r]` (237). -/
def defsOf {V : Type} (P : List (List (Insn V))) (r : ℕ) : List (ℕ × ℕ) :=
  ((located P).filter (fun x => x.2.writes == some r)).map Prod.fst

/-- `reg_uses[r]` (219-226, 238-242): instructions with `r` among their direct operands. -/
def usesOf {V : Type} (P : List (List (Insn V))) (r : ℕ) : List (ℕ × ℕ) :=
  ((located P).filter (fun x => x.2.reads.contains r)).map Prod.fst

/-- A collapsed copy: block, index of the definition, index of the copy, registers. -/
structure Coll where
  b : ℕ
  i : ℕ
  j : ℕ
  src : ℕ
  dst : ℕ
  deriving DecidableEq

/-- The decision taken for one register copy (245-257).  The `pop()` of line 250 empties
`reg_defs[src]`, which no other copy can look at, since this copy is the only use of `src`. -/
def decideCopy {V : Type} (P : List (List (Insn V))) (x : (ℕ × ℕ) × Insn V) : Option Coll :=
  match x with
  | ((b, j), .assign dst (.copy src)) =>
    match defsOf P src, usesOf P src with
    | [(b', i)], [_] => if b' = b ∧ i < j then some ⟨b, i, j, src, dst⟩ else none
    | _, _ => none
  | _ => none

/-- All collapsed copies (229-257). -/
def collapses {V : Type} (P : List (List (Insn V))) : List Coll := (located P).filterMap (decideCopy P)

/-- The instruction at `(b, i)` after the pass: deleted (259-260), or with its new destination
(`def_insn.set_input(0, dst)`, 255). -/
def rewriteInsn {V : Type} (C : List Coll) (b i : ℕ) (x : Insn V) : Option (Insn V) :=
  if C.any (fun c => c.b == b && c.j == i) then none
  else
    match x with
    | .eff a => some (.eff a)
    | .assign d r =>
      match C.reverse.find? (fun c => c.b == b && c.i == i) with
      | some c => some (.assign c.dst r)
      | none => some (.assign d r)

/-- The program after the pass. -/
def collapse {V : Type} (P : List (List (Insn V))) : List (List (Insn V)) :=
  P.zipIdx.map fun (blk, b) => blk.zipIdx.filterMap fun (x, i) => rewriteInsn (collapses P) b i x

end Verif.Machine
