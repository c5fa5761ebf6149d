import Verif.Lin.Model

/-! # Specification vocabulary of the register allocation (property C112)

The program is a machine program over registers (the output of the linearization, C90): basic blocks laid out in order.  A register is live at a point if the machine may read it later
before it is written. -/

namespace Verif.Alloc

open Verif.Lin

variable {V : Type}

/-- the instructions of the block at position `k` -/
def code (Q : List (ℕ × List (Ins V))) (k : ℕ) : List (Ins V) := ((Q[k]?).map Prod.snd).getD []

/-- the position of a block -/
def pos (Q : List (ℕ × List (Ins V))) (b : ℕ) : ℕ := (Q.map Prod.fst).idxOf b

/-- the registers of an operand -/
def regs : Opnd V → List Reg
  | .reg r => [r]
  | .cst _ => []

/-- the registers an instruction reads -/
def reads : Ins V → List Reg
  | .op _ _ args => args.flatMap regs
  | .copy _ s => [s]
  | .mat _ _ => []
  | .store args => args.flatMap regs
  | .br _ => []
  | .cbr c _ => regs c
  | .ret => []

/-- the register an instruction writes -/
def writes : Ins V → Option Reg
  | .op r _ _ => some r
  | .copy r _ => some r
  | .mat r _ => some r
  | _ => none

/-- the block an instruction may jump to -/
def jumps : Ins V → Option ℕ
  | .br b => some b
  | .cbr _ b => some b
  | _ => none

/-- the next instruction of the block may follow -/
def goesOn : Ins V → Bool
  | .br _ => false
  | .ret => false
  | _ => true

/-- `Live Q outs k i r`: before the instruction `i` of the block at position `k`, the register `r` may be read before it is written; the results `outs` are read by the return. -/
inductive Live (Q : List (ℕ × List (Ins V))) (outs : List Reg) : ℕ → ℕ → Reg → Prop
  | read {k i a r} : (code Q k)[i]? = some a → r ∈ reads a → Live Q outs k i r
  | out {k i r} : (code Q k)[i]? = some .ret → r ∈ outs → Live Q outs k i r
  | next {k i a r} : (code Q k)[i]? = some a → goesOn a = true → writes a ≠ some r → Live Q outs k (i + 1) r → Live Q outs k i r
  | jump {k i a d r} : (code Q k)[i]? = some a → jumps a = some d → Live Q outs (pos Q d) 0 r → Live Q outs k i r

/-- neither a branch nor a return -/
def Straight (a : Ins V) : Prop := jumps a = none ∧ goesOn a = true

/-- a block ends by a return, a branch, or a conditional branch followed by a branch, and has no other -/
def Terminated (l : List (Ins V)) : Prop :=
  ∃ body, (∀ a ∈ body, Straight a) ∧ (l = body ++ [.ret] ∨ (∃ d, l = body ++ [.br d]) ∨ ∃ c d e, l = body ++ [.cbr c d, .br e])

/-- an argument and a result of the same rank: the calling convention passes them in the same register -/
def Clash (ins outs : List Reg) (r s : Reg) : Prop := ∃ i : ℕ, (ins[i]? = some r ∧ outs[i]? = some s) ∨ (ins[i]? = some s ∧ outs[i]? = some r)

/-- No register is written while another one, which the calling convention puts in the same place, is live. -/
def NoClash (Q : List (ℕ × List (Ins V))) (ins outs : List Reg) : Prop :=
  ∀ k i a r s, (code Q k)[i]? = some a → writes a = some r → s ≠ r → Live Q outs k (i + 1) s → ¬ Clash ins outs r s

/-- The registers live at the entry are arguments; an argument that is also a result has the same rank among both. -/
def EntryOk (Q : List (ℕ × List (Ins V))) (ins outs : List Reg) : Prop :=
  ∀ r, Live Q outs 0 0 r → ∃ i : ℕ, ins[i]? = some r ∧ ∀ j : ℕ, outs[j]? = some r → j = i

end Verif.Alloc
