import Mathlib.Data.List.Basic
import Mathlib.Logic.Function.Basic

/-!
# Specification vocabulary for machine-level passes (C28, C29): how machine code runs
-/

namespace Verif.Machine

/-! ## Laid-out blocks (C28) -/

/-- Machine instructions, as far as control is concerned. -/
inductive Ctl (S V : Type) where
  | act (f : S → S)
  | ret (e : S → V)
  | goto (dst : ℕ)
  /-- branch when the condition holds, otherwise go on with the next instruction -/
  | cond (c : S → Bool) (dst : ℕ)

/-- How a run ends. -/
inductive End (S V : Type) where
  | ret (s : S) (v : V)
  /-- ran past the last block -/
  | fell (s : S)
  /-- jump to a block that is not laid out -/
  | missing (b : ℕ)
  deriving DecidableEq

/-- Execution of the blocks `L` laid out one after the other, from instruction `i` of the block at
position `k`: a jump goes to the (first) position carrying the label, the end of a block falls
through to the next position. -/
def runL {S V : Type} (h : ℕ → List (Ctl S V)) (L : List ℕ) : ℕ → ℕ → ℕ → S → Option (End S V)
  | 0, _, _, _ => none
  | n + 1, k, i, s =>
    match L[k]? with
    | none => some (.fell s)
    | some b =>
      match (h b)[i]? with
      | none => runL h L n (k + 1) 0 s
      | some (.act f) => runL h L n k (i + 1) (f s)
      | some (.ret e) => some (.ret s (e s))
      | some (.goto d) => if d ∈ L then runL h L n (L.idxOf d) 0 s else some (.missing d)
      | some (.cond c d) =>
        if c s then if d ∈ L then runL h L n (L.idxOf d) 0 s else some (.missing d)
        else runL h L n k (i + 1) s

/-! ## Register programs (C29) -/

/-- Right-hand sides. -/
inductive Rhs (V : Type) where
  | copy (src : ℕ)
  | op (f : List V → V) (args : List ℕ)

/-- Instructions on registers: an assignment, or an instruction whose operands are observed (store,
return, branch). -/
inductive Insn (V : Type) where
  | assign (dst : ℕ) (rhs : Rhs V)
  | eff (args : List ℕ)

def Rhs.reads {V : Type} : Rhs V → List ℕ
  | .copy s => [s]
  | .op _ a => a

def Insn.reads {V : Type} : Insn V → List ℕ
  | .assign _ r => r.reads
  | .eff a => a

def Insn.writes {V : Type} : Insn V → Option ℕ
  | .assign d _ => some d
  | .eff _ => none

def Rhs.eval {V : Type} (r : Rhs V) (s : ℕ → V) : V :=
  match r with
  | .copy x => s x
  | .op f a => f (a.map s)

/-- Registers after the instructions, and the values observed, in order. -/
def exec {V : Type} : List (Insn V) → (ℕ → V) → (ℕ → V) × List (List V)
  | [], s => (s, [])
  | .assign d r :: l, s => exec l (Function.update s d (r.eval s))
  | .eff a :: l, s => ((exec l s).1, a.map s :: (exec l s).2)

/-- Execution of a sequence of blocks of the program `P` (the path taken). -/
def execPath {V : Type} (P : List (List (Insn V))) : List ℕ → (ℕ → V) → (ℕ → V) × List (List V)
  | [], s => (s, [])
  | b :: bs, s =>
    let r := exec (P[b]?.getD []) s
    ((execPath P bs r.1).1, r.2 ++ (execPath P bs r.1).2)

/-- `x` is instruction `i` of block `b`. -/
def At {V : Type} (P : List (List (Insn V))) (b i : ℕ) (x : Insn V) : Prop :=
  ∃ blk, P[b]? = some blk ∧ blk[i]? = some x

/-- Instruction `j` of block `b` copies `src` to `dst`, it is the only reader of `src` in the
program, and the only writer of `src` is instruction `i` of the same block, before it. -/
structure Collapsible {V : Type} (P : List (List (Insn V))) (b i j src dst : ℕ) : Prop where
  copy : At P b j (.assign dst (.copy src))
  defined : ∃ x, At P b i x ∧ x.writes = some src
  soleDef : ∀ b' k x, At P b' k x → x.writes = some src → b' = b ∧ k = i
  soleUse : ∀ b' k x, At P b' k x → src ∈ x.reads → b' = b ∧ k = j
  before : i < j

/-- For every collapsible copy `dst := src`: the definition of `src` is not itself a collapsible copy,
and `dst` is neither read nor written between that definition and the copy. -/
def Tame {V : Type} (P : List (List (Insn V))) : Prop :=
  ∀ b i j src dst, Collapsible P b i j src dst →
    (∀ i' src', ¬ Collapsible P b i' i src' src) ∧
    (∀ k x, i < k → k < j → At P b k x → dst ∉ x.reads ∧ x.writes ≠ some dst)

end Verif.Machine
