import Verif.Lin.Spec

/-! # Specification vocabulary of the LLVM-IR code generator (property C114): what basic blocks in static single assignment form mean

Expressions, their operation nodes and their variables are those of `Verif.Lin`.  A block is made of phi nodes, which read their variables together, of assignments and of the
statement that ends it. -/

namespace Verif.LlvmGen

open Verif.Lin (E)

/-- the statement that ends a block -/
inductive Term (V : Type) where
  | br (b : ℕ)
  | cbr (c : E V) (yes no : ℕ)
  | ret (e : Option (E V))

/-- a basic block: phi nodes (a variable, then pairs of a variable and of a predecessor), assignments, the end -/
structure Block (V : Type) where
  phis : List (ℕ × List (ℕ × ℕ))
  body : List (ℕ × E V)
  term : Term V

/-- a function: its blocks in the order they are laid out, with their labels; the first one is the entry -/
abbrev Prog (V : Type) := List (ℕ × Block V)

/-- the end of a run: a return, a block that does not exist, a phi node that says nothing of the predecessor -/
inductive Out (V : Type) where
  | ret (v : Option V)
  | missing (b : ℕ)
  | nophi (x : ℕ)

/-- the block of a label -/
def blockOf {V : Type} (P : Prog V) (b : ℕ) : Option (Block V) := (P.find? (fun x => x.1 == b)).map Prod.snd

/-- Phi nodes: `env` is the environment they read, `acc` the one they write. -/
def runPhis {V : Type} (pred : ℕ) (env : ℕ → V) : List (ℕ × List (ℕ × ℕ)) → (ℕ → V) → Except ℕ (ℕ → V)
  | [], acc => .ok acc
  | (x, src) :: r, acc =>
    match src.find? (fun p => p.2 == pred) with
    | some p => runPhis pred env r (Function.update acc x (env p.1))
    | none => .error x

/-- assignments, one after the other -/
def runBody {V : Type} : List (ℕ × E V) → (ℕ → V) → (ℕ → V)
  | [], env => env
  | (x, e) :: r, env => runBody r (Function.update env x (e.eval env))

/-- what the end of a block does: a return or a jump -/
def runTerm {V : Type} (truth : V → Bool) (env : ℕ → V) : Term V → Option V ⊕ ℕ
  | .br b => .inr b
  | .cbr c y z => .inr (if truth (c.eval env) then y else z)
  | .ret e => .inl (e.map (E.eval env))

/-- Execution, one block per step: `pred` is the block the run comes from, `b` the current one. -/
def run {V : Type} (truth : V → Bool) (P : Prog V) : ℕ → ℕ → ℕ → (ℕ → V) → Option (Out V)
  | 0, _, _, _ => none
  | n + 1, pred, b, env =>
    match blockOf P b with
    | none => some (.missing b)
    | some B =>
      match runPhis pred env B.phis env with
      | .error x => some (.nophi x)
      | .ok env1 =>
        match runTerm truth (runBody B.body env1) B.term with
        | .inl v => some (.ret v)
        | .inr d => run truth P n b d (runBody B.body env1)

/-- the expressions of the end of a block -/
def Term.exprs {V : Type} : Term V → List (E V)
  | .br _ => []
  | .cbr c _ _ => [c]
  | .ret (some e) => [e]
  | .ret none => []

/-- the blocks that may come next -/
def Term.succs {V : Type} : Term V → List ℕ
  | .br b => [b]
  | .cbr _ y z => [y, z]
  | .ret _ => []

/-- the operation nodes of assignments -/
def bodyOps {V : Type} (l : List (ℕ × E V)) : List (E V) := l.flatMap fun p => p.2.ops

/-- the operation nodes of a block -/
def Block.ops {V : Type} (B : Block V) : List (E V) := bodyOps B.body ++ E.opsL B.term.exprs

/-- the operation nodes of a function -/
def progOps {V : Type} (P : Prog V) : List (E V) := P.flatMap fun p => p.2.ops

/-- the variables a block gives a value to -/
def Block.targets {V : Type} (B : Block V) : List ℕ := B.phis.map Prod.fst ++ B.body.map Prod.fst

/-- Static single assignment: no variable is given a value at two places. -/
def SSA {V : Type} (P : Prog V) : Prop := (P.flatMap fun p => p.2.targets).Nodup

/-- Two occurrences with the same identity are the same node. -/
def Consistent {V : Type} (P : Prog V) : Prop := ∀ a ∈ progOps P, ∀ b ∈ progOps P, a.idOf = b.idOf → a = b

/-! ## Available nodes

A node is available at a point when every run that comes there has computed it, with no change of its variables since. -/

/-- after phi nodes -/
def availPhis {V : Type} (W : E V → Prop) (phis : List (ℕ × List (ℕ × ℕ))) (a : E V) : Prop := W a ∧ ∀ p ∈ phis, p.1 ∉ a.vars

/-- after assignments -/
def availBody {V : Type} (W : E V → Prop) : List (ℕ × E V) → E V → Prop
  | [] => W
  | (x, e) :: r => availBody (fun a => (W a ∨ a ∈ e.ops) ∧ x ∉ a.vars) r

/-- at the end of a block -/
def availOut {V : Type} (W : E V → Prop) (B : Block V) (a : E V) : Prop :=
  availBody (availPhis W B.phis) B.body a ∨ a ∈ E.opsL B.term.exprs

/-- `A b` are nodes available at the beginning of block `b`: none at the entry, and each of them at the end of every block that may come before `b`. -/
def Available {V : Type} (P : Prog V) (A : ℕ → E V → Prop) : Prop :=
  (∀ p, P.head? = some p → ∀ a, ¬ A p.1 a) ∧ ∀ p ∈ P, ∀ d ∈ p.2.term.succs, ∀ a, A d a → availOut (A p.1) p.2 a

/-- A node that was met before, in the text of the function, is met again only where it is available. -/
def Reused {V : Type} (P : Prog V) (A : ℕ → E V → Prop) : Prop :=
  ∀ before b B later, P = before ++ (b, B) :: later →
    (∀ done x e rest, B.body = done ++ (x, e) :: rest →
      ∀ a ∈ e.ops, a ∈ progOps before ++ bodyOps done → availBody (availPhis (A b) B.phis) done a) ∧
    ∀ a ∈ E.opsL B.term.exprs, a ∈ progOps before ++ bodyOps B.body → availBody (availPhis (A b) B.phis) B.body a

/-- The value of every assignment is an operation met for the first time, or a constant of `ok`. -/
def Fresh {V : Type} (P : Prog V) (ok : V → Prop) : Prop :=
  ∀ before b B later, P = before ++ (b, B) :: later → ∀ done x e rest, B.body = done ++ (x, e) :: rest →
    match e with
    | .var _ => False
    | .cst c => ok c
    | .op i f args => E.op i f args ∉ progOps before ++ bodyOps done

end Verif.LlvmGen
