import Verif.Machine.Spec

/-! # Specification vocabulary of the linearization of operation graphs (property C90): what a program made of basic blocks means

An expression is evaluated where it stands, with the values its variables have there.  The identity of an operation node is a number: two occurrences of a node are the same
object.  The values of the conditions are read by a parameter. -/

namespace Verif.Lin

/-- expressions: a variable, a constant, an operation -/
inductive E (V : Type) where
  | var (x : ℕ)
  | cst (v : V)
  | op (id : ℕ) (f : List V → V) (args : List (E V))

mutual
/-- the value of an expression -/
def E.eval {V : Type} (env : ℕ → V) : E V → V
  | .var x => env x
  | .cst v => v
  | .op _ f args => f (E.evalL env args)
def E.evalL {V : Type} (env : ℕ → V) : List (E V) → List V
  | [] => []
  | e :: es => E.eval env e :: E.evalL env es
end

mutual
/-- the operation nodes of an expression -/
def E.ops {V : Type} : E V → List (E V)
  | .var _ => []
  | .cst _ => []
  | .op i f args => .op i f args :: E.opsL args
def E.opsL {V : Type} : List (E V) → List (E V)
  | [] => []
  | e :: es => E.ops e ++ E.opsL es
end

mutual
/-- the variables of an expression -/
def E.vars {V : Type} : E V → List ℕ
  | .var x => [x]
  | .cst _ => []
  | .op _ _ args => E.varsL args
def E.varsL {V : Type} : List (E V) → List ℕ
  | [] => []
  | e :: es => E.vars e ++ E.varsL es
end

/-- statements of a basic block: an assignment, a phi node (variable and predecessor), a store in a table, the branches, a return -/
inductive Stm (V : Type) where
  | assign (x : ℕ) (e : E V)
  | phi (x : ℕ) (src : List (ℕ × ℕ))
  | store (es : List (E V))
  | br (b : ℕ)
  | cbr (c : E V) (yes no : ℕ)
  | ret (e : Option (E V))

/-- basic blocks, in the order they are laid out; the first one is the entry -/
abbrev Prog (V : Type) := List (ℕ × List (Stm V))

/-- the end of a run: the stores, in order; the expression that is returned and its value -/
inductive Out (V : Type) where
  | ret (stores : List (List V)) (e : Option (E V)) (v : Option V)
  | missing (b : ℕ)
  | fell

/-- the statements of a block -/
def blockOf {V : Type} (P : Prog V) (b : ℕ) : Option (List (Stm V)) := (P.find? (fun x => x.1 == b)).map Prod.snd

/-- Execution: `pred` is the block the run comes from, `b` the current one, then the statements that remain in it. -/
def run {V : Type} (truth : V → Bool) (P : Prog V) : ℕ → ℕ → ℕ → List (Stm V) → (ℕ → V) → List (List V) → Option (Out V)
  | 0, _, _, _, _, _ => none
  | _ + 1, _, _, [], _, _ => some .fell
  | n + 1, pred, b, .assign x e :: r, env, tr => run truth P n pred b r (Function.update env x (e.eval env)) tr
  | n + 1, pred, b, .phi x src :: r, env, tr =>
    match src.find? (fun p => p.2 == pred) with
    | some p => run truth P n pred b r (Function.update env x (env p.1)) tr
    | none => some (.missing pred)
  | n + 1, pred, b, .store es :: r, env, tr => run truth P n pred b r env (tr ++ [E.evalL env es])
  | n + 1, _, b, .br d :: _, env, tr =>
    match blockOf P d with
    | some ss => run truth P n b d ss env tr
    | none => some (.missing d)
  | n + 1, _, b, .cbr c y z :: _, env, tr =>
    let d := if truth (c.eval env) then y else z
    match blockOf P d with
    | some ss => run truth P n b d ss env tr
    | none => some (.missing d)
  | _ + 1, _, _, .ret e :: _, env, tr => some (.ret tr e (e.map (E.eval env)))

/-- the operation nodes of a statement -/
def Stm.ops {V : Type} : Stm V → List (E V)
  | .assign _ e => e.ops
  | .phi .. => []
  | .store es => E.opsL es
  | .br _ => []
  | .cbr c _ _ => c.ops
  | .ret (some e) => e.ops
  | .ret none => []

/-- the operation nodes of a list of statements -/
def opsOf {V : Type} (ss : List (Stm V)) : List (E V) := ss.flatMap Stm.ops

/-- the identity of an operation node -/
def E.idOf {V : Type} : E V → Option ℕ
  | .op i _ _ => some i
  | _ => none

/-- Two occurrences with the same identity are the same node. -/
def Consistent {V : Type} (P : Prog V) : Prop :=
  ∀ p ∈ P, ∀ q ∈ P, ∀ a ∈ opsOf p.2, ∀ b ∈ opsOf q.2, a.idOf = b.idOf → a = b

/-- No operation node is used in two blocks. -/
def Local {V : Type} (P : Prog V) : Prop :=
  ∀ p ∈ P, ∀ q ∈ P, p.1 ≠ q.1 → ∀ a ∈ opsOf p.2, a ∉ opsOf q.2

/-- In a block, no variable of an operation node is assigned between two statements that use the node. -/
def Stable {V : Type} (P : Prog V) : Prop :=
  ∀ p ∈ P, ∀ done x e rest, p.2 = done ++ .assign x e :: rest → ∀ a ∈ opsOf (done ++ [.assign x e]), a ∈ opsOf rest → x ∉ a.vars

end Verif.Lin
