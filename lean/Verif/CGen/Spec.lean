import Verif.Names.Spec

/-!
# Specification: what a description means, what a C program means, and safe reuse of nodes

Nothing here refers to the generator.  The file has three parts: the meaning of a function
description (operation graph plus statements), the meaning of the fragment of C that is generated
(block scopes, declarations at the top of a block, uninitialised variables), and the discipline under
which a node of the graph may be used several times.
-/

namespace Verif.CGen

open Verif.Names (Name)

/-! ## Function descriptions -/

/-- A variable of a description: a function argument, known by its name, or a local variable (a
Python object `id` that carries a name hint `tag`). -/
inductive Var where
  | input (tag : Name)
  | loc (id : ℕ) (tag : Name)
deriving DecidableEq, Repr

/-- Attributes of an operation node: its identity, its name hint, the `force_folding` attribute of
the operator that implements it, and whether its second operand is scheduled before the first. -/
structure Info where
  id : ℕ
  tag : Option Name := none
  fold : Option Bool := none
  swap : Bool := false
deriving DecidableEq, Repr

/-- A node of the operation graph.  Nodes are Python objects, compared by identity: two nodes built
separately carry different `id`s. -/
inductive Node where
  | cst (id : ℕ) (k : ℕ)
  | var (x : Var)
  | un (i : Info) (o : ℕ) (a : Node)
  | bin (i : Info) (o : ℕ) (a b : Node)
deriving DecidableEq, Repr

/-- Statements of a description. -/
inductive Stmt where
  | skip
  | seq (s t : Stmt)
  /-- an operation listed as a statement -/
  | expr (e : Node)
  /-- `ReferenceAssign` -/
  | assign (x : Var) (e : Node)
  /-- `ConditionBlock` -/
  | ite (c : Node) (a b : Stmt)
  /-- `Loop(init, condition, body)` -/
  | loop (init : Stmt) (c : Node) (body : Stmt)
  | ret (e : Node)
deriving DecidableEq, Repr

/-- Meaning of constants and operators, and which values count as true. -/
structure Interp (V : Type) where
  cst : ℕ → V
  un : ℕ → V → V
  bin : ℕ → V → V → V
  truth : V → Bool

variable {V : Type}

/-- Current values of the variables (`none`: not initialised). -/
abbrev Store (V : Type) := Var → Option V

/-- Value of a node. -/
def eval (I : Interp V) (σ : Store V) : Node → Option V
  | .cst _ k => some (I.cst k)
  | .var x => σ x
  | .un _ o a => (eval I σ a).map (I.un o)
  | .bin _ o a b => (eval I σ a).bind fun x => (eval I σ b).map fun y => I.bin o x y

/-- Outcome of a statement: normal end, return, an error (uninitialised or undeclared variable), or
more than `fuel` iterations of a loop. -/
inductive Res (S V : Type) where
  | norm (s : S)
  | ret (v : V)
  | err
  | out
deriving DecidableEq, Repr

/-- `while (c) b`, at most `fuel` executions of the body. -/
def iter {S : Type} (c : S → Option Bool) (b : S → Res S V) : ℕ → S → Res S V
  | 0, s =>
    match c s with
    | none => .err
    | some false => .norm s
    | some true => .out
  | n + 1, s =>
    match c s with
    | none => .err
    | some false => .norm s
    | some true =>
      match b s with
      | .norm s' => iter c b n s'
      | .ret v => .ret v
      | .err => .err
      | .out => .out

/-- Continue after a normal end. -/
def Res.andThen {S T : Type} : Res S V → (S → Res T V) → Res T V
  | .norm s, f => f s
  | .ret v, _ => .ret v
  | .err, _ => .err
  | .out, _ => .out

/-- Meaning of a description. -/
def exec (I : Interp V) (fuel : ℕ) : Stmt → Store V → Res (Store V) V
  | .skip, σ => .norm σ
  | .seq s t, σ => (exec I fuel s σ).andThen (exec I fuel t)
  | .expr e, σ => match eval I σ e with | none => .err | some _ => .norm σ
  | .assign x e, σ =>
    match eval I σ e with
    | none => .err
    | some v => .norm fun y => if y = x then some v else σ y
  | .ite c a b, σ =>
    match eval I σ c with
    | none => .err
    | some v => if I.truth v then exec I fuel a σ else exec I fuel b σ
  | .loop init c body, σ =>
    (exec I fuel init σ).andThen
      (iter (fun σ => (eval I σ c).map I.truth) (exec I fuel body) fuel)
  | .ret e, σ => match eval I σ e with | none => .err | some v => .ret v

/-- The variables at the call of a function with the given arguments. -/
def initial (args : List (Name × V)) : Store V
  | .input t => args.lookup t
  | .loc _ _ => none

/-! ## The generated fragment of C -/

/-- C expressions. -/
inductive CExpr where
  | cst (k : ℕ)
  | var (n : Name)
  | un (o : ℕ) (a : CExpr)
  | bin (o : ℕ) (a b : CExpr)
deriving DecidableEq, Repr

/-- C statements.  A block starts with the list of the variables it declares. -/
inductive Code where
  | skip
  | seq (s t : Code)
  | assign (n : Name) (e : CExpr)
  /-- `if (e) { decls; s } else { decls'; t }` -/
  | ite (e : CExpr) (decls : List Name) (s : Code) (decls' : List Name) (t : Code)
  /-- `for (; e ;) { decls; s }` -/
  | loop (e : CExpr) (decls : List Name) (s : Code)
  | ret (e : CExpr)
deriving DecidableEq, Repr

/-- The variables of one block and their values (`none`: declared, not initialised). -/
abbrev Frame (V : Type) := List (Name × Option V)
/-- The open blocks, innermost first. -/
abbrev Env (V : Type) := List (Frame V)

/-- The innermost declaration of `n`: `none` if there is none. -/
def look : Env V → Name → Option (Option V)
  | [], _ => none
  | f :: fs, n => match f.lookup n with | some v => some v | none => look fs n

/-- Overwrite a variable in a block that declares it. -/
def setF (n : Name) (v : V) : Frame V → Frame V
  | [] => []
  | (m, w) :: f => if m = n then (m, some v) :: f else (m, w) :: setF n v f

/-- Assignment to the innermost declaration of `n`. -/
def set : Env V → Name → V → Option (Env V)
  | [], _, _ => none
  | f :: fs, n, v =>
    match f.lookup n with
    | some _ => some (setF n v f :: fs)
    | none => (set fs n v).map (f :: ·)

def evalC (I : Interp V) (ρ : Env V) : CExpr → Option V
  | .cst k => some (I.cst k)
  | .var n => (look ρ n).join
  | .un o a => (evalC I ρ a).map (I.un o)
  | .bin o a b => (evalC I ρ a).bind fun x => (evalC I ρ b).map fun y => I.bin o x y

/-- Enter a block: its variables are declared, not initialised. -/
def enter (decls : List Name) (ρ : Env V) : Env V := decls.map (fun n => (n, none)) :: ρ

/-- Leave a block. -/
def leave : Res (Env V) V → Res (Env V) V
  | .norm ρ => .norm ρ.tail
  | .ret v => .ret v
  | .err => .err
  | .out => .out

/-- Meaning of C statements. -/
def execC (I : Interp V) (fuel : ℕ) : Code → Env V → Res (Env V) V
  | .skip, ρ => .norm ρ
  | .seq s t, ρ => (execC I fuel s ρ).andThen (execC I fuel t)
  | .assign n e, ρ =>
    match evalC I ρ e with
    | none => .err
    | some v => match set ρ n v with | none => .err | some ρ' => .norm ρ'
  | .ite e d s d' t, ρ =>
    match evalC I ρ e with
    | none => .err
    | some v =>
      if I.truth v then leave (execC I fuel s (enter d ρ))
      else leave (execC I fuel t (enter d' ρ))
  | .loop e d s, ρ =>
    iter (fun ρ => (evalC I ρ e).map I.truth) (fun ρ => leave (execC I fuel s (enter d ρ))) fuel ρ
  | .ret e, ρ => match evalC I ρ e with | none => .err | some v => .ret v

/-- A C function: the declarations and the statements of its body. -/
structure CFun where
  decls : List Name
  body : Code
deriving DecidableEq, Repr

/-- Call of a C function.  Its arguments are declared around the body. -/
def CFun.call (I : Interp V) (fuel : ℕ) (f : CFun) (args : List (Name × V)) : Res (Env V) V :=
  leave (execC I fuel f.body (enter f.decls [args.map fun p => (p.1, some p.2)]))

/-! ## Safe reuse of nodes -/

/-- The node and all its operands. -/
def sub : Node → List Node
  | .cst i k => [.cst i k]
  | .var x => [.var x]
  | .un i o a => .un i o a :: sub a
  | .bin i o a b => .bin i o a b :: (sub a ++ sub b)

/-- All the nodes of a statement. -/
def nodes : Stmt → List Node
  | .skip => []
  | .seq s t => nodes s ++ nodes t
  | .expr e => sub e
  | .assign x e => .var x :: sub e
  | .ite c a b => sub c ++ nodes a ++ nodes b
  | .loop init c body => nodes init ++ sub c ++ nodes body
  | .ret e => sub e

/-- A node whose value the C program keeps in a variable of its own, when it is first met in
(`cond = true`) or outside of (`cond = false`) the condition of a loop. -/
def kept (cond : Bool) : Node → Bool
  | .cst _ _ => false
  | .var _ => false
  | .un i _ _ => i.fold == some true || (i.fold == none && !cond)
  | .bin i _ _ _ => i.fold == some true || (i.fold == none && !cond)

/-- The nodes already met in the current block or in a block around it, and those among them whose
value was computed then and kept. -/
structure Vis where
  all : List Node
  stored : List Node

/-- An expression is met. -/
def Vis.add (M : Vis) (cond : Bool) (e : Node) : Vis where
  all := M.all ++ sub e
  stored := M.stored ++ (sub e).filter fun n => decide (n ∉ M.all) && kept cond n

/-- A statement is met.  What is inside the branches of a conditional is not met by what follows. -/
def Vis.after (M : Vis) : Stmt → Vis
  | .skip => M
  | .seq s t => (M.after s).after t
  | .expr e => M.add false e
  | .assign x e => (M.add false (.var x)).add false e
  | .ite c _ _ => M.add false c
  | .loop init c body => ((M.after init).add true c).after body
  | .ret e => M.add false e

def Node.isLocal : Node → Bool
  | .var (.loc _ _) => true
  | _ => false

def Node.isLeaf : Node → Bool
  | .cst _ _ => true
  | .var (.input _) => true
  | _ => false

/-- The reuse discipline.  `M` is what was met before the statement and `L` the nodes used after it.
* After an assignment to `x`, no kept node that reads `x` is used again.
* A local variable that first appears in a branch of a conditional is not used after it.
* Local variables of a loop body appear before the loop, and operations that first appear in a loop
  body are not used after the loop.  What the condition and the body use again in the next iteration
  counts as used after the body. -/
def Safe (M : Vis) (L : List Node) : Stmt → Prop
  | .skip => True
  | .seq s t => Safe M (nodes t ++ L) s ∧ Safe (M.after s) L t
  | .expr _ => True
  | .assign x e => ∀ n ∈ (M.after (.assign x e)).stored, .var x ∈ sub n → n ∉ L
  | .ite c a b =>
    let M' := M.add false c
    let L' := L.filter (· ∈ M'.all)
    Safe M' L' a ∧ Safe M' L' b ∧ ∀ n ∈ nodes a ++ nodes b, n.isLocal → n ∈ L → n ∈ M'.all
  | .loop init c body =>
    let M' := (M.after init).add true c
    let L' := (sub c ++ nodes body ++ L).filter (· ∈ M'.all)
    Safe M (sub c ++ nodes body ++ L) init ∧ Safe M' L' body ∧
      (∀ n ∈ nodes body, n.isLocal → n ∈ M'.all) ∧
      ∀ n ∈ nodes body, n ∈ L → n ∈ M'.all ∨ n.isLeaf
  | .ret _ => True

instance Safe.dec : ∀ (M : Vis) (L : List Node) (s : Stmt), Decidable (Safe M L s)
  | _, _, .skip => inferInstanceAs (Decidable True)
  | M, L, .seq s t =>
    have := Safe.dec M (nodes t ++ L) s
    have := Safe.dec (M.after s) L t
    inferInstanceAs (Decidable (_ ∧ _))
  | _, _, .expr _ => inferInstanceAs (Decidable True)
  | M, L, .assign x e =>
    inferInstanceAs (Decidable (∀ n ∈ (M.after (.assign x e)).stored, .var x ∈ sub n → n ∉ L))
  | M, L, .ite c a b =>
    have := Safe.dec (M.add false c) (L.filter (· ∈ (M.add false c).all)) a
    have := Safe.dec (M.add false c) (L.filter (· ∈ (M.add false c).all)) b
    inferInstanceAs (Decidable (_ ∧ _ ∧
      ∀ n ∈ nodes a ++ nodes b, n.isLocal → n ∈ L → n ∈ (M.add false c).all))
  | M, L, .loop init c body =>
    have := Safe.dec M (sub c ++ nodes body ++ L) init
    have := Safe.dec ((M.after init).add true c)
      ((sub c ++ nodes body ++ L).filter (· ∈ ((M.after init).add true c).all)) body
    inferInstanceAs (Decidable (_ ∧ _ ∧
      (∀ n ∈ nodes body, n.isLocal → n ∈ ((M.after init).add true c).all) ∧
      ∀ n ∈ nodes body, n ∈ L → n ∈ ((M.after init).add true c).all ∨ n.isLeaf))
  | _, _, .ret _ => inferInstanceAs (Decidable True)

/-- A whole description keeps to the discipline. -/
def SafeReuse (s : Stmt) : Prop := Safe ⟨[], []⟩ [] s

instance (s : Stmt) : Decidable (SafeReuse s) := Safe.dec _ _ _

/-- The name hints used for variables of the C program. -/
def hint : Node → Option Name
  | .cst _ _ => none
  | .var (.input _) => none
  | .var (.loc _ t) => some t
  | .un i _ _ => some (i.tag.getD "tmp".toList)
  | .bin i _ _ _ => some (i.tag.getD "tmp".toList)

/-- No argument has the name of a hint, followed by digits or not. -/
def NoClash (args : List Name) (s : Stmt) : Prop :=
  ∀ n ∈ nodes s, ∀ p, hint n = some p → ∀ ds : Name, (∀ d ∈ ds, d.isDigit = true) → p ++ ds ∉ args

/-- Every function argument the description mentions is one of `args`. -/
def InputsIn (args : List Name) (s : Stmt) : Prop :=
  ∀ t, Node.var (.input t) ∈ nodes s → t ∈ args

/-- A description without assignments, loops and local variables: operations, conditionals and
returns only. -/
def Pure (s : Stmt) : Prop := go s ∧ ∀ n ∈ nodes s, n.isLocal = false
where
  go : Stmt → Prop
  | .skip => True
  | .seq s t => go s ∧ go t
  | .expr _ => True
  | .assign _ _ => False
  | .ite _ a b => go a ∧ go b
  | .loop _ _ _ => False
  | .ret _ => True

end Verif.CGen
