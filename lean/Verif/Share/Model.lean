import Verif.Share.Spec

/-! # Model of the sharing of sub-expressions between branches (metalibm_core/opt/p_function_std.py) and of the execution of the result

Simplifications: the graph is a tree whose nodes carry identities, so a statement or conditional object used in two places is updated in each of them (in the code it is updated
in place, once per place); conditionals have two branches (a missing one is an empty block); `case_map` is a list; memoization maps are omitted. -/

namespace Verif.Share

/-- the state of the traversal: `sharing_map` (node to list of parents), the outermost dictionary of `level_sharing_map`, and `ancestor_map` -/
structure St where
  sharing : List (ℕ × List ℕ)
  level0 : List ℕ
  anc : List (ℕ × Stmt)

/-- p_function_std.py:241-247 `common_ancestor` -/
def commonAncestor (l0 l1 : List ℕ) : Option ℕ := l0.reverse.find? (fun b => b ∈ l1)

/-- p_function_std.py:304-318, the last branch of `recursive_ancestor_lookup`: a node that is neither control flow nor a leaf.  `hoist` is the node itself, `dirty` is
`contains_non_input_variable`, `next` the traversal of its operands.  `search_level_map` (236-239) reads the variable of the enclosing function, hence only the outermost
dictionary, into which a node is put when `top` holds. -/
def visit (top : Bool) (ps : List ℕ) (id : ℕ) (dirty : Bool) (hoist : Stmt) (next : St → St) (st : St) : St :=
  match st.sharing.lookup id with
  | some ps0 =>
    if id ∈ st.level0 then st
    else match commonAncestor ps0 ps with
      | some a => { st with anc := st.anc ++ [(a, hoist)] }
      | none => st
  | none =>
    if dirty then st
    else next { st with sharing := st.sharing ++ [(id, ps)], level0 := if top then id :: st.level0 else st.level0 }

mutual
/-- p_function_std.py:271-318 on an expression (249-264: `contains_non_input_variable` is `hasVar`) -/
def lookE (top : Bool) (ps : List ℕ) : Expr → St → St
  | .op i f args, st => visit top ps i (hasVarL args) (.expr (.op i f args)) (lookEL top ps args) st
  | _, st => st
def lookEL (top : Bool) (ps : List ℕ) : List Expr → St → St
  | [], st => st
  | e :: es, st => lookEL top ps es (lookE top ps e st)
end

mutual
/-- p_function_std.py:271-318 `recursive_ancestor_lookup`: `top` tells whether the list of levels is the initial one, `ps` is `current_parent_list` -/
def look (top : Bool) (ps : List ℕ) : Stmt → St → St
  | .cond i c t f, st => look false (ps ++ [i]) f (look false (ps ++ [i]) t (lookE top (ps ++ [i]) c st))
  | .switch i c cases, st => lookC (ps ++ [i]) cases (lookE top (ps ++ [i]) c st)
  | .block prevent ss, st => if prevent then st else lookL ps ss st
  | .loop _ _ _, st => st
  | .expr e, st => lookE top ps e st
  | .assign _ _ _, st => st      -- the assigned variable is not an input
  | .ret i e, st => visit top ps i (hasVar e) (.ret i e) (lookE top ps e) st
  | .raise i x, st => visit top ps i false (.raise i x) id st
def lookC (ps : List ℕ) : List (ℤ × Stmt) → St → St
  | [], st => st
  | (_, s) :: cs, st => lookC ps cs (look false ps s st)
def lookL (ps : List ℕ) : List Stmt → St → St
  | [], st => st
  | s :: ss, st => lookL ps ss (look false ps s st)
end

/-- the entries of `ancestor_map` for a conditional or a switch -/
def pre (anc : List (ℕ × Stmt)) : Stmt → List Stmt
  | .cond i _ _ _ => (anc.filter (fun p => p.1 = i)).map Prod.snd
  | .switch i _ _ => (anc.filter (fun p => p.1 = i)).map Prod.snd
  | _ => []

mutual
/-- p_function_std.py:358-375 `insert_pre_statement`; the cases of a switch are not among its inputs -/
def insertPre (anc : List (ℕ × Stmt)) : Stmt → Stmt
  | .block p ss => .block p (insertPreL anc ss)
  | .cond i c t f => .cond i c (insertPre anc t) (insertPre anc f)
  | .loop i c b => .loop (insertPre anc i) c (insertPre anc b)
  | s => s
def insertPreL (anc : List (ℕ × Stmt)) : List Stmt → List Stmt
  | [] => []
  | s :: ss => pre anc s ++ insertPre anc s :: insertPreL anc ss
end

/-- p_function_std.py:319-323, the initial call -/
def hoisted (s : Stmt) : List (ℕ × Stmt) := (look true [] s ⟨[], [], []⟩).anc

/-- p_function_std.py:234-323 `subexpression_sharing` -/
def share (s : Stmt) : Stmt := insertPre (hoisted s) s

/-! ## The generated code

The C code generator declares a variable for a node in statement position, and uses the variable when the node occurs again in the same block or in a block inside it
(`MemoizationMultiMap`, `open_memoization_level`); only these nodes are kept in the model. -/

mutual
/-- metalibm_core/code_generation/generators/c_code_generator.py:140-165 the value of an expression, some of whose nodes have a variable -/
def evalM (S : Sem) (inp vars : ℕ → ℤ) (m : List (ℕ × ℤ)) : Expr → Option ℤ
  | .inp n => some (inp n)
  | .var n => some (vars n)
  | .cst v => some v
  | .op i f args => match m.lookup i with
    | some v => some v
    | none => match evalML S inp vars m args with
      | none => none
      | some vs => S f vs
def evalML (S : Sem) (inp vars : ℕ → ℤ) (m : List (ℕ × ℤ)) : List Expr → Option (List ℤ)
  | [] => some []
  | e :: es => match evalM S inp vars m e with
    | none => none
    | some v => match evalML S inp vars m es with
      | none => none
      | some vs => some (v :: vs)
end

/-- the variable declared by a statement, and its value -/
def declare (S : Sem) (inp vars : ℕ → ℤ) (m : List (ℕ × ℤ)) : Stmt → List (ℕ × ℤ)
  | .expr (.op i f args) => match evalM S inp vars m (.op i f args) with
    | some v => (i, v) :: m
    | none => m
  | _ => m

mutual
/-- c_code_generator.py:225-330 the execution of the generated code: as `exec`, with the variables `m` declared so far; they are forgotten at the end of a block -/
def execM (S : Sem) (inp : ℕ → ℤ) (N : ℕ) : List (ℕ × ℤ) → Stmt → (ℕ → ℤ) → List ℕ → Res
  | m, .expr e, vars, fl => match evalM S inp vars m e with
    | none => .trap
    | some _ => .fin vars fl none
  | m, .assign _ v e, vars, fl => match evalM S inp vars m e with
    | none => .trap
    | some x => .fin (fun n => if n = v then x else vars n) fl none
  | m, .ret _ e, vars, fl => match evalM S inp vars m e with
    | none => .trap
    | some x => .fin vars fl (some x)
  | _, .raise _ x, vars, fl => .fin vars (x :: fl) none
  | m, .cond _ c t f, vars, fl => match evalM S inp vars m c with
    | none => .trap
    | some x => if x ≠ 0 then execM S inp N m t vars fl else execM S inp N m f vars fl
  | m, .switch _ c cases, vars, fl => match evalM S inp vars m c with
    | none => .trap
    | some x => execMC S inp N m cases x vars fl
  | m, .loop init c body, vars, fl => (execM S inp N m init vars fl).andThen
      (iter (fun vars => evalM S inp vars m c) (execM S inp N m body) N)
  | m, .block _ ss, vars, fl => execML S inp N m ss vars fl
def execMC (S : Sem) (inp : ℕ → ℤ) (N : ℕ) : List (ℕ × ℤ) → List (ℤ × Stmt) → ℤ → (ℕ → ℤ) → List ℕ → Res
  | _, [], _, vars, fl => .fin vars fl none
  | m, (k, s) :: cs, x, vars, fl => if x = k then execM S inp N m s vars fl else execMC S inp N m cs x vars fl
def execML (S : Sem) (inp : ℕ → ℤ) (N : ℕ) : List (ℕ × ℤ) → List Stmt → (ℕ → ℤ) → List ℕ → Res
  | _, [], vars, fl => .fin vars fl none
  | m, s :: ss, vars, fl => (execM S inp N m s vars fl).andThen (execML S inp N (declare S inp vars m s) ss)
end

end Verif.Share
