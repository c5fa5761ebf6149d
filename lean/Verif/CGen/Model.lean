import Verif.CGen.Spec
import Verif.Names.Model

/-!
# Model of the C code generator

`metalibm_core/code_generation/generators/c_code_generator.py`, with the parts of
`generator_utility.py` (`SymbolOperator`, `ConstantOperator`) and `code_object.py` (`NestedCode`,
`MultiSymbolTable.get_free_name`) it calls.

Simplifications.  The text of the program is a tree (`Code`).  Operators have one or two operands and
are implemented by a `SymbolOperator`; their headers, debug messages and comments are left out.
Constants are printed as literals (`declare_cst=False`, as in ml_function.py:503).  The pieces of code
emitted by a call are returned instead of appended to the code object.  The memoization map and the
code list are stacks of which only the top is modified: the rest is the argument `Ctx`.
-/

namespace Verif.CGen

open Verif.Names (Name indexed search startIndex)

/-- One level of `memoization_map` (c_code_generator.py:99-134). -/
abbrev Memo := List (Node × CExpr)

/-- The symbol table of one code level: its variables and its `prefix_index`
(code_object.py:167-198). -/
structure Scope where
  names : List Name := []
  index : List (Name × ℕ) := []
deriving DecidableEq, Repr

/-- What a call does not modify: the outer memoization levels, the outer code levels, and the global
names (functions, tables). -/
structure Ctx where
  memos : List Memo
  scopes : List Scope
  globals : List Name

/-- The innermost memoization level and the innermost code level. -/
structure St where
  memo : Memo := []
  scope : Scope := {}

/-- The loop of `has_memoization`/`get_memoization` over the levels (c_code_generator.py:118-130). -/
def findIn : List Memo → Node → Option CExpr
  | [], _ => none
  | m :: ms, n => match m.lookup n with | some c => some c | none => findIn ms n

/-- `get_memoization` (c_code_generator.py:125-130). -/
def find (k : Ctx) (st : St) (n : Node) : Option CExpr := findIn (st.memo :: k.memos) n

/-- `add_memoization` (c_code_generator.py:132-134). -/
def remember (st : St) (n : Node) (c : CExpr) : St := { st with memo := (n, c) :: st.memo }

/-- The names `is_free_name` looks at (code_object.py:207-212): this level, the levels around it and
the shared tables. -/
def visible (k : Ctx) (st : St) : List Name :=
  st.scope.names ++ k.scopes.flatMap (·.names) ++ k.globals

/-- `MultiSymbolTable.get_free_name` (code_object.py:214-225): the name and the recorded index.  The
`while` loop is bounded by the number of names, which is enough (`freeName_fresh`). -/
def freeName (used : List Name) (ix : Option ℕ) (p : Name) : Name × ℕ :=
  if p ∉ used then (p, 0)
  else
    match search (fun n => decide (n ∉ used)) p (used.length + 1) (startIndex ix) with
    | some i => (indexed p i, i)
    | none => (p, 0)

/-- `get_free_var_name` with `declare=True` (code_object.py:442-448, 1022-1027). -/
def declare (k : Ctx) (st : St) (p : Name) : Name × St :=
  let r := freeName (visible k st) (st.scope.index.lookup p) p
  (r.1, { st with scope := ⟨r.1 :: st.scope.names, (p, r.2) :: st.scope.index⟩ })

/-- The condition of `SymbolOperator.assemble_code` to store a result in a variable
(generator_utility.py:466): `lvalue` is false, `force_variable_storing` and `generate_pre_process`
are not forwarded by `AbstractBackend.generate_expr` (abstract_backend.py:300-303). -/
def stores (i : Info) (inlined : Bool) : Bool :=
  i.fold != some false && (i.fold == some true || !inlined)

/-- `SymbolOperator.assemble_code` (generator_utility.py:443-477) followed by the memoization of the
result (c_code_generator.py:368-369). -/
def assemble (k : Ctx) (inlined : Bool) (i : Info) (n : Node) (e : CExpr) (st : St) :
    CExpr × Code × St :=
  if stores i inlined then
    let d := declare k st (i.tag.getD "tmp".toList)
    (.var d.1, .assign d.1 e, remember d.2 n (.var d.1))
  else (e, .skip, remember st n e)

/-- `generate_expr` on a variable, a constant or an operation (c_code_generator.py:136-176, 358-380)
with `ordered_generation` of the operands (generator_utility.py:89-104, 418-441). -/
def genE (k : Ctx) (inlined : Bool) : Node → St → CExpr × Code × St
  | .cst i c, st =>
    match find k st (.cst i c) with
    | some e => (e, .skip, st)
    | none => (.cst c, .skip, remember st (.cst i c) (.cst c))
  | .var (.input t), st =>
    match find k st (.var (.input t)) with
    | some e => (e, .skip, st)
    | none => (.var t, .skip, remember st (.var (.input t)) (.var t))
  | .var (.loc i t), st =>
    match find k st (.var (.loc i t)) with
    | some e => (e, .skip, st)
    | none =>
      let d := declare k st t
      (.var d.1, .skip, remember d.2 (.var (.loc i t)) (.var d.1))
  | .un i o a, st =>
    match find k st (.un i o a) with
    | some e => (e, .skip, st)
    | none =>
      let ra := genE k inlined a st
      let r := assemble k inlined i (.un i o a) (.un o ra.1) ra.2.2
      (r.1, .seq ra.2.1 r.2.1, r.2.2)
  | .bin i o a b, st =>
    match find k st (.bin i o a b) with
    | some e => (e, .skip, st)
    | none =>
      if i.swap then
        let rb := genE k inlined b st
        let ra := genE k inlined a rb.2.2
        let r := assemble k inlined i (.bin i o a b) (.bin o ra.1 rb.1) ra.2.2
        (r.1, .seq (.seq rb.2.1 ra.2.1) r.2.1, r.2.2)
      else
        let ra := genE k inlined a st
        let rb := genE k inlined b ra.2.2
        let r := assemble k inlined i (.bin i o a b) (.bin o ra.1 rb.1) rb.2.2
        (r.1, .seq (.seq ra.2.1 rb.2.1) r.2.1, r.2.2)

/-- The C name of an assigned variable (the generated code of a `Variable` is its name). -/
def lname : CExpr → Name
  | .var n => n
  | _ => []

/-- Context of a branch of a conditional: both stacks grow (c_code_generator.py:283-299). -/
def Ctx.branch (k : Ctx) (st : St) : Ctx :=
  { k with memos := st.memo :: k.memos, scopes := st.scope :: k.scopes }

/-- Context of a loop body: only the code list grows (c_code_generator.py:247-250). -/
def Ctx.body (k : Ctx) (st : St) : Ctx := { k with scopes := st.scope :: k.scopes }

/-- `generate_expr` on statements (c_code_generator.py:209-352).  A conditional without `else` is
generated with an empty one. -/
def gen (k : Ctx) : Stmt → St → Code × St
  | .skip, st => (.skip, st)
  | .seq s t, st =>
    let r := gen k s st
    let q := gen k t r.2
    (.seq r.1 q.1, q.2)
  | .expr e, st => (genE k false e st).2
  | .assign x e, st =>
    let l := genE k false (.var x) st
    let r := genE k false e l.2.2
    (.seq r.2.1 (.assign (lname l.1) r.1), r.2.2)
  | .ite c a b, st =>
    let r := genE k false c st
    let ra := gen (k.branch r.2.2) a {}
    let rb := gen (k.branch r.2.2) b {}
    (.seq r.2.1 (.ite r.1 ra.2.scope.names ra.1 rb.2.scope.names rb.1), r.2.2)
  | .loop init c body, st =>
    let ri := gen k init st
    let rc := genE k true c ri.2
    let rb := gen (k.body rc.2.2) body ⟨rc.2.2.memo, {}⟩
    (.seq (.seq ri.1 rc.2.1) (.loop rc.1 rb.2.scope.names rb.1), ⟨rb.2.memo, rc.2.2.scope⟩)
  | .ret e, st =>
    let r := genE k false e st
    (.seq r.2.1 (.ret r.1), r.2.2)

/-- `CodeFunction.add_definition` (code_function.py:172-177): the function body is a code level inside
the file level.  The arguments are not declared in any symbol table. -/
def genFun (globals : List Name) (s : Stmt) : CFun :=
  let r := gen ⟨[], [], globals⟩ s {}
  ⟨r.2.scope.names, r.1⟩

end Verif.CGen
