import Verif.FctExpr.Spec
import Mathlib.Analysis.SpecialFunctions.Trigonometric.Arctan

/-!
# Model of `metalibm_functions/function_expr.py`

Nodes are numbered and the attributes of a node are read in a heap, because the
transformation changes the operands of existing nodes in place.
-/

namespace Verif.FctExpr

/-- What can stop the transformation: an operand number out of range (Python's
`IndexError`), and the recursion limit of the model. -/
inductive Err where
  | index
  | recursion
deriving DecidableEq

/-- State of `instanciate_graph` (function_expr.py:136-140): the nodes, the
number of the next node created, `memoization_map` and the content of
`statement`. -/
structure St (O : Type) where
  heap : ℕ → Node O
  next : ℕ
  memo : ℕ → Option (Option ℕ)
  stmts : List Stmt

variable {O : Type}

/-- `node.get_input(i)` (metalibm_core/core/ml_operations.py). -/
def getInput (s : St O) (n i : ℕ) : Except Err ℕ :=
  match (s.heap n).args[i]? with
  | some a => .ok a
  | none => .error .index

/-- `node.set_input(i, a)` (metalibm_core/core/ml_operations.py). -/
def setInput (s : St O) (n i a : ℕ) : St O :=
  { s with heap := fun m => if m = n then { s.heap n with args := (s.heap n).args.set i a }
                            else s.heap m }

/-- Creation of a node, `FUNCTION_OBJECT_MAPPING["div"](...)` and
`Variable("local_result", ...)` (function_expr.py:99, 159). -/
def create (s : St O) (x : Node O) : ℕ × St O :=
  (s.next, { s with heap := fun m => if m = s.next then x else s.heap m, next := s.next + 1 })

/-- `memoization_map[node] = new_node` (function_expr.py:171). -/
def remember (s : St O) (n : ℕ) (r : Option ℕ) : St O :=
  { s with memo := fun m => if m = n then some r else s.memo m }

/-- `statement.add(...)` (function_expr.py:154, 155, 170). -/
def add (s : St O) (x : Stmt) : St O := { s with stmts := s.stmts ++ [x] }

/-- The loops on the operands (function_expr.py:149-152 for a call, 166-169
for an operation): from operand `i`, `k` operands are instantiated and
replaced when there is a replacement.  Simplification: the second loop reads
the operands in a tuple taken before the loop, the model reads each operand
when it is reached; the operand `i` is changed by step `i` only. -/
def setInputs (recurse : ℕ → St O → Except Err (Option ℕ × St O)) (n : ℕ) :
    ℕ → ℕ → St O → Except Err (St O)
  | _, 0, s => .ok s
  | i, k + 1, s =>
    match getInput s n i with
    | .error e => .error e
    | .ok a =>
      match recurse a s with
      | .error e => .error e
      | .ok (r, s1) =>
        match r with
        | none => setInputs recurse n (i + 1) k s1
        | some b => setInputs recurse n (i + 1) k (setInput s1 n i b)

/-- The first `k` operands, `[node.get_input(i) for i in range(k)]`
(function_expr.py:96). -/
def firstInputs (s : St O) (n : ℕ) : ℕ → Except Err (List ℕ)
  | 0 => .ok []
  | k + 1 =>
    match firstInputs s n k with
    | .error e => .error e
    | .ok l =>
      match getInput s n k with
      | .error e => .error e
      | .ok a => .ok (l ++ [a])

/-- `rec_instanciate` (function_expr.py:141-172) with `instanciate_fct_call`
(function_expr.py:93-105).  `arity` gives the number of parameters of a
function, `expand` is `expand_div`.  The scheme of a function is the statement
`Stmt.scheme`: that inlining a scheme stores the value of the function in the
variable is property C57, and that the scheme computes the function is the
subject of the properties on each function.  Formats and intervals are left
out.  The first argument bounds the depth of the recursion. -/
def inst (arity : String → ℕ) (expand : Bool) :
    ℕ → ℕ → St O → Except Err (Option ℕ × St O)
  | 0, _, _ => .error .recursion
  | fuel + 1, n, s =>
    match s.memo n with
    | some r => .ok (r, s)
    | none =>
      match (s.heap n).kind with
      | .call f =>
        match setInputs (inst arity expand fuel) n 0 (arity f) s with
        | .error e => .error e
        | .ok s1 =>
          match firstInputs s1 n (arity f) with
          | .error e => .error e
          | .ok vx =>
            let c := create s1 ⟨.res, []⟩
            let s2 := add (add c.2 (.decl c.1)) (.scheme c.1 f vx)
            .ok (some c.1, remember s2 n (some c.1))
      | .input _ => .ok (none, remember s n none)
      | .const _ => .ok (none, remember s n none)
      | .res => .ok (none, remember s n none)
      | .div =>
        if expand then
          match getInput s n 0, getInput s n 1 with
          | .ok a, .ok b =>
            let c := create s ⟨.call "div", [a, b]⟩
            match inst arity expand fuel c.1 c.2 with
            | .error e => .error e
            | .ok (r, s1) => .ok (r, remember s1 n r)
          | _, _ => .error .index
        else
          match setInputs (inst arity expand fuel) n 0 (s.heap n).args.length s with
          | .error e => .error e
          | .ok s1 => .ok (none, remember (add s1 (.node n)) n none)
      | .op _ =>
        match setInputs (inst arity expand fuel) n 0 (s.heap n).args.length s with
        | .error e => .error e
        | .ok s1 => .ok (none, remember (add s1 (.node n)) n none)

/-- `instanciate_graph` (function_expr.py:136-174): the node whose value is
returned and the state at the end.  `size` is above the number of every node
of the graph. -/
def instanciateGraph (arity : String → ℕ) (expand : Bool) (fuel size : ℕ) (g : ℕ → Node O)
    (root : ℕ) : Except Err (ℕ × St O) :=
  match inst arity expand fuel root ⟨g, size, fun _ => none, []⟩ with
  | .error e => .error e
  | .ok (r, s) => .ok (r.getD root, s)

mutual
/-- The words of the expression which match `[xyzt]`, in the order of the text
(function_expr.py:90).  Numbers and the names of `FUNCTION_MAP` do not match. -/
def words : Src → List (Fin 4)
  | .var i => [i]
  | .num _ => []
  | .bin _ a b => words a ++ words b
  | .neg a => words a
  | .app _ l => wordsL l
/-- The same for the arguments of a call (function_expr.py:90). -/
def wordsL : List Src → List (Fin 4)
  | [] => []
  | a :: l => words a ++ wordsL l
end

/-- Distinct elements, `set(...)` (function_expr.py:90). -/
def distinct : List (Fin 4) → List (Fin 4)
  | [] => []
  | a :: l => if a ∈ distinct l then distinct l else a :: distinct l

/-- `count_expr_arity` (function_expr.py:85-90). -/
def countArity (ws : List (Fin 4)) : ℕ := (distinct ws).length

mutual
/-- `eval(str_desc, None, var_mapping)` (function_expr.py:80-82) meets only
names which are defined, otherwise it raises `NameError`.  The variables defined
are the first `k` of `x`, `y`, `z`, `t` (function_expr.py:178-184). -/
def defined (k : ℕ) : Src → Bool
  | .var i => decide (i.1 < k)
  | .num _ => true
  | .bin _ a b => defined k a && defined k b
  | .neg a => defined k a
  | .app _ l => definedL k l
/-- The same for the arguments of a call (function_expr.py:80-82). -/
def definedL (k : ℕ) : List Src → Bool
  | [] => true
  | a :: l => defined k a && definedL k l
end

/-- `generate_scheme` gets past `function_parser` (function_expr.py:177-186).
Calls are assumed to name functions of `FUNCTION_MAP`. -/
def parses (e : Src) : Bool := defined (countArity (words e)) e

/-- The reference value of `atan2(y, x)` (metalibm_functions/function_map.py:85,
used by `numeric_emulate`, function_expr.py:202-213, and for the range of the
call).  Simplification: real numbers. -/
noncomputable def emulatedAtan2 (y x : ℝ) : ℝ := Real.arctan (y / x)

end Verif.FctExpr
