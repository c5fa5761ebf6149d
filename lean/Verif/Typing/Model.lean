import Verif.Typing.Spec

/-! # Model of the passes that give formats to the nodes of an operation graph

The recursive traversals with their memoization maps are the traversal of the list of the nodes in the order of their completion, operands first.  Vector formats,
tables, statements and function calls are not modelled. -/

namespace Verif.Typing

inductive Err
  | unknown | keyError | valueError | attribute | notImplemented | noPrecision
  deriving DecidableEq, Repr

/-- metalibm_core/core/ml_formats.py:1670-1687 `merge_abstract_format` -/
def mergeAbs (args : List T) : Except Err T :=
  if args.any (fun t => match t with | .fp _ | .aFloat => true | _ => false) then .ok .aFloat
  else if args.any (fun t => match t with | .ix .. | .aInt => true | _ => false) then .ok .aInt
  else if args.any (fun t => match t with | .bool | .aBool => true | _ => false) then .ok .aBool
  else .error .unknown

/-- the maximum of the sizes of the formats that are not abstract, 0 if there is none -/
def maxBits (args : List T) : ℕ := ((args.filter T.concrete).map T.bits).foldr max 0

/-- `get_signed` (ml_formats.py:789): floating-point and boolean formats have no such method -/
def signedOf : T → Except Err Bool
  | .ix s _ => .ok s
  | _ => .error .attribute

/-- `any(op_format.get_signed() for op_format in … if not abstract)`: stops at the first signed format -/
def anySigned : List T → Except Err Bool
  | [] => .ok false
  | t :: ts =>
    if t.concrete then do
      if ← signedOf t then return true else anySigned ts
    else anySigned ts

/-- metalibm_core/opt/p_function_typing.py:379-400 `merge_ops_abstract_integer_format` -/
def mergeInt (args : List T) : Except Err T := do
  let s ← anySigned args
  let n := maxBits args
  if n = 32 ∨ n = 64 then return .ix s n else .error .keyError

/-- p_function_typing.py:403-415 `merge_ops_abstract_float_format`; the maximum of an empty sequence is an error -/
def mergeFloat (args : List T) : Except Err T :=
  if (args.filter T.concrete).isEmpty then .error .valueError
  else
    let n := maxBits args
    if n = 32 ∨ n = 64 ∨ n = 16 then .ok (.fp n) else .error .keyError

/-- p_function_typing.py:418-433 `merge_ops_abstract_format`, `t` being the format of the operation -/
def mergeOps (t : T) (args : List T) : Except Err T :=
  match t with
  | .aFloat => mergeFloat args
  | .aInt => mergeInt args
  | _ => .error .notImplemented

/-- p_function_typing.py:436-452 `get_integer_format`, with the default integer format of the pass (557) -/
def integerFormat (range : Option (ℤ × ℤ)) : T :=
  match range with
  | none => .ix true 32
  | some (lo, hi) =>
    if lo < 0 then (if hi > 2 ^ 31 - 1 ∨ lo < -2 ^ 31 then .ix true 64 else .ix true 32)
    else if hi ≥ 2 ^ 32 - 1 then .ix false 64 else .ix false 32

/-- p_function_typing.py:468-505 `merge_format`; the error of an unknown size is caught and the result is `None` -/
def mergeFormat (args : List T) : Except Err (Option T) := do
  let n := maxBits args
  let a ← mergeAbs args
  let unsigned ← (if a = .aInt then do return !(← anySigned args) else return false)
  if unsigned then return if n = 32 ∨ n = 64 then some (.ix false n) else none
  else
    match a with
    | .aFloat => return if n = 32 ∨ n = 64 then some (.fp n) else none
    | .aInt => return if n = 32 ∨ n = 64 then some (.ix true n) else none
    | _ => return if n = 32 then some .bool else none

/-- operations, by their typing rules (p_function_typing.py:57-137, 139-215, 217-262): arithmetic ones, with a format for their constants or not (`Abs`, `Negation`, `Return`…);
`Select`; bitwise ones; roundings and extractions of an exponent with their interval; comparisons; logical operations -/
inductive Op
  | var
  | cst (int : Bool)
  | arith (post : Bool)
  | select
  | bit
  | toInt (range : Option (ℤ × ℤ))
  | cmp
  | logic
  deriving DecidableEq, Repr

/-- a node; the operands are the numbers of other nodes -/
structure Node where
  id : ℕ
  op : Op
  args : List ℕ

/-- the formats of the nodes, `none` for Python's `None` -/
abbrev St := ℕ → Option T

/-- update of the format of a node -/
def St.set (σ : St) (i : ℕ) (t : Option T) : St := fun j => if j = i then t else σ j

/-- the formats of the operands; `None` has no method -/
def formats (σ : St) : List ℕ → Except Err (List T)
  | [] => .ok []
  | i :: is => do
    match σ i with
    | none => .error .attribute
    | some t => return t :: (← formats σ is)

/-- p_function_typing.py:267-376 `instantiate_abstract_precision` on a node, after its operands; `dflt` is the default precision of the pass -/
def absStep (dflt : Option T) (σ : St) (nd : Node) : Except Err St :=
  match σ nd.id with
  | some _ => .ok σ
  | none =>
    match nd.op with
    | .var => .error .noPrecision
    | .cst int => .ok (σ.set nd.id (some (dflt.getD (if int then .aInt else .aFloat))))
    | .arith _ => do return σ.set nd.id (some (← mergeAbs (← formats σ nd.args)))
    | .select => do return σ.set nd.id (some (← mergeAbs (← formats σ nd.args.tail)))
    | .bit | .toInt _ => .ok (σ.set nd.id (some .aInt))
    | .cmp | .logic => .ok (σ.set nd.id (some .aBool))

/-- `isinstance(…, ML_AbstractFormat)`, false for `None` -/
def isAbs : Option T → Bool
  | some t => !t.concrete
  | none => false

/-- p_function_typing.py:459-466 `propagate_format_to_cst`: the constants among the operands whose format is abstract take the format -/
def propagate (isCst : ℕ → Bool) (t : Option T) : List ℕ → St → St
  | [], σ => σ
  | i :: is, σ =>
    propagate isCst t is (if isCst i && isAbs (σ i) then σ.set i t else σ)

/-- p_function_typing.py:139-215 `practical_typing_rule` for an operation of format `t` -/
def rule (σ : St) (nd : Node) (t : T) : Except Err T :=
  match nd.op with
  | .var | .cst _ => .ok t
  | .arith _ | .bit => do mergeOps t (← formats σ nd.args)
  | .select => do mergeOps t (← formats σ nd.args.tail)
  | .toInt r => .ok (integerFormat r)
  | .cmp | .logic => .ok (.ix true 32)

/-- p_function_typing.py:507-540 `instantiate_precision` on a node, after its operands -/
def instStep (isCst : ℕ → Bool) (σ : St) (nd : Node) : Except Err St := do
  let σ1 ← (match σ nd.id with
    | some t => if t.concrete then .ok σ else do return σ.set nd.id (some (← rule σ nd t))
    | none => .ok σ)
  match nd.op with
  | .arith true | .bit => return propagate isCst (σ1 nd.id) nd.args σ1
  | .select => return propagate isCst (σ1 nd.id) nd.args.tail σ1
  | .cmp => return propagate isCst (← mergeFormat (← formats σ1 nd.args)) nd.args σ1
  | _ => return σ1

/-- p_function_typing.py:543-555 `PassInstantiateAbstractPrecision` on the nodes of a graph -/
def absPass (dflt : Option T) (σ : St) (g : List Node) : Except Err St := g.foldlM (absStep dflt) σ

/-- p_function_typing.py:557-576 `PassInstantiatePrecision` on the nodes of a graph -/
def instPass (isCst : ℕ → Bool) (σ : St) (g : List Node) : Except Err St := g.foldlM (instStep isCst) σ

end Verif.Typing
