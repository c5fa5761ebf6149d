import Verif.Extern.Spec

/-!
# Model of `metalibm_core/core/ml_call_externalizer.py`

Simplification: expression graphs only, no statements.
-/

namespace Verif.Extern

/-- State: the memory and `copy_map`. -/
structure St where
  heap : Heap
  map : ℕ → Option ℕ

/-- `get_tag` (metalibm_core/core/ml_operations.py): variables always have one. -/
def getTag (H : Heap) (n : ℕ) : Option String :=
  match H.node n with
  | .var x _ => some x
  | _ => H.tag n

/-- A new node which is the copy of `n`: same attributes, entered in `copy_map`
(metalibm_core/core/ml_operations.py:657-660, 733-736, 825-829). -/
def alloc (n : ℕ) (x : Node) (s : St) : ℕ × St :=
  let m := s.heap.size
  (m, { heap := { node := fun j => if j = m then x else s.heap.node j
                  tag := fun j => if j = m then s.heap.tag n else s.heap.tag j
                  fmt := fun j => if j = m then s.heap.fmt n else s.heap.fmt j
                  size := m + 1 }
        map := fun j => if j = n then some m else s.map j })

/-- The tuple of copied operands (metalibm_core/core/ml_operations.py:825). -/
def copyL (f : ℕ → St → Option (ℕ × St)) : List ℕ → St → Option (List ℕ × St)
  | [], s => some ([], s)
  | a :: l, s =>
    match f a s with
    | none => none
    | some (m, s1) =>
      match copyL f l s1 with
      | none => none
      | some (ms, s2) => some (m :: ms, s2)

/-- `copy` (metalibm_core/core/ml_operations.py:652-660 for constants, 722-736 for
variables, 816-829 for operations; metalibm_core/core/ml_table.py:183-196 for tables).
The first argument bounds the depth of the recursion. -/
def copy : ℕ → ℕ → St → Option (ℕ × St)
  | 0, _, _ => none
  | fuel + 1, n, s =>
    match s.map n with
    | some m => some (m, s)
    | none =>
      match s.heap.node n with
      | .cst c => some (alloc n (.cst c) s)
      | .var x true =>
        let _ := x
        some (n, { s with map := fun j => if j = n then some n else s.map j })
      | .var x false => some (alloc n (.var x false) s)
      | .table nw c k => some (alloc n (.table nw c k) s)
      | .op f ins =>
        match copyL (copy fuel) ins s with
        | none => none
        | some (ms, s') => some (alloc n (.op f ms) s')

/-- The loop on the arguments (ml_call_externalizer.py:71-76), with `add_input_variable`
(metalibm_core/code_generation/code_function.py:72-79): the parameters, in order. -/
def addArgs : ℕ → List ℕ → St → List (String × Option ℕ) × St
  | _, [], s => ([], s)
  | i, a :: l, s =>
    let x := (getTag s.heap a).getD ("arg_" ++ toString i)
    let f := s.heap.fmt a
    let (ps, s') := addArgs (i + 1) l (alloc a (.var x true) s).2
    ((x, f) :: ps, s')

/-- `arg_map.update({table:table for table in table_set if table.const})`
(ml_call_externalizer.py:79-80).  Simplification: all the constant tables of the second
class among the nodes of `H` are entered, those outside the graph are never looked up. -/
def addTables (H : Heap) (s : St) : St :=
  { s with map := fun j =>
      match H.node j with
      | .table true true _ => if j < H.size then some j else s.map j
      | _ => s.map j }

/-- `isinstance(optree, ML_ArithmeticOperation)` (ml_call_externalizer.py:85): `arith f`
says whether the class of the operation `f` is an arithmetic one. -/
def isArith (arith : ℕ → Bool) : Node → Bool
  | .op f _ => arith f
  | _ => false

/-- `generate_function_from_optree` (ml_call_externalizer.py:49-92); `none` when the
return format is undefined (assertion of line 66).  The declared name is not modelled. -/
def generate (arith : ℕ → Bool) (H : Heap) (root : ℕ) (args : List ℕ) (result : Option ℕ) :
    Option (Fn × Heap) :=
  match (match result with | some f => some f | none => H.fmt root) with
  | none => none
  | some out =>
    let (ps, s1) := addArgs 0 args ⟨H, fun _ => none⟩
    match copy (root + 1) root (addTables H s1) with
    | none => none
    | some (m, s2) => some (⟨ps, out, m, isArith arith (H.node root)⟩, s2.heap)

/-- Python's binding of arguments: positional ones first, then keywords; `none` is
`TypeError`, raised when a keyword names a parameter already bound. -/
def bind (params : List String) (positional : List ℕ) (keywords : List (String × ℕ)) :
    Option (List (String × ℕ)) :=
  let bound := params.zip positional
  if params.length < positional.length then none
  else if keywords.any (fun k => bound.any (fun b => b.1 == k.1)) then none
  else some (bound ++ keywords)

/-- The call in `CallExternalizer.externalize_call` (ml_call_externalizer.py:103-107) to
`generate_function_from_optree`. -/
def externalizerCall (factory optree args tag result : ℕ) : Option (List (String × ℕ)) :=
  bind ["name_factory", "optree", "arg_list", "tag", "result_format"]
    [factory, optree, args, factory] [("tag", tag), ("result_format", result)]

end Verif.Extern
