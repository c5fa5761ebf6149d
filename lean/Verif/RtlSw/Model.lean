import Verif.RtlSw.Spec

/-!
# Model of `metalibm_core/opt/p_legalize_rtl_to_sw_format.py`
-/

namespace Verif.RtlSw

/-- State of the pass: the attribute `precision` of the nodes, the
`storage_precision` of the table formats (metalibm_core/core/ml_complex_formats.py:95-110)
and `memoization_map`. -/
structure St where
  attr : ℕ → Prec
  store : ℕ → Fmt
  memo : ℕ → Option (Option Fmt)

/-- `get_precision` (metalibm_core/core/ml_operations.py:289-290, 1876-1877 and 1911-1912
for `FunctionCall`, metalibm_core/core/ml_table.py:150-151 for `ML_Table`, 219-220 for
`ML_NewTable`, whose attribute is the table format and is never replaced here). -/
def getPrecision (G : Graph) (s : St) (n : ℕ) : Prec :=
  match G.kind n with
  | .op => s.attr n
  | .call f => .fmt f
  | .table f => .fmt f
  | .newTable k _ => .table k

/-- `set_precision` (metalibm_core/core/ml_operations.py:300-301): the attribute, whatever the class of the node. -/
def setPrecision (s : St) (n : ℕ) (f : Fmt) : St :=
  { s with attr := fun m => if m = n then .fmt f else s.attr m }

/-- `legalize_rtl_to_sw_format` (p_legalize_rtl_to_sw_format.py:75-90). -/
def legalize (f : Fmt) : Fmt :=
  match f with
  | .bit => .swFixed 1 0 false
  | .hwFixed i fr s => .swFixed i fr s
  | .bits n => .swFixed n 0 false
  | f => f

/-- `execute_on_node` (p_legalize_rtl_to_sw_format.py:98-117).  Simplification: no
log. -/
def onNode (G : Graph) (n : ℕ) (s : St) : Option Fmt × St :=
  match getPrecision G s n with
  | .fmt .bit => (some (legalize .bit), setPrecision s n (legalize .bit))
  | .table k =>
    (none, { s with store := fun j => if j = k then legalize (s.store k) else s.store j })
  | .fmt (.hwFixed i f sg) =>
    (some (legalize (.hwFixed i f sg)), setPrecision s n (legalize (.hwFixed i f sg)))
  | .fmt (.bits w) => (some (legalize (.bits w)), setPrecision s n (legalize (.bits w)))
  | _ => (none, s)

/-- `for op in optree.inputs: ...` (p_legalize_rtl_to_sw_format.py:67-68). -/
def each (f : ℕ → St → Option (Option Fmt × St)) : List ℕ → St → Option St
  | [], s => some s
  | a :: l, s =>
    match f a s with
    | none => none
    | some (_, s') => each f l s'

/-- `execute_on_optree` (p_legalize_rtl_to_sw_format.py:63-71): the returned value
and the state.  The first argument bounds the depth of the recursion, `none` means
that the bound is reached. -/
def onOptree (G : Graph) : ℕ → ℕ → St → Option (Option Fmt × St)
  | 0, _, _ => none
  | fuel + 1, n, s =>
    match s.memo n with
    | some r => some (r, s)
    | none =>
      match (if G.leaf n then some s else each (onOptree G fuel) (G.inputs n) s) with
      | none => none
      | some s1 =>
        let (r, s2) := onNode G n s1
        some (r, { s2 with memo := fun m => if m = n then some r else s2.memo m })

/-- What the attribute `scheme` of a function refers to. -/
inductive Scheme
  | node (n : ℕ)
  | format (f : Fmt)
  deriving DecidableEq

/-- `execute_on_function` (metalibm_core/core/passes.py:367-374): a new
`memoization_map`, and the value returned for the root becomes the scheme. -/
def onFunction (G : Graph) (fuel root : ℕ) (s : St) : Option (Scheme × St) :=
  match onOptree G fuel root { s with memo := fun _ => none } with
  | none => none
  | some (none, s') => some (.node root, s')
  | some (some f, s') => some (.format f, s')

/-- `execute_on_fct_group` (metalibm_core/core/passes.py:376-380): the functions one
after the other. -/
def onGroup (G : Graph) (fuel : ℕ) : List ℕ → St → Option (List Scheme × St)
  | [], s => some ([], s)
  | r :: l, s =>
    match onFunction G fuel r s with
    | none => none
    | some (c, s1) =>
      match onGroup G fuel l s1 with
      | none => none
      | some (cs, s2) => some (c :: cs, s2)

/-- `get_storage_precision` of a table (ml_table.py:145-148, 222-223). -/
def storage (G : Graph) (s : St) (n : ℕ) : Option Fmt :=
  match G.kind n with
  | .op | .call _ => none
  | .table f => some f
  | .newTable k _ => some (s.store k)

/-- The storage format of `copy()` of a table (ml_table.py:183-196): the new table
is built from the attribute `storage_precision`, set by the constructor. -/
def copyStorage (G : Graph) (n : ℕ) : Option Fmt :=
  match G.kind n with
  | .op | .call _ => none
  | .table f => some f
  | .newTable _ built => some built

end Verif.RtlSw
