import Verif.SBool.Spec

/-!
# Model of `metalibm_core/opt/p_scalar_vbool_legalization.py`

A graph is its tree of operands; the operands of a node are visited before it
(node_transformation.py:89-113) and formats are changed in place, once per node.
Numbers have at most two operands, or are selections.
-/

namespace Verif.SBool

/-- `BOOL_TYPE_MAP[scalar_bit_size]` (p_scalar_vbool_legalization.py:76-81); `none`: `KeyError`. -/
def typeMap (w : ℕ) : Option BFmt :=
  if w = 8 ∨ w = 16 ∨ w = 32 ∨ w = 64 then some (.bits w) else none

/-- The new format of a boolean operation whose operands have at most `w` bits
(`legalize_node`, p_scalar_vbool_legalization.py:85-103): only `ML_Bool` is changed. -/
def legalFmt (f : BFmt) (w : ℕ) : Option BFmt :=
  if f = .virtual then typeMap w else some f

/-- `transform_graph` with `legalize_node` (node_transformation.py:89-113,
p_scalar_vbool_legalization.py:83-106). -/
def legalize : Expr → Option Expr
  | .num w => some (.num w)
  | .op w a b =>
    match legalize a, legalize b with
    | some a, some b => some (.op w a b)
    | _, _ => none
  | .sel w c a b =>
    match legalize c, legalize a, legalize b with
    | some c, some a, some b => some (.sel w c a b)
    | _, _, _ => none
  | .bvar f => some (.bvar f)
  | .cmp f a b =>
    match legalize a, legalize b with
    | some a, some b => (legalFmt f (max a.width b.width)).map fun g => .cmp g a b
    | _, _ => none
  | .conn f a b =>
    match legalize a, legalize b with
    | some a, some b => (legalFmt f (max a.width b.width)).map fun g => .conn g a b
    | _, _ => none
  | .lnot f a =>
    match legalize a with
    | some a => (legalFmt f a.width).map fun g => .lnot g a
    | none => none
  | .test f a =>
    match legalize a with
    | some a => (legalFmt f a.width).map fun g => .test g a
    | none => none
  | .other f a =>
    match legalize a with
    | some a => some (.other f a)
    | none => none

/-- `is_scalar_virtual_bool_node` for the classes whose format is changed
(p_scalar_vbool_legalization.py:54-55, 85-103). -/
def changed : Expr → Bool
  | .cmp f _ _ | .conn f _ _ | .lnot f _ | .test f _ => f = .virtual
  | _ => false

/-- `execute` (p_scalar_vbool_legalization.py:144-146): `transform_graph` is called without
`root=True`; the inner `none` is the Python value `None`. -/
def execute (e : Expr) : Option (Option Expr) :=
  (legalize e).map fun e' => if changed e then some e' else none

/-- `is_legalizable` (p_scalar_vbool_legalization.py:109-112). -/
def legalizable : Expr → Bool
  | .cmp _ _ _ => true
  | .conn f _ _ | .lnot f _ | .test f _ | .other f _ => f = .virtual
  | _ => false

/-- `execute_on_optree` (node_transformation.py:89-118), `transform_graph` with `root=True`. -/
def executeOnOptree (e : Expr) : Option (Option Expr) :=
  (legalize e).map fun e' => if legalizable e then (if changed e then some e' else none) else some e'

end Verif.SBool
