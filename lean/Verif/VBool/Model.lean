import Verif.VBool.Spec

/-! # Model of metalibm_core/opt/p_vbool_legalization.py

Simplification: a graph is its tree of operands; the pass visits the operands of a node before the node (node_transformation.py:88-115) and changes formats in place, once per node. -/

namespace Verif.VBool

inductive Err where
  | key | index
  deriving DecidableEq

/-- ml_formats.py:1596-1617: `VECTOR_TYPE_MAP[ML_Bool][size][vector_size]` -/
def boolVector (w n : ℕ) : Except Err Fmt :=
  if n = 2 ∨ n = 3 ∨ n = 4 ∨ n = 8 then
    if w = 32 then .ok (.vec .bool32 n) else if w = 64 then .ok (.vec .bool64 n) else .error .key
  else .error .key

/-- p_vbool_legalization.py:57-60 `is_virtual_bool_node`: the scalar format is `ML_Bool`, that of `v*vbool` and `v*bool` (ml_formats.py:1494-1503) -/
def isVirtual (c : Cls) (f : Fmt) : Bool :=
  match c, f with
  | .other, _ => false
  | _, .vec .virtual _ | _, .vec .bool32 _ => true
  | _, _ => false

/-- the number of lanes (`get_vector_size`) -/
def lanes : Fmt → ℕ
  | .scalar _ => 1
  | .vec _ n => n

/-- p_vbool_legalization.py:67-110 `legalize_node`: the new format of a node, from the formats of its operands -/
def legalFmt (c : Cls) (f : Fmt) (args : List Fmt) : Except Err Fmt :=
  if !isVirtual c f then .ok f
  else match c, args with
    | .comparison, a :: b :: _ | .land, a :: b :: _ | .lor, a :: b :: _ | .assembling, a :: b :: _ => boolVector (max a.bits b.bits) (lanes f)
    | .lnot, a :: _ | .listedTest, a :: _ => boolVector a.bits (lanes f)
    | .otherTest, _ | .other, _ => .ok f
    | _, _ => .error .index

mutual
/-- node_transformation.py:88-115 `transform_graph` with the action above -/
def legalize : Node → Except Err Node
  | .mk c f args => do
    let l ← legalizeArgs args
    let g ← legalFmt c f (l.map Node.fmt)
    return .mk c g l

def legalizeArgs : List Node → Except Err (List Node)
  | [] => .ok []
  | a :: l => do
    let a' ← legalize a
    let l' ← legalizeArgs l
    return a' :: l'
end

end Verif.VBool
