import Verif.Simplify.Spec

/-!
# Model of `metalibm_core/opt/p_numerical_simplification.py`

`NumericalSimplifier.simplify` mutates nodes in place and memoizes on node identity; the model rebuilds a tree (see the memoized
rewriting property C59 for sharing).  Vector constants are not modelled.
-/

namespace Verif.Simplify
open Verif.Interval (Iv)

/-- The `interval` attribute: numeric constants get the point interval of their value (core/ml_operations.py:627-628). -/
def interval : Expr → Option (Iv E)
  | .var _ iv _ => iv
  | .cst x _ => some ⟨x, x⟩
  | .minOp iv _ _ _ => iv
  | .maxOp iv _ _ _ => iv
  | .mul iv _ _ _ => iv
  | .op2 iv _ _ _ _ => iv
  | .select iv _ _ _ _ => iv
  | _ => none

/-- `is_fixed_format(node.get_precision())`. -/
def isFixed : Expr → Bool
  | .var _ _ f => f
  | .cst _ f => f
  | .minOp _ f _ _ => f
  | .maxOp _ f _ _ => f
  | .mul _ f _ _ => f
  | .op2 _ f _ _ _ => f
  | .select _ f _ _ _ => f
  | _ => false

/-- Outcome of a decision on a predicate, p_numerical_simplification.py:175-178. -/
inductive BoolVal where
  | always (b : Bool)
  | indecisive
  deriving DecidableEq, Repr

/-- `is_simplifiable_to_cst`, p_numerical_simplification.py:61-72, and the constant built at 357-363. -/
def toCst (e : Expr) : Option Expr :=
  match e with
  | .cst _ _ => none
  | e =>
    match interval e with
    | none => none
    | some i => if i.inf = i.sup then some (.cst i.inf (isFixed e)) else none

/-- `is_simplifiable_min`, p_numerical_simplification.py:128-140. -/
def minRule (a b : Expr) : Option Expr :=
  match interval a, interval b with
  | some i, some j => if i.sup < j.inf then some a else if j.sup < i.inf then some b else none
  | _, _ => none

/-- `is_simplifiable_max`, p_numerical_simplification.py:142-155. -/
def maxRule (a b : Expr) : Option Expr :=
  match interval a, interval b with
  | some i, some j => if i.sup < j.inf then some b else if j.sup < i.inf then some a else none
  | _, _ => none

/-- `is_simplifiable_cmp`, p_numerical_simplification.py:181-219. -/
def cmpRule (c : Cmp) (a b : Expr) : BoolVal :=
  match interval a, interval b with
  | some i, some j =>
    match c with
    | .eq => .indecisive
    | .ne => .indecisive
    | .lt => if i.sup < j.inf then .always true else if i.inf ≥ j.sup then .always false else .indecisive
    | .le => if i.sup ≤ j.inf then .always true else if i.inf > j.sup then .always false else .indecisive
    | .gt => if i.inf > j.sup then .always true else if i.sup ≤ j.inf then .always false else .indecisive
    | .ge => if i.inf ≥ j.sup then .always true else if i.sup < j.inf then .always false else .indecisive
  | _, _ => .indecisive

/-- `is_simplifiable_test`, p_numerical_simplification.py:222-262.  The infinity branch returns `None` when nothing can be said,
which the caller treats like indecisive. -/
def testRule (t : Tst) (a : Expr) : BoolVal :=
  match interval a with
  | none => .indecisive
  | some i =>
    match t with
    | .isZero =>
      if ¬ (i.inf ≤ fin 0 ∧ fin 0 ≤ i.sup) then .always false
      else if i.inf = i.sup ∧ i.sup = fin 0 then .always true else .indecisive
    | .isSubnormal minNormal maxSubnormal =>
      if i.inf ≥ fin minNormal then .always false
      else if i.sup ≤ fin maxSubnormal then .always true else .indecisive
    | .isInfty => if i.sup < plusInf then .always false else if i.inf = plusInf then .always true else .indecisive
    | .isInfOrNaN => if i.sup < plusInf then .always false else if i.inf = plusInf then .always true else .indecisive
    | .other _ => .indecisive

/-- `value in [0, 1]` of a constant node. -/
def isCst01 : Expr → Bool
  | .cst x _ => x = fin 0 ∨ x = fin 1
  | _ => false

/-- `is_simplifiable_multiplication` and `simplify_multiplication`, p_numerical_simplification.py:264-292. -/
def mulRule (fixed : Bool) (a b : Expr) : Option Expr :=
  if isFixed a && isFixed b && (isCst01 a || isCst01 b) then
    match a, b with
    | .cst x _, b => if x = fin 0 then some (.cst (fin 0) fixed) else if x = fin 1 then some b else none
    | a, .cst y _ => if y = fin 0 then some (.cst (fin 0) fixed) else if y = fin 1 then some a else none
    | _, _ => none
  else none

/-- `simplify_logical_op`, p_numerical_simplification.py:80-125, LogicalAnd. -/
def andRule : Expr → Expr → Option Expr
  | .bcst false, _ => some (.bcst false)
  | _, .bcst false => some (.bcst false)
  | .bcst true, .bcst true => some (.bcst true)
  | .bcst true, b => some b
  | a, .bcst true => some a
  | _, _ => none

/-- `simplify_logical_op`, LogicalOr. -/
def orRule : Expr → Expr → Option Expr
  | .bcst false, .bcst false => some (.bcst false)
  | .bcst true, _ => some (.bcst true)
  | _, .bcst true => some (.bcst true)
  | _, _ => none

/-- `simplify_logical_op`, LogicalNot. -/
def notRule : Expr → Option Expr
  | .bcst b => some (.bcst !b)
  | _ => none

def BoolVal.toExpr : BoolVal → Option Expr
  | .always b => some (.bcst b)
  | .indecisive => none

/-- The rules applied to a node whose inputs are already simplified, p_numerical_simplification.py:357-389: the constant rule
first, then by operation. -/
def nodeRule (e : Expr) : Option Expr :=
  match toCst e with
  | some r => some r
  | none =>
    match e with
    | .mul _ f a b => mulRule f a b
    | .minOp _ _ a b => minRule a b
    | .maxOp _ _ a b => maxRule a b
    | .cmp c a b => (cmpRule c a b).toExpr
    | .test t a => (testRule t a).toExpr
    | .block2 p (.bcst true) s => some (.stmt p s)
    | .block3 p (.bcst true) s _ => some (.stmt p s)
    | .block3 p (.bcst false) _ t => some (.stmt p t)
    | .and a b => andRule a b
    | .or a b => orRule a b
    | .not a => notRule a
    | _ => none

/-- Keep the node when no rule applies. -/
def applyRule (e : Expr) : Expr := (nodeRule e).getD e

/-- `NumericalSimplifier.simplify`, p_numerical_simplification.py:340-393: simplify the inputs, then the node
(the pre-statement of a condition block is not an input and is left as it is). -/
def simp : Expr → Expr
  | .minOp iv f a b => applyRule (.minOp iv f (simp a) (simp b))
  | .maxOp iv f a b => applyRule (.maxOp iv f (simp a) (simp b))
  | .mul iv f a b => applyRule (.mul iv f (simp a) (simp b))
  | .op2 iv f g a b => applyRule (.op2 iv f g (simp a) (simp b))
  | .select iv f c a b => applyRule (.select iv f (simp c) (simp a) (simp b))
  | .cmp c a b => applyRule (.cmp c (simp a) (simp b))
  | .test t a => applyRule (.test t (simp a))
  | .and a b => applyRule (.and (simp a) (simp b))
  | .or a b => applyRule (.or (simp a) (simp b))
  | .not a => applyRule (.not (simp a))
  | .stmt a b => applyRule (.stmt (simp a) (simp b))
  | .block2 p c s => applyRule (.block2 p (simp c) (simp s))
  | .block3 p c s t => applyRule (.block3 p (simp c) (simp s) (simp t))
  | e => applyRule e

end Verif.Simplify
