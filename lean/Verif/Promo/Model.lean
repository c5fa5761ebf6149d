import Verif.Promo.Spec

/-! # Model of metalibm_core/opt/p_vector_promotion.py

Simplifications: a graph is its tree of operands, so the memoization (which returns the node already made for the same node and expected format) and the copy map are not modelled; every expression has a format; the support test of the target is a parameter that sees the operation and its promoted formats. -/

namespace Verif.Promo

variable {T K V : Type}

/-- the two ways the pass stops -/
inductive Err where
  | key | notImplemented
  deriving DecidableEq

/-- p_vector_promotion.py:134-139 `get_conv_format` -/
def getConv (G : Target T K) (f : T) : Except Err T :=
  if G.isTable f then .ok f
  else match G.trans f with
    | some g => .ok g
    | none => .error .key

/-- p_vector_promotion.py:141-146 `is_convertible_format` -/
def isConvertible (G : Target T K) (f : T) : Bool := if G.isTable f then true else (G.trans f).isSome

/-- p_vector_promotion.py:54-68 `insert_conversion_when_required` -/
def insertConversion [DecidableEq T] (e : Expr T K V) (f : T) : Expr T K V := if e.fmt ≠ f then .op .conversion f [e] else e

/-- the key getter of p_vector_promotion.py:165-171 -/
def promotedKey (G : Target T K) (c : Option (Cls K)) (f : T) (fs : List T) : Except Err (Use T K) := do
  let g ← getConv G f
  let gs ← fs.mapM (getConv G)
  return (c, g, gs)

/-- p_vector_promotion.py:150-183 `does_target_support_promoted_op` for an operation or a constant (leaves that are not constants are not supported) -/
def supported [DecidableEq K] (G : Target T K) (c : Option (Cls K)) (f : T) (fs : List T) : Except Err Bool :=
  if !isConvertible G f then .ok false
  else if c = some .elementSelection ∨ c = some .call then .ok false
  else if !fs.all (isConvertible G) then .ok false
  else do
    let k ← promotedKey G c f fs
    return G.supports k

mutual
/-- p_vector_promotion.py:204-268 `promote_node` on expressions -/
def promote [DecidableEq T] [DecidableEq K] (G : Target T K) : Expr T K V → T → Except Err (Expr T K V)
  | .table x f, _ => .ok (.table x f)
  | .var x f, expected =>
    if expected = f then .ok (.var x f)
    else if (G.trans f).isSome then .ok (insertConversion (.var x f) expected)
    else .error .notImplemented
  | .const v f, expected => do
    if ← supported G none f [] then
      let g ← getConv G f
      return insertConversion (.const v g) expected
    else return insertConversion (.const v f) expected
  | .op c f args, expected => do
    if ← supported G (some c) f (args.map Expr.fmt) then
      let l ← promoteArgs G true args
      let g ← getConv G f
      return insertConversion (.op c g l) expected
    else
      let l ← promoteArgs G false args
      return insertConversion (.op c f l) expected

/-- the lists of promoted operands, p_vector_promotion.py:218 (expected in the promoted format) and p_vector_promotion.py:261 (in their own) -/
def promoteArgs [DecidableEq T] [DecidableEq K] (G : Target T K) : Bool → List (Expr T K V) → Except Err (List (Expr T K V))
  | _, [] => .ok []
  | up, a :: l => do
    let g ← if up then getConv G a.fmt else .ok a.fmt
    let a' ← promote G a g
    let l' ← promoteArgs G up l
    return a' :: l'
end

mutual
/-- `promote_node` on statements, p_vector_promotion.py:244-268: the operands are promoted in their own format and no conversion is added -/
def promoteS [DecidableEq T] [DecidableEq K] (G : Target T K) : Stmt T K V → Except Err (Stmt T K V)
  | .ret e => do return .ret (← promote G e e.fmt)
  | .assign x f e => do return .assign x f (← promote G e e.fmt)
  | .block l => do return .block (← promoteL G l)
  | .cond c l => do
    let c' ← promote G c c.fmt
    return .cond c' (← promoteL G l)
  | .loop i c b => do
    let i' ← promoteS G i
    let c' ← promote G c c.fmt
    return .loop i' c' (← promoteS G b)

/-- the statements of a block and the branches of a condition, p_vector_promotion.py:249-252, 261 -/
def promoteL [DecidableEq T] [DecidableEq K] (G : Target T K) : List (Stmt T K V) → Except Err (List (Stmt T K V))
  | [] => .ok []
  | s :: l => do
    let s' ← promoteS G s
    let l' ← promoteL G l
    return s' :: l'
end

end Verif.Promo
