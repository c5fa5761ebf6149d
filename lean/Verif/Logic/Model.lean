import Verif.Logic.Spec

/-!
# Models of `opt_utils.logical_reduce`, `AdditionN`, `and_merge_conditions` and of the logical simplification pass
-/

namespace Verif.Logic

/-- Python exceptions. -/
inductive Err where
  | indexError | notImplemented | assertion
  deriving DecidableEq, Repr

/-- `logical_reduce`, metalibm_core/opt/opt_utils.py:157-169, and `AdditionN`, metalibm_core/core/ml_operations.py:2100-2107: take
the first two elements of the queue, append their combination at the end, until one is left.  Reading the result of an empty
list raises. -/
def reduceQ {α : Type} (op : α → α → α) : List α → Except Err α
  | [] => .error .indexError
  | [a] => .ok a
  | a :: b :: rest => reduceQ op (rest ++ [op a b])
termination_by l => l.length
decreasing_by simp

/-- `and_merge_conditions`, metalibm_core/core/static_vectorizer.py:54-64: split in two halves. -/
def mergeHalves {α : Type} (op : α → α → α) : List α → Except Err α
  | [] => .error .assertion
  | [a] => .ok a
  | a :: b :: rest => do
    let l := a :: b :: rest
    let first ← mergeHalves op (l.take (l.length / 2))
    let second ← mergeHalves op (l.drop (l.length / 2))
    return op first second
termination_by l => l.length
decreasing_by
  · simp; omega
  · simp only [List.length_drop, List.length_cons]; omega

/-- `is_logical_and_not`, metalibm_core/opt/p_logical_simplification.py:43-51: both `lhs` and `rhs` read input 0. -/
def isAndNot : Expr → Bool
  | .and a _ =>
    match a with
    | .not _ => true
    | a => isAndNot a
  | _ => false

/-- `is_logical_or_not`, p_logical_simplification.py:54-62. -/
def isOrNot : Expr → Bool
  | .or a _ =>
    match a with
    | .not _ => true
    | a => isOrNot a
  | _ => false

mutual

/-- `LogicalSimplification.simplify`, p_logical_simplification.py:147-178 (without the memoization map). -/
def simp : Expr → Except Err Expr
  | .atom n => .ok (.atom n)
  | .not a => do
    let a' ← simp a
    return .not a'
  | .and a b =>
    if isAndNot (.and a b) then do
      let la ← andLeaves a
      let lb ← andLeaves b
      let r ← reduceQ .or (la ++ lb)
      return .not r
    else do
      let a' ← simp a
      let b' ← simp b
      return .and a' b'
  | .or a b =>
    if isOrNot (.or a b) then do
      let la ← orLeaves a
      let lb ← orLeaves b
      let r ← reduceQ .and (la ++ lb)
      return .not r
    else do
      let a' ← simp a
      let b' ← simp b
      return .or a' b'
  | .op k a b => do
    let a' ← simp a
    let b' ← simp b
    return .op k a' b'

/-- `get_input_list` 75-82 with `leaf_function` 99-100 as called by `simplify_logical_and_not` 93-110: the operand of each
negation, simplified; anything that is neither a negation nor a conjunction raises. -/
def andLeaves : Expr → Except Err (List Expr)
  | .not a => do
    let a' ← simp a
    return [a']
  | .and a b => do
    let la ← andLeaves a
    let lb ← andLeaves b
    return la ++ lb
  | _ => .error .notImplemented

/-- The same for `simplify_logical_or_not` 113-129, which applies `leaf_transform` (not `leaf_function`) to the leaves: each
negation itself is simplified and kept. -/
def orLeaves : Expr → Except Err (List Expr)
  | .not a => do
    let a' ← simp a
    return [.not a']
  | .or a b => do
    let la ← orLeaves a
    let lb ← orLeaves b
    return la ++ lb
  | _ => .error .notImplemented

end

end Verif.Logic
