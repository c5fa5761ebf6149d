import Verif.ChkPass.Spec
import Mathlib.Data.List.Basic

/-! # Model of the check passes: metalibm_core/opt/p_check_precision.py and p_check_support.py

Nodes are numbers.  The recursion is bounded by a fuel: `none` is a recursion that did not end (Python raises `RecursionError`).  Messages are not modelled. -/

namespace Verif.ChkPass

mutual
/-- p_check_precision.py:63-83 `Pass_CheckGeneric.execute`: the map of the pass keeps the check of the node alone, written before the inputs are visited; leaves have no inputs.
The map is a list of the nodes, the newest first, with the result. -/
def exec (G : Graph) (check : ℕ → Bool) : ℕ → List (ℕ × Bool) → ℕ → Option (Bool × List (ℕ × Bool))
  | 0, _, _ => none
  | k + 1, memo, n =>
    match memo.find? (fun p => p.1 == n) with
    | some p => some (p.2, memo)
    | none => execL G check k ((n, check n) :: memo) (check n) (G n)
/-- 80-82 the inputs, `check_result &= ...` -/
def execL (G : Graph) (check : ℕ → Bool) : ℕ → List (ℕ × Bool) → Bool → List ℕ → Option (Bool × List (ℕ × Bool))
  | _, memo, acc, [] => some (acc, memo)
  | 0, _, _, _ :: _ => none
  | k + 1, memo, acc, m :: ms =>
    match exec G check k memo m with
    | none => none
    | some (r, memo') => execL G check k memo' (acc && r) ms
end

/-- p_check_precision.py:85-90: a pass object keeps its map from one execution to the next -/
def execAll (G : Graph) (check : ℕ → Bool) (k : ℕ) : List (ℕ × Bool) → List ℕ → Option (List Bool)
  | _, [] => some []
  | memo, n :: ns =>
    match exec G check k memo n with
    | none => none
    | some (r, memo') => (execAll G check k memo' ns).map (r :: ·)

/-- a support table: whether an operation is supported, for each language (0 is `C_Code`); `free` are the leaves, statements, branches, assignments... that are not tested -/
structure Target where
  sup : ℕ → ℕ → Bool
  free : ℕ → Bool

/-- the end of the check: passed with the new map, the error on a node -/
inductive Res
  | ok (memo : List ℕ)
  | error (n : ℕ)
  deriving DecidableEq, Repr

mutual
/-- p_check_support.py:38-92 `check_target_support`: the inputs (with the pre-statement of a `ConditionBlock`, the cases of a `SwitchBlock`) are visited first, without the
language, the node is recorded last -/
def support (G : Graph) (T : Target) (lang : ℕ) : ℕ → List ℕ → ℕ → Option Res
  | 0, _, _ => none
  | k + 1, memo, n =>
    if n ∈ memo then some (.ok memo)
    else match supportL G T k memo (G n) with
      | none => none
      | some (.error m) => some (.error m)
      | some (.ok memo') => if T.free n || T.sup lang n then some (.ok (n :: memo')) else some (.error n)
/-- 59-61: the default language is `C_Code` -/
def supportL (G : Graph) (T : Target) : ℕ → List ℕ → List ℕ → Option Res
  | _, memo, [] => some (.ok memo)
  | 0, _, _ :: _ => none
  | k + 1, memo, m :: ms =>
    match support G T 0 k memo m with
    | none => none
    | some (.error e) => some (.error e)
    | some (.ok memo') => supportL G T k memo' ms
end

end Verif.ChkPass
