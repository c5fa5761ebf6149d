import Verif.ErrEval.Spec

/-! # Model of metalibm_core/opt/runtime_error_eval.py

The maps of the code are functions to `Option`. The function of the other operations (`apply_bare_range_function`) is a parameter, and fails on variables. -/

namespace Verif.ErrEval

variable {V : Type}

inductive Err where
  | unknownVariable | key
  deriving DecidableEq

/-- a map with one more entry -/
def upd {α : Type} (m : ℕ → Option α) (i : ℕ) (v : α) : ℕ → Option α := fun j => if j = i then some v else m j

/-- runtime_error_eval.py:68-95 `evaluate_graph_value`: the value and the memoization map -/
def evaluate (G : Graph V) (M : Meaning V) (inp : ℕ → Option V) (i : ℕ) (m : ℕ → Option V) : Except Err (V × (ℕ → Option V)) :=
  match m i with
  | some v => .ok (v, m)
  | none =>
    match inp i with
    | some v => .ok (v, upd m i v)
    | none =>
      match G.kind i with
      | .const v => .ok (v, upd m i v)
      | .var => .error .unknownVariable
      | k => do
        let (vs, m') ← (G.inputs i).attach.foldlM (fun (st : List V × (ℕ → Option V)) (j : {x // x ∈ G.inputs i}) => do
          let (v, m') ← evaluate G M inp j.1 st.2
          return (st.1 ++ [v], m')) ([], m)
        let v ← match k, vs with
          | .typecast, v :: _ => Except.ok (M.typecast i v)
          | .conversion, v :: _ => .ok (M.conversion i v)
          | .op, vs => .ok (M.op i vs)
          | _, _ => .error .key
        return (v, upd m' i v)
termination_by i
decreasing_by exact G.acyclic i j.1 j.2

/-- a report: the node, and the value expected for it; the code holds `None` in place of the reports it is still making -/
abbrev Reports (V : Type) := ℕ → Option (Option V)

/-- runtime_error_eval.py:130-158 `generate_node_eval_error` -/
def report (G : Graph V) (inp values : ℕ → Option V) (i : ℕ) (e : Reports V) : Except Err (Reports V) :=
  if (e i).isSome ∨ (inp i).isSome then .ok e
  else do
    let e' ← (G.inputs i).attach.foldlM (fun e (j : {x // x ∈ G.inputs i}) => report G inp values j.1 e) (upd e i none)
    match values i with
    | none => .error .key
    | some v => return upd e' i (some v)
termination_by i
decreasing_by exact G.acyclic i j.1 j.2

/-- runtime_error_eval.py:160-176 `generate_error_eval_graph` -/
def errorGraph (G : Graph V) (M : Meaning V) (inp : ℕ → Option V) (root : ℕ) : Except Err (Reports V) := do
  let (_, values) ← evaluate G M inp root (fun _ => none)
  report G inp values root (fun _ => none)

end Verif.ErrEval
