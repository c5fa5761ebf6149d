import Verif.Tabs.Spec
import Mathlib.Data.List.Basic

/-! # Model of `extract_tables` (`metalibm_core/opt/opt_utils.py:214-228`) -/

namespace Verif.Tabs

/-- The loop over the operands (opt_utils.py:224-227): those not met before are recorded and
queued. -/
def push : List ℕ → List ℕ → List ℕ → List ℕ × List ℕ
  | [], proc, work => (proc, work)
  | j :: l, proc, work => if j ∈ proc then push l proc work else push l (proc ++ [j]) (work ++ [j])

/-- `table_set.add` (opt_utils.py:222). -/
def add (t : List ℕ) (e : ℕ) : List ℕ := if e ∈ t then t else t ++ [e]

/-- The `while` loop (opt_utils.py:219-227), with at most `fuel` turns. -/
def loop (G : Graph) : ℕ → List ℕ → List ℕ → List ℕ → Option (List ℕ)
  | _, _, [], t => some t
  | 0, _, _ :: _, _ => none
  | fuel + 1, proc, e :: work, t =>
    match G.kind e with
    | .table => loop G fuel proc work (add t e)
    | .leaf => loop G fuel proc work t
    | .op => loop G fuel (push (G.inputs e) proc work).1 (push (G.inputs e) proc work).2 t

/-- `extract_tables` (opt_utils.py:214-228). -/
def extract (G : Graph) (fuel root : ℕ) : Option (List ℕ) := loop G fuel [root] [root] []

end Verif.Tabs
