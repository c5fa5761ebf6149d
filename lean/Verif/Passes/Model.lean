import Verif.Passes.Spec

/-!
# Model of the pass scheduler and of worklist passes (`core/passes.py`)
-/

namespace Verif.Passes

variable {V : Type}

/-- `is_dep_resolved` of `PassDependency`, `AfterPassByClass`, `AfterPassById`, `CombineAnd`,
`CombineOr` (passes.py:34-78). -/
def resolved (executed : List (Pass V)) : Dep → Bool
  | .none => true
  | .afterClass c => executed.any (fun p => p.cls.contains c)
  | .afterId i => executed.any (fun p => p.pid == i)
  | .and a b => resolved executed a && resolved executed b
  | .or a b => resolved executed a || resolved executed b

/-- The scheduler's fields (passes.py:128-137); `ready_passes` is empty between calls and is
therefore the local batch of `drain`.  Slots are numbers. -/
structure Sched (V : Type) where
  slots : ℕ → List (Wrapper V)
  waiting : List (Wrapper V)
  executed : List (Pass V)

/-- `register_pass` (passes.py:139-149). -/
def register (s : Sched V) (slot : ℕ) (w : Wrapper V) : Sched V :=
  { s with slots := fun k => if k = slot then s.slots k ++ [w] else s.slots k }

/-- `default_execute_pass` (passes.py:90-91). -/
def execPass (p : Pass V) (inputs : List V) : List V := inputs.map p.exec

/-- `execute_pass_list` (passes.py:177-182): every pass of the list is given `inputs`. -/
def executeList (batch : List (Pass V)) (inputs : List V) : List V :=
  batch.foldl (fun _inter p => execPass p inputs) inputs

/-- The loop of `get_full_execute_from_slot` with `update_rdy_pass_list` (passes.py:155-166,
184-210).  Also returned: the wrappers of the executed batches, in order (a log). -/
def drain : ℕ → List (Wrapper V) → List (Pass V) → List V →
    Option (List (List (Wrapper V)) × List (Wrapper V) × List (Pass V) × List V)
  | 0, _, _, _ => none
  | fuel + 1, waiting, executed, inputs =>
    let batch := waiting.filter (fun w => resolved executed w.dep)
    let rest := waiting.filter (fun w => !resolved executed w.dep)
    if batch.length > 0 then
      match drain fuel rest (executed ++ batch.map Wrapper.pass)
          (executeList (batch.map Wrapper.pass) inputs) with
      | none => none
      | some (bs, r) => some (batch :: bs, r)
    else some ([], rest, executed, inputs)

/-- `get_full_execute_from_slot` (passes.py:192-210), with `enqueue_slot_to_waiting`
(passes.py:168-170). -/
def executeSlot (fuel : ℕ) (s : Sched V) (slot : ℕ) (inputs : List V) :
    Option (List (List (Wrapper V)) × Sched V × List V) :=
  match drain fuel (s.waiting ++ s.slots slot) s.executed inputs with
  | none => none
  | some (bs, rest, executed, out) =>
    some (bs, ⟨fun k => if k = slot then [] else s.slots k, rest, executed⟩, out)

/-- `PassScheduler.__init__` (passes.py:128-137): all slots empty.  Simplification: slots outside the list given to the
constructor exist too (the code raises `KeyError` when one is used). -/
def Sched.empty : Sched V := ⟨fun _ => [], [], []⟩

/-- A history of calls on one scheduler, the latest first (`register_pass` passes.py:139-149, `get_full_execute_from_slot`
passes.py:192-210); also returned: the executed registrations in order. -/
def runActs (fuel : ℕ) : List (Act V) → Option (List (Wrapper V) × Sched V)
  | [] => some ([], Sched.empty)
  | .reg k w :: h =>
    match runActs fuel h with
    | none => none
    | some (log, s) => some (log, register s k w)
  | .exec k inputs :: h =>
    match runActs fuel h with
    | none => none
    | some (log, s) =>
      match executeSlot fuel s k inputs with
      | none => none
      | some (bs, s', _) => some (log ++ bs.flatten, s')

/-! ## Worklist passes -/

/-- State of `LinearizedGraphOptimization.execute`: the worklist, the keys of `memoization_map`,
and (for observation) the nodes the transformation was applied to, in order. -/
structure WL (α : Type) where
  work : List α
  memo : List α
  log : List α

variable {α : Type} [DecidableEq α]

/-- The `for op in node.inputs` loop (passes.py:339-343): missing operands are appended once. -/
def addMissing (memo : List α) : List α → List α → List α
  | work, [] => work
  | work, op :: ops =>
    if op ∈ memo then addMissing memo work ops
    else if op ∈ work then addMissing memo work ops
    else addMissing memo (work ++ [op]) ops

/-- `apply_on_node` as in the concrete pass (`opt/p_rtl_legalize.py`, `legalize_operation`,
lines 178-203): nothing for a memoised node, otherwise transform it and memoise it. -/
def applyOnNode (s : WL α) (work : List α) (n : α) : WL α :=
  if n ∈ s.memo then { s with work := work }
  else { work := work, memo := n :: s.memo, log := s.log ++ [n] }

/-- One iteration of the `while worklist` loop (passes.py:334-349). -/
def wlStep (leaf : α → Bool) (inputs : α → List α) (s : WL α) : Option (WL α) :=
  match s.work with
  | [] => none
  | n :: work =>
    if leaf n then some (applyOnNode s work n)
    else
      let opReady := (inputs n).all (fun op => decide (op ∈ s.memo))
      let work' := addMissing s.memo work (inputs n)
      if !opReady && !decide (n ∈ work') then some { s with work := work' ++ [n] }
      else if opReady then some (applyOnNode s work' n)
      else some { s with work := work' }

/-- The whole loop. -/
def wlLoop (leaf : α → Bool) (inputs : α → List α) : ℕ → WL α → Option (WL α)
  | 0, _ => none
  | fuel + 1, s =>
    match wlStep leaf inputs s with
    | none => some s
    | some s' => wlLoop leaf inputs fuel s'

/-- `execute` (passes.py:332-350), without the result extraction; `memo` is what earlier calls on
the same pass object memoised. -/
def wlExecute (leaf : α → Bool) (inputs : α → List α) (fuel : ℕ) (memo : List α) (root : α) :
    Option (WL α) :=
  wlLoop leaf inputs fuel ⟨[root], memo, []⟩

end Verif.Passes
