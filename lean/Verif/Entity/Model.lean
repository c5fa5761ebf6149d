import Verif.Entity.Spec

/-!
# Model of `metalibm_core/code_generation/code_entity.py`, and of the dynamic attributes
of `metalibm_core/core/attributes.py`
-/

namespace Verif.Entity

/-- `CodeEntity` (code_entity.py:47-63).  The attribute `init_stage_attribute` made by an
entity has the number of the entity.  Formats, processes and the component are not
modelled; a dictionary is a list of pairs in order of insertion. -/
structure Ent where
  stage : Option ℕ
  args : List (ℕ × ℕ)
  argMap : List (ℕ × ℕ)
  outs : List (ℕ × ℕ)

/-- The entities; `dynamic_attribute_map["init_stage"]`, which holds the last attribute
added (attributes.py:93-98); the value `default_value` of each attribute; the attribute
`init_stage` of each node, `none` when the node does not have it. -/
structure World where
  ents : List Ent
  dyn : Option ℕ
  defaults : ℕ → Option ℕ
  nodes : List (Option (Option ℕ))

def World.init : World := ⟨[], none, fun _ => none, []⟩

/-- `Attributes.__init__` (attributes.py:120-121) with `AttributeCtor.attr_init`
(attributes.py:83-84, 51-58): the value given, or the default of the attribute which is in
the map. -/
def addNode (st : Option (Option ℕ)) (w : World) : World :=
  { w with nodes := w.nodes ++ [w.dyn.map fun a => st.getD (w.defaults a)] }

/-- `d[n] = v` on a dictionary. -/
def put (l : List (ℕ × ℕ)) (n v : ℕ) : List (ℕ × ℕ) :=
  if n ∈ l.map Prod.fst then l.map fun p => if p.1 = n then (n, v) else p else l ++ [(n, v)]

/-- `d[n]` on a dictionary. -/
def get (l : List (ℕ × ℕ)) (n : ℕ) : Option ℕ := (l.find? fun p => p.1 = n).map Prod.snd

/-- Changing an entity; `none` when there is no such entity, or on an error. -/
def upd (e : ℕ) (f : Ent → Option Ent) (w : World) : Option World :=
  match w.ents[e]? with
  | none => none
  | some x =>
    match f x with
    | none => none
    | some y => some { w with ents := w.ents.set e y }

/-- `set_current_stage` (code_entity.py:133-135). -/
def setStage (e : ℕ) (k : Option ℕ) (w : World) : Option World :=
  match upd e (fun x => some { x with stage := k }) w with
  | none => none
  | some w' => some { w' with defaults := fun a => if a = e then k else w'.defaults a }

/-- The steps.  `none`: the step stops with an error. -/
def step (w : World) : Op → Option World
  /- `__init__`, `instanciate_dyn_attributes` (code_entity.py:49-72) -/
  | .entity => some { w with
      ents := w.ents ++ [⟨some 0, [], [], []⟩]
      dyn := some w.ents.length
      defaults := fun a => if a = w.ents.length then some 0 else w.defaults a }
  /- `instanciate_dyn_attributes` (code_entity.py:65-72), as ml_fp_mpfma.py:392-395 calls it
  after making a sub-entity -/
  | .resume e =>
    match w.ents[e]? with
    | none => none
    | some x => some { w with
        dyn := some e
        defaults := fun a => if a = e then x.stage else w.defaults a }
  /- `start_new_stage` (code_entity.py:130-132): `None + 1` is an error -/
  | .start e =>
    match w.ents[e]? with
    | none => none
    | some x =>
      match x.stage with
      | none => none
      | some k => setStage e (some (k + 1)) w
  | .setStage e k => setStage e k w
  | .node st => some (addNode st w)
  /- `add_input_variable`, `add_input_signal` (code_entity.py:77-81, 89-93) -/
  | .input e n =>
    upd e (fun x => some { x with args := x.args ++ [(n, w.nodes.length)],
                                  argMap := put x.argMap n w.nodes.length }) (addNode none w)
  /- `register_new_input_variable` (code_entity.py:139-140) -/
  | .register e n v => upd e (fun x => some { x with args := x.args ++ [(n, v)] }) w
  /- `clear_arg_list` (code_entity.py:144-145) -/
  | .clear e => upd e (fun x => some { x with args := [] }) w
  /- `add_output_signal` (code_entity.py:94-99): two nodes, the port and the assignation;
  `add_output_variable` (82-87) differs by the kind of error only -/
  | .output e n v =>
    upd e (fun x => if n ∈ x.outs.map Prod.fst then none
                    else some { x with outs := put x.outs n v }) (addNode none (addNode none w))
  /- `set_output_signal` (code_entity.py:100-104) -/
  | .setOutput e n v =>
    upd e (fun x => if n ∈ x.outs.map Prod.fst then some { x with outs := put x.outs n v }
                    else none) w

/-- A history of steps. -/
def run : List Op → World → Option World
  | [], w => some w
  | op :: l, w =>
    match step w op with
    | none => none
    | some w' => run l w'

/-- The ports of `get_declaration` (code_entity.py:191-193): the inputs, then the
outputs. -/
def ports (x : Ent) : List ℕ := x.args.map Prod.fst ++ x.outs.map Prod.fst

/-- The names reserved by `reserve_io_names` (code_entity.py:217-229). -/
def reserved (x : Ent) : List ℕ := x.argMap.map Prod.fst ++ x.outs.map Prod.fst

end Verif.Entity
