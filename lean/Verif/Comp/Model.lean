import Verif.Comp.Spec
import Verif.Entity.Model

/-!
# Model of `ComponentObject` and `ComponentInstance`
(`metalibm_core/core/ml_hdl_operations.py`) and of the code generated for instances
-/

namespace Verif.Comp

open Verif.Entity (put get)

/-- `ComponentInstance` (ml_hdl_operations.py:194-213): the component, the identifier, the
operands, `comp_map_id2tag` and the address of `io_map`. -/
structure Inst where
  comp : ℕ
  id : ℕ
  inputs : List ℕ
  tags : List (ℕ × ℕ)
  dict : ℕ

/-- `next c` is the next identifier of `c` (one more than `instance_id`,
ml_hdl_operations.py:240, 248-250). -/
structure World where
  comps : ℕ → Component
  next : ℕ → ℕ
  dicts : ℕ → List (ℕ × ℕ)
  insts : List Inst

/-- `get_io_tag_specifier` (ml_hdl_operations.py:241-246).  The dictionary is filled in the
order of the ports, so the last port of a name counts. -/
def specifier (c : Component) (t : ℕ) : Option Dir :=
  (c.ports.reverse.find? fun p => p.1 = t).map Prod.snd

/-- The loop over `io_map` (ml_hdl_operations.py:208-212); `none`: `KeyError`. -/
def collect (c : Component) : List (ℕ × ℕ) → ℕ → Option (List ℕ × List (ℕ × ℕ))
  | [], _ => some ([], [])
  | (t, v) :: l, k =>
    match specifier c t with
    | none => none
    | some .output => collect c l k
    | some .input =>
      match collect c l (k + 1) with
      | none => none
      | some (ins, tags) => some (v :: ins, (k, t) :: tags)

/-- The two operations. -/
def step (w : World) : Op → Option World
  /- `ComponentInstance.__init__` (ml_hdl_operations.py:199-213) -/
  | .inst c args d =>
    match collect (w.comps c) (w.dicts d) args.length with
    | none => none
    | some (ins, tags) => some { w with
        next := fun a => if a = c then w.next a + 1 else w.next a
        insts := w.insts ++ [⟨c, w.next c, args ++ ins, tags, d⟩] }
  /- `set_input` (ml_hdl_operations.py:215-218, ml_operations.py:324-328); negative indices are
  left out -/
  | .setInput i k v =>
    match w.insts[i]? with
    | none => none
    | some x =>
      if k < x.inputs.length then
        some { w with
          insts := w.insts.set i { x with inputs := x.inputs.set k v }
          dicts := match get x.tags k with
            | none => w.dicts
            | some t => fun a => if a = x.dict then put (w.dicts a) t v else w.dicts a }
      else none

def run : List Op → World → Option World
  | [], w => some w
  | op :: l, w =>
    match step w op with
    | none => none
    | some w' => run l w'

/-- The port map which is generated (vhdl_code_generator.py:360, 366-372); the
expressions are generated node by node. -/
def portMap (w : World) (x : Inst) : List (ℕ × ℕ) := w.dicts x.dict

/-- The components declared, by name (vhdl_code_generator.py:357-359,
code_object.py:243-245, 847-849): generating the instances in order. -/
def declared (w : World) (l : List Inst) : List (ℕ × ℕ) :=
  l.foldl (fun t y => put t (w.comps y.comp).name y.comp) []

end Verif.Comp
