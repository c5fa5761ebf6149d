import Verif.Stages.Spec

/-!
# Model of `metalibm_core/opt/p_rtl_pipeline.py`
-/

namespace Verif.Stages

/-- The attributes `init_stage` and `memoization_map`. -/
structure St where
  stage : ℕ → Option Stage
  memo : ℕ → Bool

/-- `optree_set_undefined_stage` (p_rtl_pipeline.py:47-52). -/
def setUndefined (n : ℕ) (sid : Option Stage) (s : St) : St :=
  { s with stage := fun j => if j = n then (if s.stage n = none then sid else s.stage n)
      else s.stage j }

/-- `for op_input in optree.get_inputs(): ...` (p_rtl_pipeline.py:69-70). -/
def each (f : ℕ → St → Option St) : List ℕ → St → Option St
  | [], s => some s
  | a :: l, s =>
    match f a s with
    | none => none
    | some s' => each f l s'

/-- `unify_stages_rec` (p_rtl_pipeline.py:54-72).  The first argument bounds the depth of
the recursion, `none` means that the bound is reached. -/
def unify (G : Graph) : ℕ → ℕ → Option Stage → St → Option St
  | 0, _, _, _ => none
  | fuel + 1, n, sid, s =>
    if s.memo n then some s
    else
      let s0 := setUndefined n sid s
      match (if G.leaf n then some s0
             else each (fun a => unify G fuel a (s0.stage n)) (G.inputs n) s0) with
      | none => none
      | some s1 => some { s1 with memo := fun m => if m = n then true else s1.memo m }

/-- `Pass_UnifyPipelineStages.execute` (p_rtl_pipeline.py:83-85): the second argument of
`unify_stages_rec`, meant to be the map, is the stage.  The value returned by the pass
(nothing, since the root is not in the map) is not modelled. -/
def execute (G : Graph) (fuel root : ℕ) (stage : ℕ → Option Stage) : Option St :=
  unify G fuel root (some .object) ⟨stage, fun _ => false⟩

end Verif.Stages
