import Verif.FnGroup.Spec

/-!
# Model of `FunctionGroup` (`metalibm_core/code_generation/code_function.py`) and of its
uses in `metalibm_core/core/ml_function.py`
-/

namespace Verif.FnGroup

variable {σ : Type}

/-- `for fct in list: ...` on a list which can grow: the loop keeps an index
(code_function.py:196-203, 216-223).  `none`: the loop has not ended within the bound. -/
def loop (body : Fct → World σ → World σ) (l : ℕ) : ℕ → ℕ → World σ → Option (World σ)
  | 0, _, _ => none
  | fuel + 1, i, w =>
    match (w.lists l)[i]? with
    | none => some w
    | some f => loop body l fuel (i + 1) (body f w)

/-- `if inc_external or not fct.external: routine(self, fct)`
(code_function.py:197-198, 202-203). -/
def guarded (r : Fct → World σ → World σ) (ext : Bool) (f : Fct) (w : World σ) : World σ :=
  if ext || !f.external then r f w else w

/-- `apply_to_core_functions` (code_function.py:195-198). -/
def applyCore (r : Fct → World σ → World σ) (ext : Bool) (fuel : ℕ) (g : Group) (w : World σ) :
    Option (World σ) :=
  loop (guarded r ext) g.core fuel 0 w

/-- `apply_to_sub_functions` (code_function.py:200-203). -/
def applySub (r : Fct → World σ → World σ) (ext : Bool) (fuel : ℕ) (g : Group) (w : World σ) :
    Option (World σ) :=
  loop (guarded r ext) g.sub fuel 0 w

/-- `apply_to_all_functions` (code_function.py:205-208). -/
def applyAll (r : Fct → World σ → World σ) (ext : Bool) (fuel : ℕ) (g : Group) (w : World σ) :
    Option (World σ) :=
  match applySub r ext fuel g w with
  | none => none
  | some w' => applyCore r ext fuel g w'

/-- `add_sub_function`, `add_core_function` (code_function.py:189-193): the function is
appended to the list at address `l`. -/
def add (l : ℕ) (f : Fct) (w : World σ) : World σ :=
  { w with lists := fun k => if k = l then w.lists k ++ [f] else w.lists k }

/-- `merge_with_group` (code_function.py:211-223). -/
def merge (demote : Bool) (fuel : ℕ) (g h : Group) (w : World σ) : Option (World σ) :=
  match loop (add g.sub) h.sub fuel 0 w with
  | none => none
  | some w' => loop (add (if demote then g.sub else g.core)) h.core fuel 0 w'

/-- `get_code_function_by_name` (code_function.py:226-230). -/
def byName (g : Group) (w : World σ) (n : ℕ) : Option Fct :=
  (w.lists g.core ++ w.lists g.sub).find? fun f => f.name = n

/-- `generate_C_code` (ml_function.py:719-758); the text of declarations and definitions
is not modelled here. -/
def generateC (fuel : ℕ) (g : Group) (w : World (List Line)) : Option (World (List Line)) :=
  match applyAll (fun f w => { w with out := w.out ++ [.decl f] }) false fuel g w with
  | none => none
  | some w' => applyAll (fun f w => { w with out := w.out ++ [.definition f] }) false fuel g w'

/-- The statements before the checks, and the checks, of the main function. -/
structure Main where
  pre : List Fct
  checks : List Fct

/-- `add_fct_call_check_in_main` (ml_function.py:888-903), without the optimization of the
function; `check` says whether a check is given. -/
def addCall (check : Bool) (f : Fct) (w : World Main) : World Main :=
  { w with out := { pre := w.out.pre ++ [f],
                    checks := if check then w.out.checks ++ [f] else w.out.checks } }

/-- Running the checks of the main function: `if check(call): return 1`, then `return 0`
(ml_function.py:898-902, 991-998).  `fails f` says that the check on the value returned by
`f` holds; the call itself is in the statements before. -/
def runChecks (fails : Fct → Bool) : List Fct → ℕ
  | [] => 0
  | f :: l => if fails f then 1 else runChecks fails l

/-- Running the main function (ml_function.py:989-998). -/
def runMain (fails : Fct → Bool) (m : Main) : Run :=
  ⟨m.pre, runChecks fails m.checks⟩

/-- `instrument_function_group` (ml_function.py:862-969): for each group of wrappers, with
its check or without, calls in the main function, then the group is merged. -/
def instrument (fuel : ℕ) (g : Group) : List (Group × Bool) → World Main → Option (World Main)
  | [], w => some w
  | (h, check) :: l, w =>
    match applyAll (addCall check) false fuel h w with
    | none => none
    | some w' =>
      match merge true fuel g h w' with
      | none => none
      | some w'' => instrument fuel g l w''

end Verif.FnGroup
