import Verif.Vec.Spec

/-! Model of `metalibm_core/core/static_vectorizer.py` (path extraction, masks, sub-vectors) and of
the vector wrappers of `metalibm_core/core/ml_function.py`. Nodes are trees and memo tables are
left out; formats are left out; a vector operation acts lane by lane. -/

namespace Verif.Vec

variable {V : Type}

/-- dictionary from local variables to nodes -/
abbrev Map (V : Type) := Nat → Option (Expr V)

/-- core/ml_operations.py:652-660, 722-736, 816-829 `copy` with a copy map: a mapped variable is
replaced, an input is kept, any other local variable becomes a new free variable. Copies are
themselves never mapped. -/
def Expr.copy : Expr V → Map V → Expr V
  | .const v, _ => .const v
  | .var (.input n), _ => .var (.input n)
  | .var (.loc n), m => (m n).getD (.var (.copyOf n))
  | .var (.copyOf n), _ => .var (.copyOf n)
  | .un f a, m => .un f (a.copy m)
  | .bin f a b, m => .bin f (a.copy m) (b.copy m)
  | .tern f a b c, m => .tern f (a.copy m) (b.copy m) (c.copy m)

/-- Conditions of a validity mask: a condition, its `LogicalNot`, a constant or a `LogicalAnd`. -/
inductive Mask (V : Type)
  | cond (e : Expr V)
  | not (e : Expr V)
  | const (b : Bool)
  | and (a b : Mask V)

/-- static_vectorizer.py:407-414 `VectorizedPath` -/
structure Path (V : Type) where
  tree : Option (Expr V)
  masks : List (Mask V)
  vars : Map V
  final : Bool

/-- static_vectorizer.py:451,467,496 `VectorizedPath(None, [])` -/
def Path.none : Path V := ⟨Option.none, [], fun _ => Option.none, false⟩

/-- dictionary update: the second dictionary has priority -/
def merge (a b : Map V) : Map V := fun n => (b n).or (a n)

mutual
/-- static_vectorizer.py:390-496 `extract_vectorizable_path` with the default `fallback_policy`
(lines 48-51); the second result is the mutated `local_mapping`. The pre-statement of a condition
(lines 420-425) is always empty (ml_operations.py:1352-1358 raise) and contributes nothing. -/
def extract : Stmt V → Map V → Path V × Map V
  | .ifThen c (some true) t, lm => -- 427-435
      let r := extract t lm
      (⟨r.1.tree, r.1.masks ++ [.cond c], r.1.vars, false⟩, r.2)
  | .ifElse c (some true) t _, lm => -- 427-435
      let r := extract t lm
      (⟨r.1.tree, r.1.masks ++ [.cond c], r.1.vars, false⟩, r.2)
  | .ifThen _ (some false) _, lm => (Path.none, lm) -- 449-451
  | .ifElse c (some false) _ e, lm => -- 438-448
      let r := extract e lm
      (⟨r.1.tree, r.1.masks ++ [.not c], r.1.vars, false⟩, r.2)
  | .ifThen c none t, lm => -- 452-463
      let r := extract t lm
      (⟨r.1.tree, [.cond c] ++ r.1.masks, r.1.vars, false⟩, r.2)
  | .ifElse c none t _, lm => -- 452-463
      let r := extract t lm
      (⟨r.1.tree, [.cond c] ++ r.1.masks, r.1.vars, false⟩, r.2)
  | .block b, lm => -- 464-481
      let r := extractLoop b lm (fun _ => none) [] none
      (⟨r.1.tree, r.1.masks, r.1.vars, false⟩, r.2)
  | .assign n e, lm => -- 482-492
      let v := e.copy lm
      (⟨none, [], fun k => if k = n then some v else none, false⟩,
        fun k => if k = n then some v else lm k)
  | .ret e, lm => (⟨some (e.copy lm), [], fun _ => none, true⟩, lm) -- 493-494
  | .other _, lm => (Path.none, lm) -- 495-496

/-- static_vectorizer.py:468-480: the loop over the statements, with the merged variable mapping,
the merged validity list and the result tree as accumulators -/
def extractLoop : Block V → Map V → Map V → List (Mask V) → Option (Expr V) → Path V × Map V
  | .nil, lm, vars, masks, res => (⟨res, masks, vars, false⟩, lm)
  | .cons s b, lm, vars, masks, res =>
      let r := extract s lm
      let vars' := merge vars r.1.vars
      let masks' := masks ++ r.1.masks
      let res' := res.or r.1.tree
      if r.1.final then (⟨res', masks', vars', false⟩, r.2)
      else extractLoop b r.2 vars' masks' res'
end

/-- static_vectorizer.py:84-113 `instanciate_variable` (the mapped node itself is not traversed) -/
def instantiate : Expr V → Map V → Expr V
  | .var (.loc n), m => (m n).getD (.var (.loc n))
  | .un f a, m => .un f (instantiate a m)
  | .bin f a b, m => .bin f (instantiate a m) (instantiate b m)
  | .tern f a b c, m => .tern f (instantiate a m) (instantiate b m) (instantiate c m)
  | e, _ => e

/-- static_vectorizer.py:54-64 `and_merge_conditions` on a non-empty list; 293-295: a constant mask
for the empty list. -/
def andMerge : List (Mask V) → Mask V
  | [] => .const true
  | [m] => m
  | a :: b :: l =>
      let n := (a :: b :: l).length / 2
      .and (andMerge ((a :: b :: l).take n)) (andMerge ((a :: b :: l).drop n))
  termination_by l => l.length
  decreasing_by
    all_goals simp
    all_goals omega

/-- static_vectorizer.py:297 `and_merge_conditions(...).copy(arg_list_copy)`: only inputs are in the copy map -/
def Mask.copy : Mask V → Mask V
  | .cond e => .cond (e.copy fun _ => none)
  | .not e => .not (e.copy fun _ => none)
  | .const b => .const b
  | .and a b => .and a.copy b.copy

def Mask.eval (truth : V → Bool) : Mask V → Env V → Bool
  | .cond e, σ => truth (e.eval σ)
  | .not e, σ => !truth (e.eval σ)
  | .const b, _ => b
  | .and a b, σ => a.eval truth σ && b.eval truth σ

/-- static_vectorizer.py:231-276: the lane of the full vector that sub-vector `i` reads in its own
lane `j`, in the three cases of the sub-vector size -/
def argLane (size sub i j : Nat) : Nat :=
  if sub = size then j
  else if sub = 1 then i
  else i * sub + j

/-- static_vectorizer.py:230-308: one copy of the lane-wise function `f` per sub-vector, assembled
(`VectorAssembling`) into a full vector. `inp n k` is lane `k` of the `n`-th vector argument. -/
def assemble {A : Type} (f : (Nat → V) → A) (size sub : Nat) (inp : Nat → Nat → V) : List A :=
  (List.range (size / sub)).flatMap fun i =>
    (List.range sub).map fun j => f fun n => inp n (argLane size sub i j)

/-- static_vectorizer.py:116-131 `no_scalar_fallback_required` on the assembled copies of a mask -/
def noFallback (truth : V → Bool) : Mask V → Bool
  | .const b => b
  | .cond (.const v) => truth v
  | _ => false

/-- ml_function.py:308-333 (C) and 346-365 (OpenCL): the loop over lanes `i, i+1, ...` that assigns
the scalar callback to each lane whose mask is false -/
def fixLanes (callback : Nat → Option V) : Nat → Nat → List Bool → List (Option V) → List (Option V)
  | 0, _, _, res => res
  | n + 1, i, mask, res =>
      fixLanes callback n (i + 1) mask
        (if mask.getD i true then res else res.set i (callback i))

/-- ml_function.py:1219-1233 (and 289-337, 367-378): the generated vector function. `none` stands
for a scheme whose path has no return (`vectorize_scheme` fails). -/
def vectorFn (truth : V → Bool) (junk : Nat → V) (s : Stmt V) (size sub : Nat)
    (inp : Nat → Nat → V) : Option (List (Option V)) :=
  let p := (extract s fun _ => none).1
  match p.tree with
  | none => none
  | some t =>
      let path := instantiate t p.vars
      let mask := (andMerge p.masks).copy
      let vec := assemble (fun a => some (path.eval (start junk a))) size sub inp
      let vmask := assemble (fun a => mask.eval truth (start junk a)) size sub inp
      if noFallback truth mask then some vec
      else if vmask.all id then some vec
      else some (fixLanes (fun i => scalar truth junk s fun n => inp n i) size 0 vmask vec)

end Verif.Vec
