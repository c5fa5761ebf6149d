import Verif.Backend.Spec

/-! # Model of metalibm_core/code_generation/abstract_backend.py

An interface condition returns `False`, `True`, or a `MatchResult`, weak or not (generator_utility.py:1025-1028); `True` and a `MatchResult` that is not weak are the
same `some false`. Another object is an error of the table (abstract_backend.py:138), which is not modelled. -/

namespace Verif.Backend

/-- `d[k] = …` where the new value may depend on the current one: in place, or at the end -/
def upd {K V : Type} [DecidableEq K] (k : K) (f : Option V → V) : Dict K V → Dict K V
  | [] => [(k, f none)]
  | (k', v) :: r => if k' = k then (k', f (some v)) :: r else (k', v) :: upd k f r

variable {E : Env}

/-- abstract_backend.py:189-232 `is_map_supported_operation` -/
def isMapSupported {V : Type} (m : Map E V) (n : E.N) (lang : E.L) : Bool :=
  match m.lookup lang with
  | none => false
  | some a => match a.lookup (E.op n) with
    | none => false
    | some b => match b.lookup (E.key n) with
      | none => false
      | some c => c.any fun p => E.cond p.1 n && p.2.any fun q => (E.ifc q.1 n).isSome

/-- abstract_backend.py:118-138, the loop on the interfaces: the implementation it returns, or the weak ones -/
def goI (n : E.N) : Dict E.I E.Impl → List E.Impl → E.Impl ⊕ List E.Impl
  | [], acc => .inr acc
  | (ic, im) :: r, acc =>
    match E.ifc ic n with
    | none => goI n r acc
    | some false => .inl im
    | some true => goI n r (acc ++ [im])

/-- abstract_backend.py:116-138, the loop on the conditions -/
def goC (n : E.N) : Dict E.C (Dict E.I E.Impl) → List E.Impl → E.Impl ⊕ List E.Impl
  | [], acc => .inr acc
  | (cd, d) :: r, acc =>
    if E.cond cd n then
      match goI n d acc with
      | .inl im => .inl im
      | .inr acc' => goC n r acc'
    else goC n r acc

/-- abstract_backend.py:110-139 `get_implementation`; `none` is a `KeyError` -/
def getImplementation (t : Table E) (n : E.N) (lang : E.L) : Option (E.Impl ⊕ List E.Impl) :=
  match t.lookup lang with
  | none => none
  | some a => match a.lookup (E.op n) with
    | none => none
    | some b => match b.lookup (E.key n) with
      | none => none
      | some c => some (goC n c [])

/-- abstract_backend.py:141-170 `get_recursive_implementation`, over the target and `parent_architecture`; `none`: no implementation, or an exception -/
def recImpl (n : E.N) (lang : E.L) : List (Table E) → List E.Impl → Option E.Impl
  | [], acc => acc.head?
  | t :: r, acc =>
    if isMapSupported t n lang then
      match getImplementation t n lang with
      | none => none
      | some (.inl im) => some im
      | some (.inr l) => recImpl n lang r (acc ++ l)
    else recImpl n lang r acc

/-- abstract_backend.py:104-105 -/
def mergeI {V : Type} (d : Dict E.I Unit) (l : Dict E.I V) : Dict E.I Unit := l.foldl (fun d p => upd p.1 (fun _ => ()) d) d

/-- abstract_backend.py:101-105 -/
def mergeC {V : Type} (c : Dict E.C (Dict E.I Unit)) (l : Dict E.C (Dict E.I V)) : Dict E.C (Dict E.I Unit) :=
  l.foldl (fun c p => upd p.1 (fun o => mergeI (o.getD []) p.2) c) c

/-- abstract_backend.py:98-105 -/
def mergeK {V : Type} (b : Dict E.K (Dict E.C (Dict E.I Unit))) (l : Dict E.K (Dict E.C (Dict E.I V))) : Dict E.K (Dict E.C (Dict E.I Unit)) :=
  l.foldl (fun b p => upd p.1 (fun o => mergeC (o.getD []) p.2) b) b

/-- abstract_backend.py:95-105 -/
def mergeO {V : Type} (a : Dict E.O (Dict E.K (Dict E.C (Dict E.I Unit)))) (l : Dict E.O (Dict E.K (Dict E.C (Dict E.I V)))) :
    Dict E.O (Dict E.K (Dict E.C (Dict E.I Unit))) :=
  l.foldl (fun a p => upd p.1 (fun o => mergeK (o.getD []) p.2) a) a

/-- abstract_backend.py:87-106 `generate_local_op_map` -/
def localOpMap (lang : E.L) (m : Dict E.O (Dict E.K (Dict E.C (Dict E.I Unit)))) (t : Table E) : Dict E.O (Dict E.K (Dict E.C (Dict E.I Unit))) :=
  match t.lookup lang with
  | none => m
  | some l => mergeO m l

/-- abstract_backend.py:75-85 `generate_supported_op_map`: the parents, then the target -/
def supportedOpMap (lang : E.L) (parents : List (Table E)) (self : Table E) : Dict E.O (Dict E.K (Dict E.C (Dict E.I Unit))) :=
  localOpMap lang (parents.foldl (localOpMap lang) []) self

/-- abstract_backend.py:57-60,243-249 `is_supported_operation`: the map is built for the default language of the class only -/
def isSupported (default : E.L) (parents : List (Table E)) (self : Table E) (n : E.N) (lang : E.L) : Bool :=
  isMapSupported (E := E) (V := Unit) [(default, supportedOpMap default parents self)] n lang

/-! ## The hierarchy of the targets -/

section
variable {α : Type} [DecidableEq α]

/-- abstract_backend.py:322-327, the loop: the list of the classes, and the classes of the next call -/
def visit (bases : α → List α) : List α → List α → List α → List α × List α
  | [], seen, next => (seen, next)
  | p :: r, seen, next => if p ∈ seen then visit bases r seen next else visit bases r (seen ++ [p]) (next ++ bases p)

/-- abstract_backend.py:317-329 `create_proc_hierarchy`, with a bound on the number of calls; `bases` is `get_parent_proc_class_list` -/
def hierarchy (bases : α → List α) : ℕ → List α → List α → Option (List α)
  | 0, _, _ => none
  | fuel + 1, ps, seen => if ps = [] then some seen else hierarchy bases fuel (visit bases ps seen []).2 (visit bases ps seen []).1

end

end Verif.Backend
