import Verif.Interval.Spec
import Mathlib.Data.List.Sort
import Mathlib.Data.List.ProdSigma

/-!
# Model of `metalibm_core/core/meta_interval.py`

Sollya's own interval type is modelled by exact bounds arithmetic (`Iv.add` ...): Sollya rounds bounds outwards to its working
precision, which only enlarges intervals; infinities and NaN bounds are not modelled.  Python exceptions are values of `Err`.
-/

namespace Verif.Interval

variable {K : Type*} [Field K] [LinearOrder K]

/-- Python exceptions raised by this module. -/
inductive Err where
  | notImplemented | attributeError | indexError | unboundedQuotient
  deriving DecidableEq, Repr

/-- Sollya interval addition (used at meta_interval.py:69). -/
def Iv.add (a b : Iv K) : Iv K := ⟨a.inf + b.inf, a.sup + b.sup⟩
/-- Sollya interval subtraction (used at meta_interval.py:79). -/
def Iv.sub (a b : Iv K) : Iv K := ⟨a.inf - b.sup, a.sup - b.inf⟩
/-- Sollya interval negation (used at meta_interval.py:111). -/
def Iv.neg (a : Iv K) : Iv K := ⟨-a.sup, -a.inf⟩
/-- Sollya interval multiplication: extrema of the four bound products (used at meta_interval.py:89; the commented lines 90-96
spell the same computation). -/
def Iv.mul (a b : Iv K) : Iv K :=
  let p := a.inf * b.inf
  let q := a.inf * b.sup
  let r := a.sup * b.inf
  let s := a.sup * b.sup
  ⟨min (min p q) (min r s), max (max p q) (max r s)⟩
/-- Sollya interval division (used at meta_interval.py:106).  A divisor containing zero gives an unbounded or NaN interval,
which this model does not represent. -/
def Iv.div (a b : Iv K) : Except Err (Iv K) :=
  if b.inf ≤ 0 ∧ 0 ≤ b.sup then .error .unboundedQuotient else .ok (a.mul ⟨b.sup⁻¹, b.inf⁻¹⟩)

/-- `MetaInterval` objects, meta_interval.py:27-39: an optional Sollya interval, none is the empty interval. -/
abbrev MI (K : Type*) := Option (Iv K)

/-- `MetaInterval.inf` and `.sup`, meta_interval.py:135-140 with `inf`/`sup` 213-229: no bounds for the empty interval. -/
def MI.get : MI K → Except Err (Iv K)
  | some a => .ok a
  | none => .error .notImplemented

/-- `MetaInterval.__or__` on two non-empty intervals, meta_interval.py:45-50.  The list returned by the code in the first two
branches goes through `MetaIntervalList.__init__` (see `union` below). -/
def orCore (a b : Iv K) : List (Iv K) :=
  if a.sup < b.inf then [a, b]
  else if b.sup < a.inf then [b, a]
  else [⟨min a.inf b.inf, max a.sup b.sup⟩]

/-- One step of the loop of `refine_interval_list`, meta_interval.py:151-157.  `acc` is `refined_list`, most recent first.
In the merging branch the code stores the result of `|`, an interval or (never, as proved) an interval list. -/
def refineStep (acc : List (Iv K)) (s : Iv K) : List (Iv K) :=
  match acc with
  | [] => [s]
  | last :: rest => if s.inf ≤ last.sup then (orCore last s).reverse ++ rest else s :: last :: rest

/-- Key of `sorted` at meta_interval.py:149. -/
def keyLe (a b : Iv K) : Prop := a.inf ≤ b.inf

instance : DecidableRel (keyLe (K := K)) := fun a b => inferInstanceAs (Decidable (a.inf ≤ b.inf))

/-- `refine_interval_list`, meta_interval.py:146-158, on intervals with bounds: stable sort on the lower bound, then merge from
left to right.  Taking the first element of an empty list raises. -/
def refineIvs (l : List (Iv K)) : Except Err (List (Iv K)) :=
  match l.insertionSort keyLe with
  | [] => .error .indexError
  | first :: rest => .ok ((rest.foldl refineStep [first]).reverse)

/-- `MetaIntervalList.__init__`, meta_interval.py:163-166, on arbitrary `MetaInterval`s: the sort key of an empty one raises. -/
def mkList (l : List (MI K)) : Except Err (List (Iv K)) := do
  let ivs ← l.mapM MI.get
  refineIvs ivs

/-- Result of the operators: one interval or an interval list. -/
inductive Obj (K : Type*) where
  | one (m : MI K)
  | many (l : List (Iv K))
  deriving DecidableEq, Repr

/-- `MetaInterval.__or__`, meta_interval.py:41-50. -/
def union (a b : MI K) : Except Err (Obj K) := do
  let x ← MI.get a
  let y ← MI.get b
  match orCore x y with
  | [u] => return .one (some u)
  | l => do
    let r ← refineIvs l
    return .many r

/-- `MetaInterval.__and__`, meta_interval.py:51-59. -/
def inter (a b : MI K) : Except Err (MI K) := do
  let x ← MI.get a
  let y ← MI.get b
  if x.sup < y.inf ∨ y.sup < x.inf then return none
  else return some ⟨max x.inf y.inf, min x.sup y.sup⟩

/-- The common shape of `MetaInterval.__add__`, `__sub__`, `__mul__` between two `MetaInterval`s, meta_interval.py:61-96: empty
as soon as one operand is empty. -/
def lift2 (op : Iv K → Iv K → Iv K) : MI K → MI K → MI K
  | some x, some y => some (op x y)
  | _, _ => none

/-- `MetaInterval.__add__`, meta_interval.py:61-70. -/
def add (a b : MI K) : MI K := lift2 Iv.add a b
/-- `MetaInterval.__sub__`, meta_interval.py:71-80. -/
def sub (a b : MI K) : MI K := lift2 Iv.sub a b
/-- `MetaInterval.__mul__`, meta_interval.py:81-89. -/
def mul (a b : MI K) : MI K := lift2 Iv.mul a b
/-- `MetaInterval.__neg__`, meta_interval.py:108-111. -/
def neg : MI K → MI K
  | some x => some x.neg
  | none => none
/-- `MetaInterval.__truediv__` between two `MetaInterval`s, meta_interval.py:97-106. -/
def div : MI K → MI K → Except Err (MI K)
  | some x, some y => (x.div y).map some
  | _, _ => .ok none

/-- The common shape of `MetaIntervalList.__add__`, `__sub__`, `__mul__`, meta_interval.py:189-200: the operation on every pair,
then refinement.  `MetaInterval.__add__` with a list on the right builds the one-element list first (62-63). -/
def listOp (op : Iv K → Iv K → Iv K) (l m : List (Iv K)) : Except Err (List (Iv K)) :=
  refineIvs ((l.product m).map (fun p => op p.1 p.2))

/-- `MetaIntervalList.__neg__`, meta_interval.py:209-210. -/
def listNeg (l : List (Iv K)) : Except Err (List (Iv K)) := refineIvs (l.map Iv.neg)

/-- `MetaIntervalList.__truediv__`, meta_interval.py:201-204. -/
def listDiv (l m : List (Iv K)) : Except Err (List (Iv K)) := do
  let q ← (l.product m).mapM (fun p => p.1.div p.2)
  refineIvs q

/-- `number in MetaInterval`, meta_interval.py:113-117. -/
def containsNumber : MI K → K → Bool
  | none, _ => false
  | some a, v => decide (v ≥ a.inf) && decide (v ≤ a.sup)

/-- `range in MetaInterval`, meta_interval.py:118-120: the comparison is computed and dropped, Python returns `None`, which the
`in` operator turns into `False`. -/
def containsRange : MI K → Iv K → Bool
  | none, _ => false
  | some _, _ => false

/-- `MetaInterval in MetaInterval`, meta_interval.py:123-124: tests the wrapped range; `None in self` raises unless self is empty. -/
def containsMeta (a v : MI K) : Except Err Bool :=
  match a, v with
  | none, _ => .ok false
  | some _, none => .error .notImplemented
  | some x, some r => .ok (containsRange (some x) r)

/-- `MetaIntervalList.inf`, meta_interval.py:173-175. -/
def listInf (l : List (Iv K)) : Except Err K :=
  match l with
  | [] => .error .indexError
  | a :: _ => .ok a.inf

/-- `MetaIntervalList.sup`, meta_interval.py:176-178. -/
def listSup (l : List (Iv K)) : Except Err K :=
  match l.getLast? with
  | none => .error .indexError
  | some a => .ok a.sup

end Verif.Interval
