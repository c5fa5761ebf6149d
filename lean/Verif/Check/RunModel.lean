import Mathlib.Tactic.Ring
import Mathlib.Data.List.Basic

/-! # Model of the generated test program: the test table and the test loop, metalibm_core/core/ml_function.py

A test case is the input tuple of a test with its expected values; `ok` is the outcome of running the function on it and of checking the
result (C70).  The random generator is a sequence of cases.  Exceptions and accesses out of a table are `none`. -/

namespace Verif.Check

universe u
variable {α : Type u}

/-- The options of a test: `auto_test_std`, `standard_test_cases`, `value_test`, the number of random tests, and the vector size of the
implementation. -/
structure Cfg (α : Type u) where
  autoStd : Bool
  std : List α
  values : List α
  testNum : ℕ
  vs : ℕ

/-- ml_function.py:1297-1310: the cases that are not random -/
def Cfg.fixed (c : Cfg α) : List α := (if c.autoStd then c.std else []) ++ (if c.values.isEmpty then [] else c.values)

/-- ml_function.py:1296-1310: `test_total` before the alignment on the vector size -/
def Cfg.count (c : Cfg α) : ℕ :=
  c.testNum + (if c.autoStd then c.std.length else 0) + (if c.values.isEmpty then 0 else c.values.length)

/-- ml_function.py:1313 `diff` -/
def Cfg.diff (c : Cfg α) : ℕ := (c.vs - c.count % c.vs) % c.vs

/-- ml_function.py:1315: the size of the tables -/
def Cfg.total (c : Cfg α) : ℕ := c.count + c.diff

/-- ml_function.py:1328-1345: the list of cases, `prep` rounds the inputs of a case to the input formats -/
def Cfg.cases (c : Cfg α) (prep : α → α) (rand : ℕ → α) : List α :=
  c.fixed.map prep ++ (List.range (c.testNum + c.diff)).map rand

/-- ml_function.py:1319-1368: the table of `total` entries; a case beyond its end raises, a missing one is not a constant -/
def Cfg.table (c : Cfg α) (prep : α → α) (rand : ℕ → α) : Option (List α) :=
  let l := c.cases prep rand
  if l.length = c.total then some l else none

/-- ml_function.py:1474-1492: the tests of the lanes `k`, `k + 1`, … of an iteration: `some true` when all pass, `some false` when the
program returns 1 -/
def lanes (ok : α → Bool) (t : List α) (i : ℕ) : List ℕ → Option Bool
  | [] => some true
  | k :: ks =>
    match t[i + k]? with
    | none => none
    | some x => if ok x then lanes ok t i ks else some false

/-- ml_function.py:1497-1508 `get_vector_test_wrapper`: the loop and the value returned by the test function -/
def vectorRun (ok : α → Bool) (t : List α) (vs : ℕ) : ℕ → ℕ → Option ℕ
  | 0, i => if i < t.length then none else some 0
  | fuel + 1, i =>
    if i < t.length then
      match lanes ok t i (List.range vs) with
      | none => none
      | some false => some 1
      | some true => vectorRun ok t vs fuel (i + vs)
    else some 0

/-- ml_function.py:1516-1569 `get_scalar_test_wrapper`: one test per iteration; with `break_error` the failure branch does not return
(1544-1548) -/
def scalarRun (ok : α → Bool) (brk : Bool) (t : List α) : ℕ → ℕ → Option ℕ
  | 0, i => if i < t.length then none else some 0
  | fuel + 1, i =>
    if i < t.length then
      match t[i]? with
      | none => none
      | some x => if ok x = false ∧ brk = false then some 1 else scalarRun ok brk t fuel (i + 1)
    else some 0

/-- The exit code of the test of a vector implementation.  The loop runs at most once per entry. -/
def Cfg.vectorTest (c : Cfg α) (prep : α → α) (rand : ℕ → α) (ok : α → Bool) : Option ℕ :=
  (c.table prep rand).bind fun t => vectorRun ok t c.vs t.length 0

/-- The exit code of the test of a scalar implementation (vector size 1). -/
def Cfg.scalarTest (c : Cfg α) (prep : α → α) (rand : ℕ → α) (ok : α → Bool) (brk : Bool) : Option ℕ :=
  (c.table prep rand).bind fun t => scalarRun ok brk t t.length 0

end Verif.Check
