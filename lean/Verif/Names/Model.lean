import Verif.Names.Spec

/-!
# Model of the symbol tables (`code_generation/code_object.py`)

Python `while` loops are run with a fuel argument; `none` means "the fuel ran out".  A loop that
terminates returns the same `some` for every large enough fuel, one that hangs returns `none` for
all of them.
-/

namespace Verif.Names

/-- `"%s%d" % (prefix, index)` (code_object.py:84,88,221,225). -/
def indexed (p : Name) (i : ℕ) : Name := p ++ Nat.toDigits 10 i

/-- `SymbolTable` (code_object.py:58-65).  Only the keys of `table` are kept (the declared objects
and `reverse_map` do not influence name allocation). -/
structure SymTab where
  table : List Name
  index : Name → Option ℕ
  uniq : Name

/-- All symbol tables, and the `prefix_index` of every `MultiSymbolTable` (code_object.py:128-198). -/
structure World where
  tabs : ℕ → SymTab
  sidx : ℕ → Name → Option ℕ

def World.decl (w : World) (t : ℕ) : List Name := (w.tabs t).table

def upd {α β : Type} [DecidableEq α] (f : α → β) (a : α) (b : β) : α → β :=
  fun x => if x = a then b else f x

/-- `SymbolTable.is_free_name` (code_object.py:67-68). -/
def SymTab.isFree (t : SymTab) (n : Name) : Bool := decide (n ∉ t.table)

/-- `while not is_free_name("%s%d" % (prefix, new_index)): new_index += 1`
(code_object.py:84-85, 221-222). -/
def search (free : Name → Bool) (p : Name) : ℕ → ℕ → Option ℕ
  | 0, _ => none
  | fuel + 1, i => if free (indexed p i) then some i else search free p fuel (i + 1)

/-- First index tried: `0`, or one more than the recorded one (code_object.py:81-83, 218-220). -/
def startIndex : Option ℕ → ℕ
  | none => 0
  | some i => i + 1

/-- `SymbolTable.get_free_name` with `update_index=True` (code_object.py:76-89). -/
def SymTab.getFreeName (fuel : ℕ) (t : SymTab) (pre : Name) : Option (Name × SymTab) :=
  let p := t.uniq ++ pre
  if t.isFree p then some (p, { t with index := upd t.index p (some 0) })
  else
    match search t.isFree p fuel (startIndex (t.index p)) with
    | none => none
    | some i => some (indexed p i, { t with index := upd t.index p (some i) })

mutual
/-- `MultiSymbolTable.is_free_name` (code_object.py:207-212): own tables, then the parents. -/
def isFree (w : World) : Scope → Name → Bool
  | .mk _ c o ps, n =>
    (c :: o).all (fun t => (w.tabs t).isFree n) && isFreeAll w ps n
/-- The loop over `parent_tables` (code_object.py:210-211). -/
def isFreeAll (w : World) : List Scope → Name → Bool
  | [], _ => true
  | p :: ps, n => isFree w p n && isFreeAll w ps n
end

def Scope.id : Scope → ℕ | .mk i _ _ _ => i
def Scope.cst : Scope → ℕ | .mk _ c _ _ => c

/-- `MultiSymbolTable.get_free_name` (code_object.py:214-225). -/
def getFreeName (fuel : ℕ) (w : World) (s : Scope) (p : Name) : Option (Name × World) :=
  if isFree w s p then
    some (p, { w with sidx := upd w.sidx s.id (upd (w.sidx s.id) p (some 0)) })
  else
    match search (isFree w s) p fuel (startIndex (w.sidx s.id p)) with
    | none => none
    | some i =>
      some (indexed p i, { w with sidx := upd w.sidx s.id (upd (w.sidx s.id) p (some i)) })

/-- The loop of `MultiSymbolTable.get_free_cst_name` (code_object.py:228-232): ask the constant
table again until the answer is free for the whole scope. -/
def cstLoop (inner : ℕ) (s : Scope) (p : Name) : ℕ → World → Option (Name × World)
  | 0, _ => none
  | fuel + 1, w =>
    match (w.tabs s.cst).getFreeName inner p with
    | none => none
    | some (n, t') =>
      let w' := { w with tabs := upd w.tabs s.cst t' }
      if isFree w' s n then some (n, w') else cstLoop inner s p fuel w'

/-- `MultiSymbolTable.get_free_cst_name` (code_object.py:228-232). -/
def getFreeCstName (fuel : ℕ) (w : World) (s : Scope) (p : Name) : Option (Name × World) :=
  cstLoop fuel s p fuel w

/-- `SymbolTable.declare_symbol` (code_object.py:103-105). -/
def declare (w : World) (t : ℕ) (n : Name) : World :=
  { w with tabs := upd w.tabs t { w.tabs t with table := n :: (w.tabs t).table } }

/-- The calls a code generator makes on a code object. -/
inductive Op where
  /-- `get_free_symbol_name`/`get_free_var_name` with `declare=True`, `declare_table`
  (code_object.py:436-449, 472-479): ask for a name, declare it in table `t`. -/
  | request (s : Scope) (p : Name) (t : ℕ)
  /-- `declare_cst` (code_object.py:466-470). -/
  | requestCst (s : Scope) (p : Name)
  /-- `get_free_name`, or the calls above with `declare=False` (code_object.py:458-460). -/
  | peek (s : Scope) (p : Name)
  /-- Any `declare_…_name` call with a name chosen by the caller (code_object.py:235-268). -/
  | declare (t : ℕ) (n : Name)

/-- An allocation made by a declaring request. -/
structure Alloc where
  scope : Scope
  table : ℕ
  name : Name

/-- One call. -/
def step (fuel : ℕ) (w : World) : Op → Option (List Alloc × World)
  | .request s p t =>
    match getFreeName fuel w s p with
    | none => none
    | some (n, w') => some ([⟨s, t, n⟩], declare w' t n)
  | .requestCst s p =>
    match getFreeCstName fuel w s p with
    | none => none
    | some (n, w') => some ([⟨s, s.cst, n⟩], declare w' s.cst n)
  | .peek s p =>
    match getFreeName fuel w s p with
    | none => none
    | some (_, w') => some ([], w')
  | .declare t n => some ([], declare w t n)

/-- A history of calls; the allocations are collected in order. -/
def run (fuel : ℕ) (w : World) : List Op → Option (List Alloc × World)
  | [] => some ([], w)
  | op :: ops =>
    match step fuel w op with
    | none => none
    | some (a, w') =>
      match run fuel w' ops with
      | none => none
      | some (as, w'') => some (a ++ as, w'')

end Verif.Names
