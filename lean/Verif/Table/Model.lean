import Verif.Table.Spec
import Verif.Float.Model
import Mathlib.Data.Nat.Log

/-!
# Models of ml_table.py, p_table_linearization.py, indexing.py and of the multi-array tables of array_function.py
-/

namespace Verif.Table

open Verif.Float (rne)

/-- Python exceptions. -/
inductive Err where
  | indexError | badInterval
  deriving DecidableEq, Repr

/-! ### Table linearization -/

variable {α : Type}

/-- `split2DTable`, metalibm_core/opt/p_table_linearization.py:38-46: `m` sub-tables of `n` empty cells, filled row by row.  A cell
is `none` until it is written. -/
def split2D (n m : ℕ) (table : List (List α)) : List (List (Option α)) :=
  (List.range n).foldl (fun subs index =>
    (List.range m).foldl (fun subs subIndex =>
      subs.modify subIndex fun sub => sub.set index ((table[index]?).bind (·[subIndex]?))) subs)
    (List.replicate m (List.replicate n none))

/-- A table object: its dimensions and, for two dimensions, its rows. -/
structure Tab (α : Type) where
  dims : List ℕ
  rows : List (List α)

/-- Column operand of a load: a constant node or another node. -/
inductive Col where
  | const (c : ℤ)
  | dyn (node : ℕ)
  deriving DecidableEq

/-- Nodes: loads from a table object with two indices (the row index is some node), or others. -/
inductive Node where
  | load (table : ℕ) (row : ℕ) (col : Col)
  | other
  deriving DecidableEq

/-- A rewritten load: from a new one-dimensional table, at the same row operand. -/
structure NewLoad (α : Type) where
  content : List (Option α)
  row : ℕ

/-- State of the linearizer, p_table_linearization.py:51-54. -/
structure LinState (α : Type) where
  memo : ℕ → Option (Option (NewLoad α))
  split : ℕ → Option (List (List (Option α)))

/-- The linearizer right after construction. -/
def LinState.init : LinState α := ⟨fun _ => none, fun _ => none⟩

/-- Python list indexing: negative indices count from the end. -/
def pyIndex {β : Type} (l : List β) (c : ℤ) : Except Err β :=
  let k := if c < 0 then c + l.length else c
  if k < 0 then .error .indexError
  else match l[k.toNat]? with
    | some x => .ok x
    | none => .error .indexError

/-- `expand_node`, p_table_linearization.py:56-83, on node number `nd` of a graph over the tables `tabs`. -/
def expandNode (tabs : ℕ → Tab α) (graph : ℕ → Node) (nd : ℕ) (st : LinState α) : Except Err (Option (NewLoad α) × LinState α) :=
  match st.memo nd with
  | some r => .ok (r, st)
  | none =>
    let store (st : LinState α) (r : Option (NewLoad α)) : Option (NewLoad α) × LinState α :=
      (r, { st with memo := fun k => if k = nd then some r else st.memo k })
    match graph nd with
    | .other => .ok (store st none)
    | .load t row col =>
      match (tabs t).dims with
      | [n, m] =>
        let subs := (st.split t).getD (split2D n m (tabs t).rows)
        let st1 : LinState α := { st with split := fun k => if k = t then some subs else st.split k }
        match col with
        | .dyn _ => .ok (store st1 none)
        | .const c =>
          match pyIndex subs c with
          | .error e => .error e
          | .ok content => .ok (store st1 (some ⟨content, row⟩))
      | _ => .ok (store st none)

/-! ### Table interval -/

/-- A table entry: a number or a special value object (`is_numeric_value`, core/special_values.py:620-622). -/
inductive Entry where
  | num (q : ℚ)
  | special (code : ℕ)
  deriving DecidableEq

/-- `build_range_set`, metalibm_core/core/ml_table.py:193-195: the cartesian product of the index ranges. -/
def rangeSet : List ℕ → List (List ℕ)
  | [] => [[]]
  | d :: ds => (List.range d).flatMap fun i => (rangeSet ds).map (i :: ·)

/-- One iteration of `get_subset_interval`, ml_table.py:171-178.  `gt`/`lt` are the comparisons of a special value with a number
(`special > number`, `special < number`), which the code may reach once a special value was stored in a bound. -/
def boundStep (gt lt : ℕ → ℚ → Bool) (b : Option Entry × Option Entry) (v : Entry) : Option Entry × Option Entry :=
  match v with
  | .special c => (some (.special c), some (.special c))
  | .num q =>
    let lo := match b.1 with
      | none => some (.num q)
      | some (.num l) => if l > q then some (.num q) else some (.num l)
      | some (.special c) => if gt c q then some (.num q) else some (.special c)
    let hi := match b.2 with
      | none => some (.num q)
      | some (.num h) => if h < q then some (.num q) else some (.num h)
      | some (.special c) => if lt c q then some (.num q) else some (.special c)
    (lo, hi)

/-- `get_subset_interval` and `compute_interval`, ml_table.py:163-204.  The nested lists of the table are a function from index
tuples to entries. -/
def computeInterval (gt lt : ℕ → ℚ → Bool) (dims : List ℕ) (data : List ℕ → Entry) : Option Entry × Option Entry :=
  ((rangeSet dims).map data).foldl (boundStep gt lt) (none, none)

/-- State of a table: content and the cached interval, ml_table.py:112-132. -/
structure TState where
  data : List ℕ → Entry
  cache : Option (Option Entry × Option Entry)

/-- Operations of a user of the table. -/
inductive TOp where
  | write (idx : List ℕ) (v : Entry)
  | query

/-- `__setitem__` 137-138 and `get_interval` 181-187; a query also returns the interval. -/
def tstep (gt lt : ℕ → ℚ → Bool) (dims : List ℕ) (st : TState) : TOp → TState × Option (Option Entry × Option Entry)
  | .write idx v => ({ st with data := fun k => if k = idx then v else st.data k }, none)
  | .query =>
    match st.cache with
    | some r => (st, some r)
    | none =>
      let r := computeInterval gt lt dims st.data
      ({ st with cache := some r }, some r)

/-- A history of operations; the final state. -/
def trun (gt lt : ℕ → ℚ → Bool) (dims : List ℕ) (st : TState) (ops : List TOp) : TState :=
  ops.foldl (fun s o => (tstep gt lt dims s o).1) st

/-! ### Uniform indexing -/

/-- `SubUniformIntervalIndexing.__init__`, metalibm_core/core/indexing.py:198-208: size of a sub-interval. -/
def subSize (iv : Ival) (n : ℕ) : ℚ := (iv.hi - iv.lo) / n

/-- `get_sub_lo_bound` / `get_sub_hi_bound`, indexing.py:256-261. -/
def subInterval (iv : Ival) (n : ℕ) (i : ℤ) : Ival := ⟨iv.lo + i * subSize iv n, iv.lo + (i + 1) * subSize iv n⟩

/-- `get_offseted_sub_interval`, indexing.py:263-272. -/
def offsetedSubInterval (iv : Ival) (n : ℕ) (i : ℤ) : ℚ × Ival :=
  let s := subInterval iv n i
  (s.lo, ⟨-(s.hi - s.lo), s.hi - s.lo⟩)

/-- `get_index_node`, indexing.py:219-254, with the subtraction and the multiplication as parameters (rounded or exact). -/
def uniformIndex (sub mul : ℚ → ℚ → ℚ) (iv : Ival) (n : ℕ) (x : ℚ) : ℤ :=
  max 0 (min (rne (mul (sub x iv.lo) (n / (iv.hi - iv.lo)))) (n - 1))

/-! ### Field indexing -/

/-- `generic_mantissa_msb_index_fct`, ml_table.py:251-268, on the bit pattern of the operand. -/
def mantissaIndex (F : Verif.Float.Fmt) (k : ℕ) (code : ℕ) : ℕ := (code >>> (F.f - k)) &&& (2 ^ k - 1)

/-- `SubMantissaIndexing.get_sub_lo_bound`/`get_sub_hi_bound`, indexing.py:113-118. -/
def mantissaSub (k : ℕ) (i : ℕ) : Ival := ⟨1 + i * (2 : ℚ) ^ (-(k : ℤ)), 1 + (i + 1) * (2 : ℚ) ^ (-(k : ℤ))⟩

/-- `SubFPIndexing.__init__`, indexing.py:128-139: number of moving exponent bits. -/
def expBits (low high : ℤ) : ℕ := Nat.clog 2 (high - low + 1).toNat

/-- `split_num`, indexing.py:138. -/
def splitNum (low high : ℤ) (fb : ℕ) : ℕ := (high - low + 1).toNat * 2 ^ fb

/-- `SubFPIndexing.get_index_node`, indexing.py:148-181, on bit patterns (`off` is the pattern of `2^low`); the difference is not
negative for inputs of the indexed interval. -/
def fpIndex (F : Verif.Float.Fmt) (low high : ℤ) (fb : ℕ) (code off : ℕ) : ℕ :=
  ((code - off) >>> (F.f - fb)) &&& (2 ^ (expBits low high + fb) - 1)

/-- `SubFPIndexing.get_sub_lo_bound`/`get_sub_hi_bound`, indexing.py:183-201 (`int(index / 2**f)` is the integer quotient). -/
def fpSub (low : ℤ) (fb : ℕ) (i : ℕ) : Ival :=
  ⟨(1 + ((i % 2 ^ fb : ℕ) : ℚ) * (2 : ℚ) ^ (-(fb : ℤ))) * (2 : ℚ) ^ (((i / 2 ^ fb : ℕ) : ℤ) + low),
   (1 + (((i % 2 ^ fb : ℕ) : ℚ) + 1) * (2 : ℚ) ^ (-(fb : ℤ))) * (2 : ℚ) ^ (((i / 2 ^ fb : ℕ) : ℤ) + low)⟩

/-! ### Multi-array tables -/

/-- `OFFSET_VALUES`, metalibm_core/core/array_function.py:165: `sum(TABLE_SIZE_VALUES[:i])`. -/
def offsets (sizes : List ℕ) : List ℕ := (List.range sizes.length).map fun i => (sizes.take i).sum

/-- The (size, offset) table, array_function.py:167-172. -/
def sizeOffsets (sizes : List ℕ) : List (ℕ × ℕ) := sizes.zip (offsets sizes)

/-- `generate_2d_multi_table`, array_function.py:98-117; a row is `none` until it is written.  A row is written at once. -/
def multiTable {β : Type} (so : List (ℕ × ℕ)) (gen : ℕ → ℕ → β) : List (Option β) :=
  so.zipIdx.foldl (fun t p => (List.range p.1.1).foldl (fun t i0 => t.set (p.1.2 + i0) (some (gen p.2 i0))) t)
    (List.replicate (so.map Prod.fst).sum none)

/-- `generate_expected_table`, array_function.py:291-312: rows computed by `f` from the input stored at the same position.
`none` is a read outside the input table. -/
def expectedTable {β γ : Type} (so : List (ℕ × ℕ)) (inputs : List β) (f : β → γ) : List (Option (Option γ)) :=
  multiTable so fun t i => ((so[t]?).bind fun p => inputs[p.2 + i]?).map f

end Verif.Table
