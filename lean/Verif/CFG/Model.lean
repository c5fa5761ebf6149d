import Verif.CFG.Spec
import Verif.BB.Model
import Mathlib.Data.Finset.Lattice.Fold
import Mathlib.Data.Finset.Lattice.Basic

/-!
# Model of basic-block graphs: simplification, dominators (`opt/p_gen_bb.py`)

Basic blocks are objects: they are named by numbers, and a heap gives their contents.
-/

namespace Verif.CFG

open Verif.BB (Instr Res)

variable {S V : Type}

/-- An entry of a basic block: an instruction, or a `SequentialBlock` of instructions
(bb_operations.py:237-240).  Sequential blocks inside sequential blocks, which no target produces,
are not modelled. -/
inductive Item (S V : Type) where
  | op (i : Instr S V)
  | sq (l : List (Instr S V))

/-- The instructions an entry stands for. -/
def Item.ops : Item S V → List (Instr S V)
  | .op i => [i]
  | .sq l => l

abbrev Heap (S V : Type) := ℕ → List (Item S V)

/-- Linearization of the `SequentialBlock`s of a block (p_gen_bb.py:963). -/
def flat (l : List (Item S V)) : List (Item S V) :=
  l.flatMap fun it => match it with
    | .op i => [.op i]
    | .sq l => l.map .op

/-- `destination_list` (bb_operations.py:51-54, 101-104). -/
def dests : Instr S V → List ℕ
  | .br d => [d]
  | .cbr _ t e => [t, e]
  | _ => []

/-- `BasicBlock.successors` (bb_operations.py:158-160): branches among the direct entries. -/
def successors (l : List (Item S V)) : List ℕ :=
  l.flatMap fun it => match it with
    | .op i => dests i
    | .sq _ => []

/-- `Pass_BBSimplification.execute_on_optree` (p_gen_bb.py:943-972), the while loop (951-969); the
fuel only bounds the model (`none`: not finished). -/
def simplLoop : ℕ → Heap S V → List ℕ → List ℕ → List ℕ → Option (Heap S V × List ℕ)
  | 0, _, _, _, _ => none
  | _ + 1, h, [], _, acc => some (h, acc)
  | n + 1, h, b :: w, done, acc =>
    let done := done ++ [b]
    if (h b).isEmpty then simplLoop n h w done acc
    else
      let h := Function.update h b (flat (h b))
      let new := (successors (h b)).filter (fun d => !done.contains d)
      simplLoop n h (w ++ new) done (acc ++ new)

/-- The new heap and block list, from the entry block `root` (p_gen_bb.py:947-972). -/
def simplify (n : ℕ) (h : Heap S V) (root : ℕ) : Option (Heap S V × List ℕ) :=
  simplLoop n h [root] [] [root]

/-- How a run of a basic-block list ends. -/
inductive End (S V : Type) where
  | res (r : Res S V)
  /-- branch to a block that is not in the list -/
  | missing (b : ℕ)

/-- Execution of the block list `L` from instruction `i` of block `b`; sequential blocks are
transparent. -/
def runP (h : Heap S V) (L : List ℕ) : ℕ → ℕ → ℕ → S → Option (End S V)
  | 0, _, _, _ => none
  | n + 1, b, i, s =>
    if b ∈ L then
      match ((h b).flatMap Item.ops)[i]? with
      | none => some (.res (.normal s))
      | some (.act f) => runP h L n b (i + 1) (f s)
      | some (.eval _) => runP h L n b (i + 1) s
      | some (.ret e) => some (.res (.ret s (e s)))
      | some (.br d) => runP h L n d 0 s
      | some (.cbr c t e) => runP h L n (if c s then t else e) 0 s
    else some (.missing b)

/-! ## Edges and dominators -/

/-- `build_cfg_edges_set` (p_gen_bb.py:362-377): the edges of the last instruction of each block
(no edge unless it is a branch); an empty block is an error. -/
def cfgEdges (h : Heap S V) : List ℕ → Option (List (ℕ × ℕ))
  | [] => some []
  | b :: L =>
    match (h b).getLast? with
    | none => none
    | some (.op i) => (cfgEdges h L).map ((dests i).map (fun d => (b, d)) ++ ·)
    | some (.sq _) => cfgEdges h L

/-- The keys of `predominance_map_list` (p_gen_bb.py:379-393), in order of first insertion. -/
def predKeys : List (ℕ × ℕ) → List ℕ → List ℕ
  | [], keys => keys
  | (_, d) :: E, keys => predKeys E (if d ∈ keys then keys else keys ++ [d])

/-- `predominance_map_list[b]`. -/
def preds (E : List (ℕ × ℕ)) (b : ℕ) : List ℕ := (E.filter (fun e => e.2 == b)).map Prod.fst

/-- `set.intersection(*sets)` of a non-empty tuple. -/
def interAll : List (Finset ℕ) → Finset ℕ
  | [] => ∅
  | [s] => s
  | s :: t :: l => s ∩ interAll (t :: l)

/-- One pass over the keys (p_gen_bb.py:408-422); `none`: a block that is not in the map. -/
def domSweep (E : List (ℕ × ℕ)) (L : List ℕ) :
    List ℕ → (ℕ → Finset ℕ) → Bool → Option ((ℕ → Finset ℕ) × Bool)
  | [], m, ch => some (m, ch)
  | b :: ks, m, ch =>
    let dom := {b} ∪ interAll ((preds E b).map m)
    if b ∈ L then domSweep E L ks (Function.update m b dom) (ch || dom ≠ m b) else none

/-- The `while True` of `build_dominator_map` (p_gen_bb.py:405-424). -/
def domLoop (E : List (ℕ × ℕ)) (L : List ℕ) : ℕ → (ℕ → Finset ℕ) → Option (ℕ → Finset ℕ)
  | 0, _ => none
  | n + 1, m =>
    match domSweep E L (predKeys E []) m false with
    | none => none
    | some (m', true) => domLoop E L n m'
    | some (m', false) => some m'

/-- `build_dominator_map` (p_gen_bb.py:395-424) on the block list `L` with entry `root`; `E` is the
edge set in the arbitrary order Python iterates it. -/
def dominatorMap (n : ℕ) (E : List (ℕ × ℕ)) (L : List ℕ) (root : ℕ) : Option (ℕ → Finset ℕ) :=
  domLoop E L n (Function.update (fun b => if b ∈ L then L.toFinset else ∅) root {root})

/-! ## Immediate dominators, dominance frontiers, phi-nodes -/

/-- `build_immediate_dominator_map` (p_gen_bb.py:426-447) for block `b`, the set `m b` being
iterated in the order `cands`. -/
def idomOf (m : ℕ → Finset ℕ) (b : ℕ) (cands : List ℕ) : Option ℕ :=
  cands.find? fun d => decide (d ≠ b ∧ ∀ o ∈ m b, o ≠ d → o ≠ b → d ∉ m o)

/-- `does_not_strictly_dominate` (p_gen_bb.py:450-458). -/
def notSDom (m : ℕ → Finset ℕ) (x y : ℕ) : Bool := if x = y then true else if x ∈ m y then false else true

/-- The while loop of `get_dominance_frontiers` for one edge to `dst` (p_gen_bb.py:467-474); `none`:
a block without immediate dominator, or not finished. -/
def frontWalk (m : ℕ → Finset ℕ) (idom : ℕ → Option ℕ) (dst : ℕ) :
    ℕ → ℕ → (ℕ → Finset ℕ) → Option (ℕ → Finset ℕ)
  | 0, _, _ => none
  | n + 1, x, df =>
    if notSDom m x dst then
      match idom x with
      | none => none
      | some x' => frontWalk m idom dst n x' (Function.update df x (insert dst (df x)))
    else some df

/-- `get_dominance_frontiers` (p_gen_bb.py:461-481). -/
def frontiers (m : ℕ → Finset ℕ) (idom : ℕ → Option ℕ) (n : ℕ) :
    List (ℕ × ℕ) → (ℕ → Finset ℕ) → Option (ℕ → Finset ℕ)
  | [], df => some df
  | (s, d) :: E, df => (frontWalk m idom d n s df).bind (frontiers m idom n E)

/-- State of the phi-node insertion for one variable (p_gen_bb.py:514-550): the work set `W`, the
set `F` of blocks that got a phi-node, and the phi-nodes pushed, one entry per node. -/
structure PhiSt where
  W : Finset ℕ
  F : Finset ℕ
  phis : List ℕ

/-- `for y in df` (p_gen_bb.py:539-550), `df` being iterated in the order `ys`. -/
def phiFor (defs : Finset ℕ) : List ℕ → PhiSt → PhiSt
  | [], st => st
  | y :: ys, st =>
    phiFor defs ys (if y ∈ st.F then st else
      { W := if y ∈ defs then st.W else insert y st.W, F := insert y st.F, phis := st.phis ++ [y] })

/-- One turn of `while W`: `W.pop()` takes an arbitrary element. -/
inductive PhiStep (df : ℕ → Finset ℕ) (defs : Finset ℕ) : PhiSt → PhiSt → Prop
  | mk (st : PhiSt) (x : ℕ) (ys : List ℕ) : x ∈ st.W → (∀ y, y ∈ ys ↔ y ∈ df x) → ys.Nodup →
      PhiStep df defs st (phiFor defs ys { st with W := st.W.erase x })

end Verif.CFG
