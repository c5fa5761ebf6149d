import Verif.Table.Model
import Verif.Float.Theorems
import Mathlib.Tactic.Ring
import Mathlib.Tactic.Linarith
import Mathlib.Tactic.NormNum
import Mathlib.Tactic.FieldSimp
import Mathlib.Tactic.LinearCombination

/-!
# Property theorems on tables: C17, C18, C19, C58, C61
-/

namespace Verif.Table

open Verif.Float (rne)

variable {α : Type}

/-! ## C17 -/

/-- A cell of a list of columns. -/
def cellAt {β : Type} (subs : List (List β)) (j i : ℕ) : Option β := (subs[j]?).bind (·[i]?)

/-- `m` columns of `n` cells. -/
def Shape {β : Type} (n m : ℕ) (subs : List (List β)) : Prop := subs.length = m ∧ ∀ l ∈ subs, l.length = n

theorem inner_spec (n m : ℕ) (f : ℕ → Option α) (index : ℕ) (hi : index < n) : ∀ (js : List ℕ) (subs : List (List (Option α))),
    Shape n m subs → (∀ j ∈ js, j < m) →
    Shape n m (js.foldl (fun subs j => subs.modify j fun sub => sub.set index (f j)) subs) ∧
    ∀ j i, cellAt (js.foldl (fun subs j => subs.modify j fun sub => sub.set index (f j)) subs) j i =
      if i = index ∧ j ∈ js then some (f j) else cellAt subs j i := by
  intro js
  induction js with
  | nil => intro subs h _; exact ⟨h, fun j i => by simp⟩
  | cons j0 rest ih =>
    intro subs h hj
    have hj0 : j0 < m := hj j0 (by simp)
    have hshape : Shape n m (subs.modify j0 fun sub => sub.set index (f j0)) := by
      refine ⟨by simp [h.1], fun l hl => ?_⟩
      rw [List.mem_iff_getElem?] at hl
      obtain ⟨k, hk⟩ := hl
      rw [List.getElem?_modify, Option.map_eq_map] at hk
      split at hk
      · simp only [Option.map_eq_some_iff] at hk
        obtain ⟨a, ha, rfl⟩ := hk
        rw [List.length_set]
        exact h.2 a (List.mem_of_getElem? ha)
      · simp only [Option.map_eq_some_iff] at hk
        obtain ⟨a, ha, rfl⟩ := hk
        exact h.2 _ (List.mem_of_getElem? ha)
    obtain ⟨h1, h2⟩ := ih _ hshape (fun j h => hj j (by simp [h]))
    refine ⟨h1, fun j i => ?_⟩
    rw [List.foldl_cons, h2]
    have hcell : cellAt (subs.modify j0 fun sub => sub.set index (f j0)) j i =
        if i = index ∧ j = j0 then some (f j) else cellAt subs j i := by
      unfold cellAt
      rw [List.getElem?_modify, Option.map_eq_map]
      by_cases hjj : j0 = j
      · subst hjj
        have hlt : j0 < subs.length := by rw [h.1]; exact hj0
        rw [List.getElem?_eq_getElem hlt]
        simp only [if_true, Option.map_some, Option.bind_some, List.getElem?_set, and_true]
        have hlen : (subs[j0]).length = n := h.2 _ (List.getElem_mem hlt)
        by_cases hii : index = i
        · subst hii; simp [hlen, hi]
        · rw [if_neg hii, if_neg (fun h => hii h.symm)]
      · simp only [if_neg hjj, Option.map_id']
        rw [if_neg (fun h => hjj h.2.symm)]
    rw [hcell]
    by_cases h3 : i = index
    · by_cases h4 : j = j0
      · simp [h3, h4]
      · simp [h3, h4]
    · simp [h3]

theorem outer_spec (n m : ℕ) (f : ℕ → ℕ → Option α) : ∀ (is : List ℕ) (subs : List (List (Option α))),
    Shape n m subs → (∀ i ∈ is, i < n) →
    Shape n m (is.foldl (fun subs index =>
      (List.range m).foldl (fun subs j => subs.modify j fun sub => sub.set index (f index j)) subs) subs) ∧
    ∀ j i, j < m → cellAt (is.foldl (fun subs index =>
      (List.range m).foldl (fun subs j => subs.modify j fun sub => sub.set index (f index j)) subs) subs) j i =
      if i ∈ is then some (f i j) else cellAt subs j i := by
  intro is
  induction is with
  | nil => intro subs h _; exact ⟨h, fun j i _ => by simp⟩
  | cons i0 rest ih =>
    intro subs h hi
    obtain ⟨h1, h2⟩ := inner_spec n m (f i0) i0 (hi i0 (by simp)) (List.range m) subs h (fun j hj => List.mem_range.1 hj)
    obtain ⟨h3, h4⟩ := ih _ h1 (fun i h => hi i (by simp [h]))
    refine ⟨h3, fun j i hj => ?_⟩
    rw [List.foldl_cons, h4 j i hj, h2]
    by_cases h5 : i = i0
    · subst h5
      simp [hj]
    · simp [h5]

/-- Content of the sub-tables. -/
theorem split2D_spec (n m : ℕ) (t : List (List α)) : Shape n m (split2D n m t) ∧
    ∀ j i, j < m → i < n → cellAt (split2D n m t) j i = some ((t[i]?).bind (·[j]?)) := by
  obtain ⟨h1, h2⟩ := outer_spec n m (fun i j => (t[i]?).bind (·[j]?)) (List.range n) (List.replicate m (List.replicate n none))
    ⟨by simp, by simp⟩ (fun i h => List.mem_range.1 h)
  refine ⟨h1, fun j i hj hi => ?_⟩
  have := h2 j i hj
  rw [if_pos (List.mem_range.2 hi)] at this
  exact this

/-- A two-dimensional table has the announced shape. -/
def WellShaped (t : Tab α) : Prop := ∀ n m, t.dims = [n, m] → t.rows.length = n ∧ ∀ r ∈ t.rows, r.length = m

/-- The entry of a table read by a load, if the indices are in range. -/
def entry (t : Tab α) (i j : ℕ) : Option α := (t.rows[i]?).bind (·[j]?)

/-- What a rewriting result must be: loads of two-dimensional tables with a constant column become a load, at the same row
operand, from a table holding that column; everything else is left alone. -/
def Correct (tabs : ℕ → Tab α) (nd : Node) (r : Option (NewLoad α)) : Prop :=
  match nd with
  | .load t row (.const c) =>
    if (tabs t).dims.length = 2 then
      ∃ nl, r = some nl ∧ nl.row = row ∧ ∀ i < (tabs t).rows.length, ∃ x, entry (tabs t) i c.toNat = some x ∧ nl.content[i]? = some (some x)
    else r = none
  | _ => r = none

/-- Constant columns are inside the table. -/
def ValidLoads (tabs : ℕ → Tab α) (graph : ℕ → Node) : Prop :=
  ∀ nd t row c n m, graph nd = .load t row (.const c) → (tabs t).dims = [n, m] → 0 ≤ c ∧ c < m

/-- Invariant of the linearizer. -/
def LinOK (tabs : ℕ → Tab α) (graph : ℕ → Node) (st : LinState α) : Prop :=
  (∀ t subs, st.split t = some subs → ∀ n m, (tabs t).dims = [n, m] → subs = split2D n m (tabs t).rows) ∧
  ∀ nd r, st.memo nd = some r → Correct tabs (graph nd) r

theorem expand_step (tabs : ℕ → Tab α) (graph : ℕ → Node) (hw : ∀ t, WellShaped (tabs t)) (hv : ValidLoads tabs graph) (nd : ℕ)
    (st : LinState α) (hst : LinOK tabs graph st) :
    ∃ r st', expandNode tabs graph nd st = .ok (r, st') ∧ Correct tabs (graph nd) r ∧ LinOK tabs graph st' := by
  unfold expandNode
  cases hm : st.memo nd with
  | some r => exact ⟨r, st, rfl, hst.2 nd r hm, hst⟩
  | none =>
    dsimp only
    have store : ∀ (st1 : LinState α), LinOK tabs graph st1 → ∀ r, Correct tabs (graph nd) r →
        LinOK tabs graph { st1 with memo := fun k => if k = nd then some r else st1.memo k } := by
      intro st1 h1 r hr
      refine ⟨h1.1, fun nd' r' h' => ?_⟩
      dsimp only at h'
      by_cases hk : nd' = nd
      · rw [if_pos hk] at h'
        simp only [Option.some.injEq] at h'
        subst hk; subst h'; exact hr
      · rw [if_neg hk] at h'; exact h1.2 nd' r' h'
    cases hg : graph nd with
    | other =>
      dsimp only
      exact ⟨none, _, rfl, rfl, store st hst none (by rw [hg]; rfl)⟩
    | load t row col =>
      dsimp only
      split
      · rename_i n m hdims
        set subs := (st.split t).getD (split2D n m (tabs t).rows) with hsubs
        have hsub : subs = split2D n m (tabs t).rows := by
          rw [hsubs]
          cases hs : st.split t with
          | none => rfl
          | some s => exact hst.1 t s hs n m hdims
        have hst1 : LinOK tabs graph { st with split := fun k => if k = t then some subs else st.split k } := by
          refine ⟨fun t' s' h' n' m' hd' => ?_, hst.2⟩
          dsimp only at h'
          by_cases hk : t' = t
          · rw [if_pos hk] at h'
            simp only [Option.some.injEq] at h'
            subst hk; rw [hdims] at hd'
            simp only [List.cons.injEq, and_true] at hd'
            rw [← h', hsub, hd'.1, hd'.2]
          · rw [if_neg hk] at h'; exact hst.1 t' s' h' n' m' hd'
        cases col with
        | dyn d =>
          dsimp only
          exact ⟨none, _, rfl, rfl, store _ hst1 none (by rw [hg]; rfl)⟩
        | const c =>
          obtain ⟨hc0, hcm⟩ := hv nd t row c n m hg hdims
          obtain ⟨hsh, hcell⟩ := split2D_spec n m (tabs t).rows
          have hlt : c.toNat < subs.length := by rw [hsub, hsh.1]; omega
          have hidx : pyIndex subs c = .ok subs[c.toNat] := by
            unfold pyIndex
            simp only [if_neg (show ¬ c < 0 by omega), List.getElem?_eq_getElem hlt]
          obtain ⟨hrows, hlen⟩ := hw t n m hdims
          have hcorrect : Correct tabs (graph nd) (some ⟨subs[c.toNat], row⟩) := by
            rw [hg]
            unfold Correct
            dsimp only
            rw [if_pos (by rw [hdims]; rfl)]
            refine ⟨_, rfl, rfl, fun i hi => ?_⟩
            have h1 := hcell c.toNat i (by omega) (by omega)
            rw [← hsub, cellAt, List.getElem?_eq_getElem hlt] at h1
            have hr : (tabs t).rows[i].length = m := hlen _ (List.getElem_mem hi)
            have h2 : entry (tabs t) i c.toNat = some ((tabs t).rows[i][c.toNat]'(by omega)) := by
              unfold entry
              rw [List.getElem?_eq_getElem hi]
              simp only [Option.bind_some]
              exact List.getElem?_eq_getElem _
            refine ⟨_, h2, ?_⟩
            have h3 : ((tabs t).rows[i]?).bind (·[c.toNat]?) = some ((tabs t).rows[i][c.toNat]'(by omega)) := h2
            rw [h3] at h1
            exact h1
          simp only [hidx]
          exact ⟨_, _, rfl, by rw [hg] at hcorrect; exact hcorrect, store _ hst1 _ hcorrect⟩
      · rename_i hne
        refine ⟨none, _, rfl, ?_, store st hst none ?_⟩
        all_goals
          first | rw [hg] | skip
          unfold Correct
          cases col with
          | dyn d => rfl
          | const c =>
            dsimp only
            rw [if_neg]
            intro hl
            obtain ⟨n, m, hnm⟩ := List.length_eq_two.1 hl
            exact hne n m hnm

/-- A history of `expand_node` calls. -/
def runExpand (tabs : ℕ → Tab α) (graph : ℕ → Node) : List ℕ → LinState α → Except Err (List (Option (NewLoad α)) × LinState α)
  | [], st => .ok ([], st)
  | nd :: rest, st =>
    match expandNode tabs graph nd st with
    | .error e => .error e
    | .ok (r, st1) =>
      match runExpand tabs graph rest st1 with
      | .error e => .error e
      | .ok (rs, st2) => .ok (r :: rs, st2)

/-- C17: for every family of tables, every graph and every sequence of rewriting requests (with repetitions) on a new linearizer,
each rewritten load reads, for every row of the table, the entry of the original table. -/
theorem C17_linearization (tabs : ℕ → Tab α) (graph : ℕ → Node) (hw : ∀ t, WellShaped (tabs t)) (hv : ValidLoads tabs graph)
    (calls : List ℕ) : ∃ rs st', runExpand tabs graph calls LinState.init = .ok (rs, st') ∧
      List.Forall₂ (fun nd r => Correct tabs (graph nd) r) calls rs := by
  suffices h : ∀ (calls : List ℕ) (st : LinState α), LinOK tabs graph st → ∃ rs st', runExpand tabs graph calls st = .ok (rs, st') ∧
      List.Forall₂ (fun nd r => Correct tabs (graph nd) r) calls rs from
    h calls _ ⟨fun t s h => by simp [LinState.init] at h, fun nd r h => by simp [LinState.init] at h⟩
  intro calls
  induction calls with
  | nil => intro st _; exact ⟨[], st, rfl, .nil⟩
  | cons nd rest ih =>
    intro st hst
    obtain ⟨r, st1, h1, h2, h3⟩ := expand_step tabs graph hw hv nd st hst
    obtain ⟨rs, st2, h4, h5⟩ := ih st1 h3
    exact ⟨r :: rs, st2, by rw [runExpand, h1]; dsimp only; rw [h4], .cons h2 h5⟩

example : WellShaped (⟨[2, 3], [[10, 11, 12], [20, 21, 22]]⟩ : Tab ℕ) := by
  intro n m h
  simp only [List.cons.injEq, and_true] at h
  obtain ⟨rfl, rfl⟩ := h
  simp

example : ValidLoads (fun _ => (⟨[2, 3], [[10, 11, 12], [20, 21, 22]]⟩ : Tab ℕ)) (fun _ => .load 0 5 (.const 1)) := by
  intro nd t row c n m h1 h2
  simp only [List.cons.injEq, and_true, Node.load.injEq, Col.const.injEq] at h1 h2
  omega

example : split2D 2 3 [[10, 11, 12], [20, 21, 22]] = [[some 10, some 20], [some 11, some 21], [some 12, some 22]] := by decide

/-! ## C18 -/

theorem mem_rangeSet (dims idx : List ℕ) : idx ∈ rangeSet dims ↔ InRange dims idx := by
  unfold InRange
  induction dims generalizing idx with
  | nil => simp [rangeSet]
  | cons d ds ih =>
    simp only [rangeSet, List.mem_flatMap, List.mem_range, List.mem_map, List.forall₂_cons_left_iff]
    constructor
    · rintro ⟨i, hi, rest, hr, rfl⟩
      exact ⟨i, rest, hi, (ih rest).1 hr, rfl⟩
    · rintro ⟨i, rest, hi, hr, rfl⟩
      exact ⟨i, hi, rest, (ih rest).2 hr, rfl⟩

/-- What the interval of a non-empty list of numbers is. -/
def Hull (vs : List ℚ) (r : Option Entry × Option Entry) : Prop :=
  ∃ l h, r = (some (.num l), some (.num h)) ∧ (∀ v ∈ vs, l ≤ v ∧ v ≤ h) ∧ l ∈ vs ∧ h ∈ vs

theorem fold_hull (gt lt : ℕ → ℚ → Bool) : ∀ (vs seen : List ℚ) (b : Option Entry × Option Entry), Hull seen b →
    Hull (seen ++ vs) ((vs.map Entry.num).foldl (boundStep gt lt) b) := by
  intro vs
  induction vs with
  | nil => intro seen b h; simpa using h
  | cons v rest ih =>
    intro seen b h
    obtain ⟨l, u, rfl, h1, h2, h3⟩ := h
    rw [List.map_cons, List.foldl_cons]
    have hstep : Hull (seen ++ [v]) (boundStep gt lt (some (.num l), some (.num u)) (.num v)) := by
      simp only [boundStep]
      have hlu := (h1 l h2).2
      by_cases c1 : l > v
      · rw [if_pos c1, if_neg (show ¬ u < v by linarith)]
        refine ⟨v, u, rfl, fun w hw => ?_, by simp, by simp [h3]⟩
        rcases List.mem_append.1 hw with hw | hw
        · have := h1 w hw; constructor <;> linarith
        · simp only [List.mem_singleton] at hw; subst hw; constructor <;> linarith
      · rw [if_neg c1]
        by_cases c2 : u < v
        · rw [if_pos c2]
          refine ⟨l, v, rfl, fun w hw => ?_, by simp [h2], by simp⟩
          rcases List.mem_append.1 hw with hw | hw
          · have := h1 w hw; constructor <;> linarith
          · simp only [List.mem_singleton] at hw; subst hw; constructor <;> linarith
        · rw [if_neg c2]
          refine ⟨l, u, rfl, fun w hw => ?_, by simp [h2], by simp [h3]⟩
          rcases List.mem_append.1 hw with hw | hw
          · exact h1 w hw
          · simp only [List.mem_singleton] at hw; subst hw; constructor <;> linarith
    have := ih (seen ++ [v]) _ hstep
    simpa using this

/-- C18 on one computation: the interval computed for a table of numbers is the smallest interval with all the entries. -/
theorem C18_compute (gt lt : ℕ → ℚ → Bool) (dims : List ℕ) (val : List ℕ → ℚ) (hne : ∀ d ∈ dims, 0 < d) :
    ∃ l h, computeInterval gt lt dims (fun i => .num (val i)) = (some (.num l), some (.num h)) ∧
      (∀ idx, InRange dims idx → l ≤ val idx ∧ val idx ≤ h) ∧
      (∃ idx, InRange dims idx ∧ val idx = l) ∧ ∃ idx, InRange dims idx ∧ val idx = h := by
  have hnon : rangeSet dims ≠ [] := by
    intro h
    have : InRange dims (dims.map fun _ => 0) := by
      unfold InRange
      clear h
      induction dims with
      | nil => exact .nil
      | cons d ds ih => exact .cons (hne d (by simp)) (ih fun e he => hne e (by simp [he]))
    rw [← mem_rangeSet, h] at this
    simp at this
  have hmap : (rangeSet dims).map (fun i => Entry.num (val i)) = ((rangeSet dims).map val).map Entry.num := by
    rw [List.map_map]; rfl
  unfold computeInterval
  rw [hmap]
  cases hr : (rangeSet dims).map val with
  | nil => exact absurd (List.map_eq_nil_iff.1 hr) hnon
  | cons v rest =>
    rw [List.map_cons, List.foldl_cons]
    have h0 : Hull [v] (boundStep gt lt (none, none) (.num v)) := ⟨v, v, rfl, by simp, by simp, by simp⟩
    obtain ⟨l, h, h1, h2, h3, h4⟩ := fold_hull gt lt rest [v] _ h0
    have hmem : ∀ w, w ∈ [v] ++ rest ↔ ∃ idx, InRange dims idx ∧ val idx = w := by
      intro w
      rw [List.singleton_append, ← hr, List.mem_map]
      simp only [mem_rangeSet]
    exact ⟨l, h, h1, fun idx hi => h2 _ ((hmem _).2 ⟨idx, hi, rfl⟩), (hmem _).1 h3, (hmem _).1 h4⟩

/-- Writes only. -/
def IsWrite : TOp → Prop
  | .write _ _ => True
  | .query => False

theorem trun_writes (gt lt : ℕ → ℚ → Bool) (dims : List ℕ) : ∀ (ops : List TOp) (st : TState), (∀ o ∈ ops, IsWrite o) →
    (trun gt lt dims st ops).cache = st.cache := by
  intro ops
  induction ops with
  | nil => intro st _; rfl
  | cons o rest ih =>
    intro st h
    unfold trun
    rw [List.foldl_cons]
    have := ih (tstep gt lt dims st o).1 (fun o h' => h o (by simp [h']))
    unfold trun at this
    rw [this]
    cases o with
    | write i v => rfl
    | query => exact (h .query (by simp)).elim

/-- C18: after any writes, the first interval query covers the table, if all entries are numbers.  Missing for the full claim:
queries after further writes and special values (below). -/
theorem C18_first_query_partial (gt lt : ℕ → ℚ → Bool) (dims : List ℕ) (hne : ∀ d ∈ dims, 0 < d) (data : List ℕ → Entry)
    (writes : List TOp) (hw : ∀ o ∈ writes, IsWrite o) (val : List ℕ → ℚ)
    (hval : ∀ idx, InRange dims idx → (trun gt lt dims ⟨data, none⟩ writes).data idx = .num (val idx)) :
    ∃ l h, (tstep gt lt dims (trun gt lt dims ⟨data, none⟩ writes) .query).2 = some (some (.num l), some (.num h)) ∧
      ∀ idx, InRange dims idx → l ≤ val idx ∧ val idx ≤ h := by
  have hc := trun_writes gt lt dims writes ⟨data, none⟩ hw
  obtain ⟨l, h, h1, h2, _⟩ := C18_compute gt lt dims val hne
  refine ⟨l, h, ?_, h2⟩
  unfold tstep
  rw [hc]
  dsimp only
  rw [← h1]
  congr 1
  unfold computeInterval
  congr 1
  apply List.map_congr_left
  intro idx hi
  exact hval idx ((mem_rangeSet dims idx).1 hi)

example : ∀ idx, InRange [2] idx → (trun (fun _ _ => false) (fun _ _ => false) [2] ⟨fun _ => .num 1, none⟩
    [.write [0] (.num 5), .write [1] (.num (-3))]).data idx = .num (if idx = [0] then 5 else -3) := by
  intro idx h
  unfold InRange at h
  rw [List.forall₂_cons_left_iff] at h
  obtain ⟨i, r, hi, hr, rfl⟩ := h
  rw [List.forall₂_nil_left_iff] at hr
  subst hr
  have : i = 0 ∨ i = 1 := by omega
  rcases this with rfl | rfl <;> simp [trun, tstep]

/-- C18 fails after a write that follows a query: for every one-dimensional table and every value outside the first interval,
the second query does not contain the written entry. -/
theorem C18_stale_cache (gt lt : ℕ → ℚ → Bool) (n : ℕ) (hn : 0 < n) (val : List ℕ → ℚ) :
    ∃ l h, ∀ (i : ℕ) (v : ℚ), i < n → h < v →
      let st := trun gt lt [n] ⟨fun k => .num (val k), none⟩ [.query, .write [i] (.num v)]
      st.data [i] = .num v ∧ (tstep gt lt [n] st .query).2 = some (some (.num l), some (.num h)) ∧ ¬ (v ≤ h) := by
  obtain ⟨l, h, h1, _⟩ := C18_compute gt lt [n] val (by simpa using hn)
  refine ⟨l, h, fun i v _ hv => ⟨?_, ?_, by linarith⟩⟩
  · simp [trun, tstep]
  · simp only [trun, List.foldl_cons, List.foldl_nil, tstep, h1]

/-- C18 fails when the last entry is a special value: both bounds are that value, whatever numbers the table holds. -/
theorem C18_special_overwrites (gt lt : ℕ → ℚ → Bool) (n c : ℕ) (val : List ℕ → ℚ) :
    computeInterval gt lt [n + 1] (fun k => if k = [n] then .special c else .num (val k)) =
      (some (.special c), some (.special c)) := by
  have h : (rangeSet [n + 1]) = (rangeSet [n]) ++ [[n]] := by
    simp only [rangeSet, List.range_succ, List.flatMap_append, List.map_cons, List.map_nil, List.flatMap_cons, List.flatMap_nil,
      List.append_nil]
  unfold computeInterval
  rw [h, List.map_append, List.foldl_append]
  simp [boundStep]

/-! ## C19 -/

theorem rne_near (q : ℚ) : (rne q : ℚ) - 1 / 2 ≤ q ∧ q ≤ rne q + 1 / 2 := by
  have h1 := Int.floor_le q
  have h2 := Int.lt_floor_add_one q
  unfold rne
  dsimp only
  split_ifs with a b c <;> push_cast <;> constructor <;> linarith

/-- C19: whatever the rounding of the arithmetic, the index is inside the table. -/
theorem C19_in_table (sub mul : ℚ → ℚ → ℚ) (iv : Ival) (n : ℕ) (hn : 0 < n) (x : ℚ) :
    0 ≤ uniformIndex sub mul iv n x ∧ uniformIndex sub mul iv n x < n := by
  unfold uniformIndex
  constructor
  · exact le_max_left _ _
  · have : (1 : ℤ) ≤ n := by exact_mod_cast hn
    rw [max_lt_iff, min_lt_iff]
    omega

example : uniformIndex (· - ·) (· * ·) ⟨0, 1⟩ 4 (9 / 10) = 3 := by decide +kernel

/-- Position of the input in units of sub-intervals. -/
theorem position (iv : Ival) (hlt : iv.lo < iv.hi) (n : ℕ) (hn : 0 < n) (x : ℚ) :
    0 < subSize iv n ∧ (x - iv.lo) * (n / (iv.hi - iv.lo)) * subSize iv n = x - iv.lo ∧ n * subSize iv n = iv.hi - iv.lo := by
  have h1 : (0 : ℚ) < n := by exact_mod_cast hn
  have h2 : 0 < iv.hi - iv.lo := by linarith
  unfold subSize
  refine ⟨div_pos h2 h1, ?_, ?_⟩ <;> field_simp

/-- C19 for the interval the tables are built on: the input minus the offset of its sub-interval is in the (symmetric) interval
reported by `get_offseted_sub_interval`. -/
theorem C19_offset_interval (iv : Ival) (hlt : iv.lo < iv.hi) (n : ℕ) (hn : 0 < n) (x : ℚ) (hx : iv.Has x) :
    let i := uniformIndex (· - ·) (· * ·) iv n x
    (offsetedSubInterval iv n i).2.Has (x - (offsetedSubInterval iv n i).1) := by
  obtain ⟨hs, hp, hn'⟩ := position iv hlt n hn x
  obtain ⟨hx1, hx2⟩ := hx
  have hn1 : (1 : ℚ) ≤ n := by exact_mod_cast hn
  dsimp only
  set q := (x - iv.lo) * (n / (iv.hi - iv.lo)) with hq
  obtain ⟨r1, r2⟩ := rne_near q
  set s := subSize iv n
  have hq0 : 0 ≤ q := by
    have : 0 ≤ q * s := by rw [hp]; linarith
    exact nonneg_of_mul_nonneg_left this hs
  have hqn : q ≤ n := by
    have : q * s ≤ n * s := by rw [hp, hn']; linarith
    exact le_of_mul_le_mul_right this hs
  have hr0 : (0 : ℤ) ≤ rne q := by
    have : (-1 : ℚ) < rne q := by linarith
    have : (-1 : ℤ) < rne q := by exact_mod_cast this
    omega
  have hidx : uniformIndex (· - ·) (· * ·) iv n x = min (rne q) (n - 1) := by
    change max 0 (min (rne q) (n - 1 : ℤ)) = _
    have : (1 : ℤ) ≤ n := by exact_mod_cast hn
    rw [max_eq_right]
    rw [le_min_iff]; omega
  have key : -1 ≤ q - ((min (rne q) (n - 1 : ℤ) : ℤ) : ℚ) ∧ q - ((min (rne q) (n - 1 : ℤ) : ℤ) : ℚ) ≤ 1 := by
    rcases min_choice (rne q) (n - 1 : ℤ) with h | h
    · rw [h]; constructor <;> linarith
    · rw [h]
      have h3 : (n - 1 : ℤ) ≤ rne q := by rw [← h]; exact min_le_left _ _
      have h4 : ((n - 1 : ℤ) : ℚ) ≤ rne q := by exact_mod_cast h3
      push_cast at h4 ⊢
      constructor <;> linarith
  unfold offsetedSubInterval subInterval Ival.Has
  dsimp only
  rw [hidx]
  set i := ((min (rne q) (n - 1 : ℤ) : ℤ) : ℚ)
  change -(iv.lo + (i + 1) * s - (iv.lo + i * s)) ≤ x - (iv.lo + i * s) ∧
    x - (iv.lo + i * s) ≤ iv.lo + (i + 1) * s - (iv.lo + i * s)
  have e : x - (iv.lo + i * s) = (q - i) * s := by rw [sub_mul, hp]; ring
  have e2 : iv.lo + (i + 1) * s - (iv.lo + i * s) = s := by ring
  rw [e, e2]
  constructor <;> nlinarith [key.1, key.2]

example : (⟨0, 1⟩ : Ival).Has (3 / 10) ∧ uniformIndex (· - ·) (· * ·) ⟨0, 1⟩ 2 (3 / 10) = 1 := by
  constructor
  · unfold Ival.Has; norm_num
  · decide +kernel

/-- **C19**: the sub-intervals cut the indexed interval into consecutive pieces of the same width: no gap, no overlap. -/
theorem C19_partition (iv : Ival) (n : ℕ) (hn : 0 < n) :
    (subInterval iv n 0).lo = iv.lo ∧ (subInterval iv n (n - 1)).hi = iv.hi ∧
    ∀ i, (subInterval iv n i).hi = (subInterval iv n (i + 1)).lo ∧
      (subInterval iv n i).hi - (subInterval iv n i).lo = (iv.hi - iv.lo) / n := by
  have h : (n : ℚ) ≠ 0 := by positivity
  refine ⟨by simp [subInterval], ?_, fun i => ⟨?_, ?_⟩⟩
  · simp only [subInterval, subSize]; push_cast; field_simp; ring
  · simp [subInterval]
  · simp only [subInterval, subSize]; ring

example : subInterval ⟨0, 1⟩ 4 3 = ⟨3 / 4, 1⟩ := by norm_num [subInterval, subSize]

/-- C19: an input in the lower half of a sub-interval gets that sub-interval.  Missing: the upper half (below). -/
theorem C19_lower_half_partial (iv : Ival) (hlt : iv.lo < iv.hi) (n : ℕ) (hn : 0 < n) (k : ℕ) (hk : k < n) (d : ℚ) (hd0 : 0 ≤ d)
    (hd : d < 1 / 2) :
    let x := iv.lo + (k + d) * subSize iv n
    uniformIndex (· - ·) (· * ·) iv n x = k ∧ (subInterval iv n k).Has x := by
  intro x
  obtain ⟨hs, hp, hn'⟩ := position iv hlt n hn x
  have hq : (x - iv.lo) * (n / (iv.hi - iv.lo)) = k + d := by
    have : (x - iv.lo) * (n / (iv.hi - iv.lo)) * subSize iv n = (k + d) * subSize iv n := by rw [hp]; simp only [x]; ring
    exact mul_right_cancel₀ (ne_of_gt hs) this
  have hr : rne ((k : ℚ) + d) = k := by
    have hf : ⌊(k : ℚ) + d⌋ = k := by rw [Int.floor_eq_iff]; push_cast; constructor <;> linarith
    unfold rne
    rw [hf]
    dsimp only
    rw [if_pos]; push_cast; linarith
  constructor
  · change max 0 (min (rne ((x - iv.lo) * (n / (iv.hi - iv.lo)))) (n - 1 : ℤ)) = _
    rw [hq, hr]
    rw [min_eq_left (by omega), max_eq_right (by omega)]
  · unfold subInterval Ival.Has
    dsimp only [x]
    push_cast
    constructor <;> nlinarith

/-- C19 fails for every input in the upper half of every sub-interval but the last: the index is the next one, whose sub-interval
does not contain the input. -/
theorem C19_upper_half_wrong (iv : Ival) (hlt : iv.lo < iv.hi) (n : ℕ) (hn : 0 < n) (k : ℕ) (hk : k + 1 < n) (d : ℚ)
    (hd : 1 / 2 < d) (hd1 : d < 1) :
    let x := iv.lo + (k + d) * subSize iv n
    iv.Has x ∧ uniformIndex (· - ·) (· * ·) iv n x = k + 1 ∧ ¬ (subInterval iv n (k + 1)).Has x := by
  intro x
  obtain ⟨hs, hp, hn'⟩ := position iv hlt n hn x
  have hq : (x - iv.lo) * (n / (iv.hi - iv.lo)) = k + d := by
    have : (x - iv.lo) * (n / (iv.hi - iv.lo)) * subSize iv n = (k + d) * subSize iv n := by rw [hp]; simp only [x]; ring
    exact mul_right_cancel₀ (ne_of_gt hs) this
  have hr : rne ((k : ℚ) + d) = k + 1 := by
    have hf : ⌊(k : ℚ) + d⌋ = k := by rw [Int.floor_eq_iff]; push_cast; constructor <;> linarith
    unfold rne
    rw [hf]
    dsimp only
    rw [if_neg, if_pos] <;> push_cast <;> linarith
  have hkn : (k : ℚ) + 1 < n := by exact_mod_cast hk
  have hk0 : (0 : ℚ) ≤ k := Nat.cast_nonneg k
  refine ⟨?_, ?_, ?_⟩
  · unfold Ival.Has
    simp only [x]
    constructor <;> nlinarith
  · change max 0 (min (rne ((x - iv.lo) * (n / (iv.hi - iv.lo)))) (n - 1 : ℤ)) = _
    rw [hq, hr]
    rw [min_eq_left (by omega), max_eq_right (by omega)]
  · unfold subInterval Ival.Has
    simp only [x]
    push_cast
    rintro ⟨h, _⟩
    nlinarith

/-! ## C61: field-based indices -/

open Verif.Float (Fmt Val integerCoding valueFromCoding pack bias zp zle zlt zsucc zadd znat)

/-- Bit pattern of a positive normal number. -/
theorem normal_code (F : Fmt) (he : 1 ≤ F.e) (hf : 1 ≤ F.f) (x : ℚ) (hx : F.Normal x) (h0 : 0 < x) :
    ∃ X m : ℕ, integerCoding F (.num x) = .ok (X * 2 ^ F.f + m) ∧ m < 2 ^ F.f ∧ X < 2 ^ F.e ∧
      x = (1 + m * (2 : ℚ) ^ (-(F.f : ℤ))) * (2 : ℚ) ^ ((X : ℤ) + bias F) := by
  obtain ⟨code, h1, h2, h3⟩ := Verif.Float.C01_round_trip F he hf (.num x) ⟨hx.1, ne_of_gt h0⟩ (by simp)
  obtain ⟨s, X, m, hs, hX, hm, rfl⟩ := Verif.Float.exists_pack F code h2
  rw [Verif.Float.decode_pack F s X m hm hX] at h3
  have hmq : (0 : ℚ) ≤ m * (2 : ℚ) ^ (-(F.f : ℤ)) := by have := zp (-(F.f : ℤ)); positivity
  have hmlt : (m : ℚ) * (2 : ℚ) ^ (-(F.f : ℤ)) < 1 := by
    rw [zpow_neg, znat]
    rw [mul_inv_lt_iff₀ (by positivity)]
    rw [one_mul]; exact_mod_cast hm
  by_cases c1 : X = 2 ^ F.e - 1
  · rw [if_pos c1] at h3; split_ifs at h3
  rw [if_neg c1] at h3
  by_cases c2 : X = 0 ∧ m = 0
  · rw [if_pos c2] at h3; split_ifs at h3
  rw [if_neg c2] at h3
  simp only [Val.num.injEq] at h3
  have hs0 : s = 0 := by
    by_contra hs0
    rw [if_pos hs0] at h3
    have : x ≤ 0 := by
      rw [← h3]
      have := zp ((X : ℤ) + bias F + (if X = 0 then 1 else 0))
      have h4 : (0 : ℚ) ≤ (if X = 0 then (0 : ℚ) else 1) + m * (2 : ℚ) ^ (-(F.f : ℤ)) := by split_ifs <;> linarith
      nlinarith
    linarith
  have hX0 : X ≠ 0 := by
    intro hX0
    simp only [hX0, hs0] at h3
    norm_num at h3
    have h5 := hx.2
    rw [abs_of_pos h0, ← h3, Verif.Float.bias_eq, show F.emin - 1 + 1 = F.emin by ring] at h5
    have := zp F.emin
    have h6 : ((2 : ℚ) ^ F.f)⁻¹ = (2 : ℚ) ^ (-(F.f : ℤ)) := by rw [zpow_neg, znat]
    first
      | nlinarith
      | (rw [h6] at h5; nlinarith)
  refine ⟨X, m, ?_, hm, hX, ?_⟩
  · rw [h1, Verif.Float.pack_eq F s X m hm hX, hs0, zero_mul, zero_add]
  · rw [← h3, if_neg (by simp [hs0]), if_neg hX0, if_neg hX0]; ring_nf

/-- The exponent of a number in `[1, 2) * 2^E`. -/
theorem exp_bounds (F : Fmt) (X m : ℕ) (hm : m < 2 ^ F.f) (x : ℚ) (hx : x = (1 + m * (2 : ℚ) ^ (-(F.f : ℤ))) * (2 : ℚ) ^ ((X : ℤ) + bias F)) :
    (2 : ℚ) ^ ((X : ℤ) + bias F) ≤ x ∧ x < (2 : ℚ) ^ ((X : ℤ) + bias F + 1) := by
  have hmq : (0 : ℚ) ≤ m * (2 : ℚ) ^ (-(F.f : ℤ)) := by have := zp (-(F.f : ℤ)); positivity
  have hmlt : (m : ℚ) * (2 : ℚ) ^ (-(F.f : ℤ)) < 1 := by
    rw [zpow_neg, znat]
    rw [mul_inv_lt_iff₀ (by positivity)]
    rw [one_mul]; exact_mod_cast hm
  have hz := zp ((X : ℤ) + bias F)
  rw [zsucc, hx]
  constructor <;> nlinarith

/-- The upper `k` bits of a fraction bound it. -/
theorem msb_bounds (f k m : ℕ) (hk : k ≤ f) :
    ((m / 2 ^ (f - k) : ℕ) : ℚ) * (2 : ℚ) ^ (-(k : ℤ)) ≤ m * (2 : ℚ) ^ (-(f : ℤ)) ∧
    (m : ℚ) * (2 : ℚ) ^ (-(f : ℤ)) < (((m / 2 ^ (f - k) : ℕ) : ℚ) + 1) * (2 : ℚ) ^ (-(k : ℤ)) := by
  have hf : (2 : ℚ) ^ (-(k : ℤ)) = 2 ^ (f - k) * (2 : ℚ) ^ (-(f : ℤ)) := by
    rw [← znat, ← zadd]; congr 1; omega
  have h1 : m / 2 ^ (f - k) * 2 ^ (f - k) ≤ m := Nat.div_mul_le_self _ _
  have h2 : m < (m / 2 ^ (f - k) + 1) * 2 ^ (f - k) := by
    rw [mul_comm]; exact Nat.lt_mul_div_succ m (by positivity)
  have h1' : ((m / 2 ^ (f - k) : ℕ) : ℚ) * 2 ^ (f - k) ≤ m := by exact_mod_cast h1
  have h2' : (m : ℚ) < (((m / 2 ^ (f - k) : ℕ) : ℚ) + 1) * 2 ^ (f - k) := by exact_mod_cast h2
  have hz := zp (-(f : ℤ))
  rw [hf, ← mul_assoc, ← mul_assoc]
  constructor
  · exact mul_le_mul_of_nonneg_right h1' hz.le
  · exact mul_lt_mul_of_pos_right h2' hz

/-- C61: the mantissa index of a number of `[1, 2)` is inside the table and its sub-interval contains the number. -/
theorem C61_mantissa_index (F : Fmt) (he : 1 ≤ F.e) (hf : 1 ≤ F.f) (k : ℕ) (hk : k ≤ F.f) (x : ℚ) (hx : F.Normal x) (h1 : 1 ≤ x)
    (h2 : x < 2) :
    ∃ code, integerCoding F (.num x) = .ok code ∧ mantissaIndex F k code < 2 ^ k ∧
      (mantissaSub k (mantissaIndex F k code)).lo ≤ x ∧ x < (mantissaSub k (mantissaIndex F k code)).hi := by
  obtain ⟨X, m, c1, c2, c3, c4⟩ := normal_code F he hf x hx (by linarith)
  obtain ⟨b1, b2⟩ := exp_bounds F X m c2 x c4
  have hE : (X : ℤ) + bias F = 0 := by
    by_contra hne
    rcases lt_or_gt_of_ne hne with h | h
    · have := zle (show (X : ℤ) + bias F + 1 ≤ 0 by omega); rw [zpow_zero] at this; linarith
    · have := zle (show 1 ≤ (X : ℤ) + bias F by omega); norm_num at this; linarith
  rw [hE, zpow_zero, mul_one] at c4
  have hidx : mantissaIndex F k (X * 2 ^ F.f + m) = m / 2 ^ (F.f - k) := by
    unfold mantissaIndex
    rw [Nat.and_two_pow_sub_one_eq_mod, Nat.shiftRight_eq_div_pow]
    have hsp : 2 ^ F.f = 2 ^ (F.f - k) * 2 ^ k := by rw [← pow_add]; congr 1; omega
    have e1 : (X * 2 ^ F.f + m) / 2 ^ (F.f - k) = m / 2 ^ (F.f - k) + 2 ^ k * X := by
      rw [hsp, show X * (2 ^ (F.f - k) * 2 ^ k) + m = m + 2 ^ (F.f - k) * (2 ^ k * X) by ring,
        Nat.add_mul_div_left _ _ (by positivity)]
    rw [e1, Nat.add_mul_mod_self_left]
    apply Nat.mod_eq_of_lt
    rw [Nat.div_lt_iff_lt_mul (by positivity), mul_comm, ← hsp]; exact c2
  refine ⟨_, c1, ?_, ?_⟩
  · unfold mantissaIndex
    rw [Nat.and_two_pow_sub_one_eq_mod]
    exact Nat.mod_lt _ (by positivity)
  · rw [hidx]
    obtain ⟨g1, g2⟩ := msb_bounds F.f k m hk
    unfold mantissaSub
    dsimp only
    rw [c4]
    constructor <;> linarith

example : (Fmt.mk 8 23).Normal (5 / 4) := by
  refine ⟨⟨5 * 2 ^ 21, 0, by norm_num, ?_, ?_, ?_⟩, ?_⟩
  · norm_num [Fmt.emin, Fmt.emax]
  · norm_num [Fmt.emax]
  · norm_num [zpow_neg, zpow_natCast]
  · rw [show |(5 / 4 : ℚ)| = 5 / 4 by norm_num [abs_of_pos]]
    have : (2 : ℚ) ^ (Fmt.emin ⟨8, 23⟩) ≤ (2 : ℚ) ^ (0 : ℤ) := zle (by norm_num [Fmt.emin, Fmt.emax])
    rw [zpow_zero] at this; linarith

/-- C61: for inputs of `[2^low, 2^(high+1))` the index built from the low exponent bits and the upper mantissa bits is inside the
table and its sub-interval contains the input. -/
theorem C61_fp_index (F : Fmt) (he : 1 ≤ F.e) (hf : 1 ≤ F.f) (low high : ℤ) (hlh : low ≤ high) (fb : ℕ) (hfb : fb ≤ F.f)
    (hlow : F.Normal ((2 : ℚ) ^ low)) (x : ℚ) (hx : F.Normal x) (h1 : (2 : ℚ) ^ low ≤ x) (h2 : x < (2 : ℚ) ^ (high + 1)) :
    ∃ code off, integerCoding F (.num x) = .ok code ∧ integerCoding F (.num ((2 : ℚ) ^ low)) = .ok off ∧
      fpIndex F low high fb code off < splitNum low high fb ∧
      (fpSub low fb (fpIndex F low high fb code off)).lo ≤ x ∧ x < (fpSub low fb (fpIndex F low high fb code off)).hi := by
  have hx0 : 0 < x := lt_of_lt_of_le (zp low) h1
  obtain ⟨X, m, c1, c2, c3, c4⟩ := normal_code F he hf x hx hx0
  obtain ⟨X0, m0, d1, d2, d3, d4⟩ := normal_code F he hf _ hlow (zp low)
  obtain ⟨b1, b2⟩ := exp_bounds F X m c2 x c4
  obtain ⟨e1, e2⟩ := exp_bounds F X0 m0 d2 _ d4
  have hE0 : (X0 : ℤ) + bias F = low := by
    by_contra hne
    rcases lt_or_gt_of_ne hne with h | h
    · have := zle (show (X0 : ℤ) + bias F + 1 ≤ low by omega); linarith
    · have := zlt (show low < (X0 : ℤ) + bias F by omega); linarith
  have hm0 : m0 = 0 := by
    rw [hE0] at d4
    have hz := zp low
    have : (1 : ℚ) + m0 * (2 : ℚ) ^ (-(F.f : ℤ)) = 1 := by
      have := mul_right_cancel₀ (ne_of_gt hz) ((one_mul _).trans d4)
      exact this.symm
    have h3 : (m0 : ℚ) * (2 : ℚ) ^ (-(F.f : ℤ)) = 0 := by linarith
    rcases mul_eq_zero.1 h3 with h | h
    · exact_mod_cast h
    · exact absurd h (ne_of_gt (zp _))
  have hElo : low ≤ (X : ℤ) + bias F := by
    by_contra h
    have := zle (show (X : ℤ) + bias F + 1 ≤ low by omega); linarith
  have hEhi : (X : ℤ) + bias F ≤ high := by
    by_contra h
    have := zle (show high + 1 ≤ (X : ℤ) + bias F by omega); linarith
  obtain ⟨D, hD⟩ : ∃ D : ℕ, X = X0 + D := ⟨X - X0, by omega⟩
  have hDE : (D : ℤ) + low = (X : ℤ) + bias F := by rw [hD]; push_cast; omega
  have hDle : D < (high - low + 1).toNat := by omega
  have hidx : fpIndex F low high fb (X * 2 ^ F.f + m) (X0 * 2 ^ F.f + m0) = D * 2 ^ fb + m / 2 ^ (F.f - fb) := by
    have hsp : 2 ^ F.f = 2 ^ (F.f - fb) * 2 ^ fb := by rw [← pow_add]; congr 1; omega
    unfold fpIndex
    rw [Nat.and_two_pow_sub_one_eq_mod, Nat.shiftRight_eq_div_pow]
    have e1 : X * 2 ^ F.f + m - (X0 * 2 ^ F.f + m0) = m + 2 ^ (F.f - fb) * (2 ^ fb * D) := by
      rw [hm0, hD, add_zero, Nat.add_mul, Nat.add_assoc, Nat.add_sub_cancel_left, hsp]; ring
    rw [e1, Nat.add_mul_div_left _ _ (by positivity)]
    have hlt : m / 2 ^ (F.f - fb) < 2 ^ fb := by
      rw [Nat.div_lt_iff_lt_mul (by positivity), mul_comm, ← hsp]; exact c2
    rw [Nat.mod_eq_of_lt]
    · ring
    · have hcl : (high - low + 1).toNat ≤ 2 ^ expBits low high := Nat.le_pow_clog (by norm_num) _
      have : (D + 1) * 2 ^ fb ≤ 2 ^ (expBits low high + fb) := by
        rw [pow_add]; exact Nat.mul_le_mul_right _ (by omega)
      nlinarith
  have hlt : m / 2 ^ (F.f - fb) < 2 ^ fb := by
    have hsp : 2 ^ F.f = 2 ^ (F.f - fb) * 2 ^ fb := by rw [← pow_add]; congr 1; omega
    rw [Nat.div_lt_iff_lt_mul (by positivity), mul_comm, ← hsp]; exact c2
  refine ⟨_, _, c1, d1, ?_, ?_⟩
  · rw [hidx]
    unfold splitNum
    have : (D + 1) * 2 ^ fb ≤ (high - low + 1).toNat * 2 ^ fb := Nat.mul_le_mul_right _ (by omega)
    nlinarith
  · rw [hidx]
    have hmod : (D * 2 ^ fb + m / 2 ^ (F.f - fb)) % 2 ^ fb = m / 2 ^ (F.f - fb) := by
      rw [Nat.add_comm, Nat.add_mul_mod_self_right, Nat.mod_eq_of_lt hlt]
    have hdiv : (D * 2 ^ fb + m / 2 ^ (F.f - fb)) / 2 ^ fb = D := by
      rw [Nat.add_comm, Nat.add_mul_div_right _ _ (by positivity), Nat.div_eq_of_lt hlt, zero_add]
    obtain ⟨g1, g2⟩ := msb_bounds F.f fb m hfb
    unfold fpSub
    dsimp only
    rw [hmod, hdiv, hDE, c4]
    have hz := zp ((X : ℤ) + bias F)
    constructor
    · exact mul_le_mul_of_nonneg_right (by linarith) hz.le
    · exact mul_lt_mul_of_pos_right (by linarith) hz

example : fpIndex ⟨8, 23⟩ (-1) 1 2 (128 * 2 ^ 23 + 2 ^ 22) (126 * 2 ^ 23) = 10 := by decide

/-- **C61**: the sub-intervals reported by the mantissa indexing cut `[1, 2]` into consecutive pieces of the same positive width:
there is no gap and no overlap, so the sub-interval of an index contains no input of another index but a common end point. -/
theorem C61_mantissa_partition (k : ℕ) :
    (mantissaSub k 0).lo = 1 ∧ (mantissaSub k (2 ^ k - 1)).hi = 2 ∧
    ∀ i, (mantissaSub k i).hi = (mantissaSub k (i + 1)).lo ∧ (mantissaSub k i).hi - (mantissaSub k i).lo = 1 / 2 ^ k := by
  have hp : (2 : ℚ) ^ k ≠ 0 := by positivity
  refine ⟨by simp [mantissaSub], ?_, fun i => ⟨?_, ?_⟩⟩
  · have : 1 ≤ 2 ^ k := Nat.one_le_two_pow
    simp only [mantissaSub, zpow_neg, zpow_natCast]
    push_cast [Nat.cast_sub this]
    field_simp
    ring
  · simp [mantissaSub]
  · simp only [mantissaSub, zpow_neg, zpow_natCast]
    field_simp
    ring

example : (mantissaSub 2 3).lo = 7 / 4 := by norm_num [mantissaSub]

/-- **C61**: the sub-intervals of the exponent and mantissa indexing cut `[2^low, 2^(high+1)]` into consecutive pieces of positive
width. -/
theorem C61_fp_partition (low high : ℤ) (hlh : low ≤ high) (fb : ℕ) :
    (fpSub low fb 0).lo = (2 : ℚ) ^ low ∧ (fpSub low fb (splitNum low high fb - 1)).hi = (2 : ℚ) ^ (high + 1) ∧
    ∀ i, (fpSub low fb i).hi = (fpSub low fb (i + 1)).lo ∧ (fpSub low fb i).lo < (fpSub low fb i).hi := by
  have hp : (2 : ℚ) ^ fb ≠ 0 := by positivity
  have hpos : 0 < 2 ^ fb := Nat.two_pow_pos fb
  refine ⟨by simp [fpSub], ?_, fun i => ⟨?_, ?_⟩⟩
  · obtain ⟨n, hn⟩ : ∃ n : ℕ, high = low + n := ⟨(high - low).toNat, by omega⟩
    have h1 : splitNum low high fb - 1 = (2 ^ fb - 1) + n * 2 ^ fb := by
      have : (high - low + 1).toNat = n + 1 := by omega
      rw [splitNum, this, Nat.add_mul, one_mul]; omega
    have h2 : (2 ^ fb - 1 + n * 2 ^ fb) % 2 ^ fb = 2 ^ fb - 1 := by
      rw [Nat.add_mul_mod_self_right, Nat.mod_eq_of_lt (by omega)]
    have h3 : (2 ^ fb - 1 + n * 2 ^ fb) / 2 ^ fb = n := by
      rw [Nat.add_mul_div_right _ _ hpos, Nat.div_eq_of_lt (by omega), zero_add]
    have h4 : (1 : ℚ) + (((2 ^ fb - 1 : ℕ) : ℚ) + 1) * (2 : ℚ) ^ (-(fb : ℤ)) = 2 := by
      rw [zpow_neg, zpow_natCast]
      push_cast [Nat.cast_sub (show 1 ≤ 2 ^ fb from hpos)]
      field_simp
      ring
    simp only [fpSub]
    rw [h1, h2, h3, h4, hn, ← zpow_one_add₀ (by norm_num)]
    congr 1; ring
  · simp only [fpSub]
    by_cases h : i % 2 ^ fb + 1 = 2 ^ fb
    · obtain ⟨e1, e2⟩ : (i + 1) % 2 ^ fb = 0 ∧ (i + 1) / 2 ^ fb = i / 2 ^ fb + 1 := by
        have hd := Nat.div_add_mod i (2 ^ fb)
        have : i + 1 = 2 ^ fb * (i / 2 ^ fb + 1) := by rw [Nat.mul_add, mul_one]; omega
        rw [this]
        exact ⟨Nat.mul_mod_right _ _, Nat.mul_div_cancel_left _ hpos⟩
      have h4 : (1 : ℚ) + (((i % 2 ^ fb : ℕ) : ℚ) + 1) * (2 : ℚ) ^ (-(fb : ℤ)) = 2 := by
        have : (((i % 2 ^ fb : ℕ) : ℚ) + 1) = 2 ^ fb := by exact_mod_cast h
        rw [this, zpow_neg, zpow_natCast]
        field_simp
        ring
      rw [e1, e2, h4, ← zpow_one_add₀ (by norm_num)]
      push_cast
      rw [zero_mul, add_zero, one_mul]
      congr 1; ring
    · have hlt := Nat.mod_lt i hpos
      obtain ⟨e1, e2⟩ : (i + 1) % 2 ^ fb = i % 2 ^ fb + 1 ∧ (i + 1) / 2 ^ fb = i / 2 ^ fb := by
        have hd := Nat.div_add_mod i (2 ^ fb)
        have : i + 1 = (i % 2 ^ fb + 1) + 2 ^ fb * (i / 2 ^ fb) := by omega
        constructor
        · conv_lhs => rw [this]
          rw [Nat.add_mul_mod_self_left, Nat.mod_eq_of_lt (by omega)]
        · conv_lhs => rw [this]
          rw [Nat.add_mul_div_left _ _ hpos, Nat.div_eq_of_lt (by omega), zero_add]
      rw [e1, e2]
      push_cast
      rfl
  · simp only [fpSub]
    have h1 : (0 : ℚ) < (2 : ℚ) ^ (((i / 2 ^ fb : ℕ) : ℤ) + low) := zpow_pos (by norm_num) _
    have h2 : (0 : ℚ) < (2 : ℚ) ^ (-(fb : ℤ)) := zpow_pos (by norm_num) _
    exact mul_lt_mul_of_pos_right (by linarith) h1

example : (fpSub (-1) 2 10).lo = 3 := by norm_num [fpSub]

/-! ## C58 -/

/-- The (size, offset, number) triples of consecutive slices. -/
def layout : ℕ → ℕ → List ℕ → List ((ℕ × ℕ) × ℕ)
  | _, _, [] => []
  | o, k, s :: ss => ((s, o), k) :: layout (o + s) (k + 1) ss

theorem zip_layout (sizes : List ℕ) (o k : ℕ) :
    (sizes.zip ((List.range sizes.length).map fun i => o + (sizes.take i).sum)).zipIdx k = layout o k sizes := by
  induction sizes generalizing o k with
  | nil => rfl
  | cons s ss ih =>
    rw [List.length_cons, List.range_succ_eq_map, List.map_cons, List.map_map, List.zip_cons_cons, List.zipIdx_cons, layout]
    congr 1
    rw [← ih (o + s) (k + 1)]
    congr 2
    apply List.map_congr_left
    intro i _
    simp [List.take_succ_cons, add_assoc]

theorem inner_rows {β : Type} (g : ℕ → β) (o : ℕ) : ∀ (s : ℕ) (t : List (Option β)), o + s ≤ t.length →
    let r := (List.range s).foldl (fun t i0 => t.set (o + i0) (some (g i0))) t
    r.length = t.length ∧ (∀ j, j < o → r[j]? = t[j]?) ∧ ∀ i, i < s → r[o + i]? = some (some (g i)) := by
  intro s
  induction s with
  | zero => intro t _; exact ⟨rfl, fun j _ => rfl, fun i h => absurd h (by omega)⟩
  | succ s ih =>
    intro t hl
    dsimp only
    rw [List.range_succ, List.foldl_append, List.foldl_cons, List.foldl_nil]
    obtain ⟨h1, h2, h3⟩ := ih t (by omega)
    refine ⟨by rw [List.length_set, h1], fun j hj => ?_, fun i hi => ?_⟩
    · rw [List.getElem?_set_ne (by omega), h2 j hj]
    · by_cases he : i = s
      · subst he
        rw [List.getElem?_set_self (by rw [h1]; omega)]
      · rw [List.getElem?_set_ne (by omega), h3 i (by omega)]

theorem fold_rows {β : Type} (gen : ℕ → ℕ → β) : ∀ (sizes : List ℕ) (o k : ℕ) (t : List (Option β)), o + sizes.sum ≤ t.length →
    let r := (layout o k sizes).foldl
      (fun t p => (List.range p.1.1).foldl (fun t i0 => t.set (p.1.2 + i0) (some (gen p.2 i0))) t) t
    r.length = t.length ∧ (∀ j, j < o → r[j]? = t[j]?) ∧
      ∀ (n : ℕ) (hn : n < sizes.length) (i : ℕ), i < sizes[n] → r[o + (sizes.take n).sum + i]? = some (some (gen (k + n) i)) := by
  intro sizes
  induction sizes with
  | nil => intro o k t _; exact ⟨rfl, fun j _ => rfl, fun n hn => absurd hn (by simp)⟩
  | cons s ss ih =>
    intro o k t hl
    rw [List.sum_cons] at hl
    dsimp only
    rw [layout, List.foldl_cons]
    obtain ⟨a1, a2, a3⟩ := inner_rows (gen k) o s t (by omega)
    obtain ⟨b1, b2, b3⟩ := ih (o + s) (k + 1) _ (by rw [a1]; omega)
    dsimp only at b1 b2 b3 ⊢
    refine ⟨by rw [b1, a1], fun j hj => by rw [b2 j (by omega), a2 j hj], fun n hn i hi => ?_⟩
    cases n with
    | zero =>
      simp only [List.getElem_cons_zero] at hi
      simp only [List.take_zero, List.sum_nil, add_zero]
      rw [b2 (o + i) (by omega), a3 i hi]
    | succ n =>
      simp only [List.getElem_cons_succ] at hi
      simp only [List.length_cons, Nat.succ_lt_succ_iff] at hn
      have := b3 n hn i hi
      rw [List.take_succ_cons, List.sum_cons, ← add_assoc, this]
      congr 3; omega

/-- C58: every row of every sub-array is stored at its offset (the sum of the sizes before it), and the table is exactly as long
as all sub-arrays together. -/
theorem C58_rows {β : Type} (sizes : List ℕ) (gen : ℕ → ℕ → β) :
    (multiTable (sizeOffsets sizes) gen).length = sizes.sum ∧
    ∀ (n : ℕ) (hn : n < sizes.length) (i : ℕ), i < sizes[n] →
      (multiTable (sizeOffsets sizes) gen)[(sizes.take n).sum + i]? = some (some (gen n i)) := by
  have hz : (sizeOffsets sizes).zipIdx = layout 0 0 sizes := by
    rw [← zip_layout sizes 0 0]; simp [sizeOffsets, offsets]
  have hmap : (sizeOffsets sizes).map Prod.fst = sizes := by
    unfold sizeOffsets
    rw [List.map_fst_zip]
    simp [offsets]
  unfold multiTable
  rw [hz, hmap]
  obtain ⟨h1, _, h3⟩ := fold_rows gen sizes 0 0 (List.replicate sizes.sum none) (by simp)
  refine ⟨by rw [h1]; simp, fun n hn i hi => ?_⟩
  have := h3 n hn i hi
  simpa using this

example : multiTable (sizeOffsets [2, 0, 1]) (fun t i => (t, i)) = [some (0, 0), some (0, 1), some (2, 0)] := by decide

/-- C58: each row of the table belongs to exactly one sub-array. -/
theorem C58_partition (sizes : List ℕ) (r : ℕ) (hr : r < sizes.sum) :
    ∃! p : ℕ × ℕ, ∃ hn : p.1 < sizes.length, p.2 < sizes[p.1] ∧ r = (sizes.take p.1).sum + p.2 := by
  induction sizes generalizing r with
  | nil => simp at hr
  | cons s ss ih =>
    rw [List.sum_cons] at hr
    by_cases hs : r < s
    · refine ⟨(0, r), ⟨by simp, by simpa using hs, by simp⟩, ?_⟩
      rintro ⟨n, i⟩ ⟨hn, h1, h2⟩
      cases n with
      | zero => simp at h2; simp [h2]
      | succ n =>
        dsimp only at h2
        rw [List.take_succ_cons, List.sum_cons] at h2; omega
    · obtain ⟨⟨n, i⟩, ⟨hn, h1, h2⟩, huniq⟩ := ih (r - s) (by omega)
      refine ⟨(n + 1, i), ⟨by simpa using hn, by simpa using h1, ?_⟩, ?_⟩
      · dsimp only at h2 ⊢
        rw [List.take_succ_cons, List.sum_cons]; omega
      · rintro ⟨n', i'⟩ ⟨hn', h1', h2'⟩
        cases n' with
        | zero =>
          dsimp only at h1' h2'
          simp only [List.getElem_cons_zero] at h1'
          simp at h2'; omega
        | succ n' =>
          dsimp only at h1' h2'
          rw [List.take_succ_cons, List.sum_cons] at h2'
          simp only [List.getElem_cons_succ] at h1'
          have := huniq (n', i') ⟨by simpa using hn', h1', by dsimp only; omega⟩
          simp only [Prod.mk.injEq] at this ⊢
          omega

/-- C58: the row of expected values at every position is computed from the input stored at that position. -/
theorem C58_expected {β γ : Type} (sizes : List ℕ) (inputs : List β) (f : β → γ) (hl : inputs.length = sizes.sum) (r : ℕ)
    (hr : r < inputs.length) : (expectedTable (sizeOffsets sizes) inputs f)[r]? = some (some (some (f inputs[r]))) := by
  obtain ⟨⟨n, i⟩, ⟨hn, h1, h2⟩, -⟩ := C58_partition sizes r (by omega)
  dsimp only at hn h1 h2
  unfold expectedTable
  have := (C58_rows sizes (fun t i => (((sizeOffsets sizes)[t]?).bind fun p => inputs[p.2 + i]?).map f)).2 n hn i h1
  rw [← h2] at this
  rw [this]
  congr 2
  have hso : (sizeOffsets sizes)[n]? = some (sizes[n], (sizes.take n).sum) := by
    unfold sizeOffsets offsets
    rw [List.getElem?_eq_getElem (by simpa using hn)]
    simp
  rw [hso]
  simp only [Option.bind_some, ← h2, List.getElem?_eq_getElem hr, Option.map_some]

example : expectedTable (sizeOffsets [1, 2]) [5, 6, 7] (· + 1) = [some (some 6), some (some 7), some (some 8)] := by decide

end Verif.Table
