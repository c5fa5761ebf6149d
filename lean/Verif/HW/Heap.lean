import Mathlib.Tactic.Ring
import Mathlib.Tactic.Linarith
import Mathlib.Tactic.LinearCombination
import Mathlib.Tactic.NormNum
import Mathlib.Data.Rat.Defs
import Mathlib.Algebra.Order.Field.Rat
import Mathlib.Algebra.Field.Rat
import Mathlib.Algebra.BigOperators.Group.List.Basic
import Mathlib.Data.List.Count

/-!
# C36: bit heaps and compressor trees (mult_array.py)
-/

namespace Verif.HW

/-- Numeric value of a bit. -/
def bit (b : Bool) : ℚ := if b then 1 else 0

/-- A bit heap (`BitHeap`, mult_array.py:340-396): the bits with their weight exponents, in order of insertion.  The
dictionary of lists of the code is the grouping of this list by weight. -/
abbrev Heap := List (ℤ × Bool)

/-- Specification: the number a heap stands for, the sum of its bits times their weights. -/
def hval (h : Heap) : ℚ := (h.map fun p => bit p.2 * 2 ^ p.1).sum

/-- Specification: number of bits of weight `w` (`bit_count`, 376-380). -/
def cnt (w : ℤ) (h : Heap) : ℕ := h.countP fun p => p.1 = w

/-- `insert_bit` (345-350). -/
def Heap.insertBit (h : Heap) (w : ℤ) (b : Bool) : Heap := h ++ [(w, b)]

/-- `max_count` (352-357). -/
def maxCount (h : Heap) : ℕ := (h.map fun p => cnt p.1 h).foldr max 0

/-- `min_index` (363-364), `None` for the empty heap. -/
def minIndex : Heap → Option ℤ
  | [] => none
  | p :: t => some (match minIndex t with | none => p.1 | some m => min p.1 m)

/-- `max_index` (359-361). -/
def maxIndex : Heap → Option ℤ
  | [] => none
  | p :: t => some (match maxIndex t with | none => p.1 | some m => max p.1 m)

/-- `pop_bits` (382-388, with `pop_bit`, 366-374): removes the first `k` bits of weight `w`, or all if there are fewer. -/
def popBits : Heap → ℤ → ℕ → List Bool × Heap
  | [], _, _ => ([], [])
  | (i, b) :: t, w, k =>
    if i = w ∧ 0 < k then
      let r := popBits t w (k - 1)
      (b :: r.1, r.2)
    else
      let r := popBits t w k
      (r.1, (i, b) :: r.2)

/-- `comp_3to2` (124-136): carry and sum. -/
def comp32 (a b c : Bool) : Bool × Bool :=
  let s := a ^^ (b ^^ c)
  let c' := (a && b) || ((a && c) || (c && b))
  (c', s)

/-- `comp_4to2` (147-155): outgoing carry, carry and sum. -/
def comp42 (cin : Option Bool) (a b c d : Bool) : Bool × Bool × Bool :=
  let (cout, s0) := comp32 a b c
  match cin with
  | none => (cout, d && s0, d ^^ s0)
  | some cin =>
    let (c1, s1) := comp32 cin d s0
    (cout, c1, s1)

/-! ## Facts about heaps -/

theorem hval_append (a b : Heap) : hval (a ++ b) = hval a + hval b := by simp [hval]

theorem hval_insert (h : Heap) (w : ℤ) (b : Bool) : hval (h.insertBit w b) = hval h + bit b * 2 ^ w := by
  simp [Heap.insertBit, hval]

theorem len_insert (h : Heap) (w : ℤ) (b : Bool) : (h.insertBit w b).length = h.length + 1 := by
  simp [Heap.insertBit]

/-- Value of bits all of the same weight. -/
def bsum (l : List Bool) : ℚ := (l.map bit).sum

theorem popBits_val (h : Heap) (w : ℤ) (k : ℕ) : hval h = bsum (popBits h w k).1 * 2 ^ w + hval (popBits h w k).2 := by
  induction h generalizing k with
  | nil => simp [popBits, hval, bsum]
  | cons p t ih =>
    obtain ⟨i, b⟩ := p
    rw [popBits]
    split
    · next hc =>
      have := ih (k - 1)
      simp only [bsum, List.map_cons, List.sum_cons, hval] at *
      rw [this, hc.1]
      ring
    · have := ih k
      simp only [bsum, hval, List.map_cons, List.sum_cons] at *
      rw [this]
      ring

theorem popBits_len (h : Heap) (w : ℤ) (k : ℕ) : h.length = (popBits h w k).1.length + (popBits h w k).2.length := by
  induction h generalizing k with
  | nil => simp [popBits]
  | cons p t ih =>
    obtain ⟨i, b⟩ := p
    rw [popBits]
    split
    · have := ih (k - 1)
      simp only [List.length_cons]
      omega
    · have := ih k
      simp only [List.length_cons]
      omega

theorem cnt_cons (w i : ℤ) (b : Bool) (t : Heap) : cnt w ((i, b) :: t) = cnt w t + if i = w then 1 else 0 := by
  simp [cnt, List.countP_cons]

theorem popBits_cnt (h : Heap) (w : ℤ) (k : ℕ) :
    (popBits h w k).1.length = min k (cnt w h) ∧ cnt w (popBits h w k).2 = cnt w h - min k (cnt w h) ∧
    ∀ v, v ≠ w → cnt v (popBits h w k).2 = cnt v h := by
  induction h generalizing k with
  | nil => simp [popBits, cnt]
  | cons p t ih =>
    obtain ⟨i, b⟩ := p
    rw [popBits]
    split
    · next hc =>
      obtain ⟨h1, h2, h3⟩ := ih (k - 1)
      obtain ⟨rfl, hk⟩ := hc
      rw [cnt_cons, if_pos rfl]
      refine ⟨?_, ?_, ?_⟩
      · simp only [List.length_cons]; omega
      · dsimp only; omega
      · intro v hv
        rw [cnt_cons, if_neg (Ne.symm hv)]
        exact h3 v hv
    · next hc =>
      obtain ⟨h1, h2, h3⟩ := ih k
      rw [cnt_cons]
      refine ⟨?_, ?_, ?_⟩
      · dsimp only
        rw [h1]
        split
        · next hi =>
          have : k = 0 := by by_contra hk; exact hc ⟨hi, by omega⟩
          omega
        · omega
      · rw [cnt_cons, h2]
        split
        · next hi =>
          have : k = 0 := by by_contra hk; exact hc ⟨hi, by omega⟩
          omega
        · omega
      · intro v hv
        rw [cnt_cons, cnt_cons, h3 v hv]

theorem minIndex_none {h : Heap} : minIndex h = none → h = [] := by
  cases h <;> simp [minIndex]

theorem minIndex_cnt {h : Heap} {w : ℤ} (hw : minIndex h = some w) : 0 < cnt w h := by
  induction h generalizing w with
  | nil => cases hw
  | cons p t ih =>
    obtain ⟨i, b⟩ := p
    rw [minIndex] at hw
    rw [cnt_cons]
    cases hm : minIndex t with
    | none => simp [hm] at hw; simp [hw]
    | some m =>
      simp only [hm, Option.some.injEq] at hw
      by_cases hi : i = w
      · simp [hi]
      · have : m = w := by omega
        have := ih (by rw [hm, this])
        omega

theorem popBits_lt {h : Heap} {w : ℤ} (hw : minIndex h = some w) (k : ℕ) (hk : 0 < k) :
    (popBits h w k).2.length < h.length := by
  have h1 := popBits_len h w k
  have h2 := (popBits_cnt h w k).1
  have h3 := minIndex_cnt hw
  omega

theorem cnt_le_maxCount (h : Heap) (w : ℤ) : cnt w h ≤ maxCount h := by
  by_cases hw : 0 < cnt w h
  · obtain ⟨p, hp, he⟩ := List.countP_pos_iff.1 hw
    have he : p.1 = w := by simpa using he
    have key : ∀ (l : List ℕ) (x : ℕ), x ∈ l → x ≤ l.foldr max 0 := by
      intro l
      induction l with
      | nil => intro x hx; cases hx
      | cons a t ih =>
        intro x hx
        rw [List.foldr_cons]
        rcases List.mem_cons.1 hx with rfl | hx
        · omega
        · have := ih x hx; omega
    exact key _ _ (List.mem_map.2 ⟨p, hp, by rw [he]⟩)
  · omega

theorem exists_maxCount (h : Heap) (hp : 0 < maxCount h) : ∃ w, cnt w h = maxCount h := by
  have key : ∀ l : List ℕ, 0 < l.foldr max 0 → l.foldr max 0 ∈ l := by
    intro l
    induction l with
    | nil => intro h; simp at h
    | cons a t ih =>
      intro h0
      rw [List.foldr_cons] at *
      by_cases hc : t.foldr max 0 ≤ a
      · rw [Nat.max_eq_left hc]; exact List.mem_cons_self
      · rw [Nat.max_eq_right (by omega)]
        exact List.mem_cons_of_mem _ (ih (by omega))
  obtain ⟨p, _, he⟩ := List.mem_map.1 (key _ hp)
  exact ⟨p.1, he⟩

/-! ## Compressors -/

/-- **C36** (3:2 compressor).  Twice the carry plus the sum is the number of ones among the three inputs. -/
theorem C36_comp32 (a b c : Bool) : 2 * bit (comp32 a b c).1 + bit (comp32 a b c).2 = bit a + bit b + bit c := by
  cases a <;> cases b <;> cases c <;> norm_num [comp32, bit]

/-- **C36** (4:2 compressor), with and without an incoming carry; the outgoing carry does not depend on the incoming. -/
theorem C36_comp42 (cin : Option Bool) (a b c d : Bool) :
    2 * bit (comp42 cin a b c d).1 + 2 * bit (comp42 cin a b c d).2.1 + bit (comp42 cin a b c d).2.2 =
      bit a + bit b + bit c + bit d + bit (cin.getD false) ∧
    (comp42 cin a b c d).1 = (comp42 none a b c d).1 := by
  rcases cin with _ | cin
  · cases a <;> cases b <;> cases c <;> cases d <;> norm_num [comp42, comp32, bit]
  · cases cin <;> cases a <;> cases b <;> cases c <;> cases d <;> norm_num [comp42, comp32, bit]

/-! ## The reductions -/

/-- The shape common to the four reductions: while bits remain, pop up to `n` bits of the lowest weight and let `step`
insert bits in the next heap and in the carry heap. -/
def redLoop (n : ℕ) (hn : 0 < n) (step : Heap → Heap → Heap → List Bool → ℤ → Heap × Heap) (prev next carry : Heap) :
    Heap × Heap :=
  match hm : minIndex prev with
  | none => (next, carry)
  | some w =>
    let p := popBits prev w n
    let r := step p.2 next carry p.1 w
    redLoop n hn step p.2 r.1 r.2
termination_by prev.length
decreasing_by exact popBits_lt hm n hn

/-- Insert every bit of a list at the same weight. -/
def insertAll (h : Heap) (w : ℤ) (l : List Bool) : Heap := l.foldl (fun h b => h.insertBit w b) h

/-- Body of `wallace_reduction` (258-271). -/
def wallaceStep (_prev next carry : Heap) (l : List Bool) (w : ℤ) : Heap × Heap :=
  match l with
  | [a, b, c] =>
    let r := comp32 a b c
    ((next.insertBit (w + 1) r.1).insertBit w r.2, carry)
  | l => (insertAll next w l, carry)

/-- `wallace_reduction` (258-271). -/
def wallace (h : Heap) : Heap := (redLoop 3 (by decide) wallaceStep h [] []).1

/-- Body of `dadda_reduction` (273-288). -/
def daddaStep (newCount : ℕ) (prev next carry : Heap) (l : List Bool) (w : ℤ) : Heap × Heap :=
  if l.length ≤ 2 ∨ cnt w prev + l.length + cnt w next ≤ newCount then (insertAll next w l, carry)
  else
    match l with
    | [a, b, c] =>
      let r := comp32 a b c
      ((next.insertBit (w + 1) r.1).insertBit w r.2, carry)
    | l => (insertAll next w l, carry)

/-- `dadda_reduction` (273-288); `ceil((max_count / 3.0) * 2)` is written on integers. -/
def dadda (h : Heap) : Heap := (redLoop 3 (by decide) (daddaStep ((2 * maxCount h + 2) / 3)) h [] []).1

/-- `carry_bit_heap.pop_bit(w)` when there is a bit of that weight (163-167). -/
def popCarry (carry : Heap) (w : ℤ) : Option Bool × Heap :=
  ((popBits carry w 1).1.head?, (popBits carry w 1).2)

/-- The compression cases shared by the two 4:2 reductions (171-195, 230-251). -/
def comp4Step (next carry : Heap) (cin : Option Bool) (l : List Bool) (w : ℤ) : Heap × Heap :=
  match l, cin with
  | [a], none => (next.insertBit w a, carry)
  | [a], some c => ((next.insertBit w a).insertBit w c, carry)
  | [a, b], none => ((next.insertBit w a).insertBit w b, carry)
  | [a, b], some c =>
    let r := comp32 a b c
    ((next.insertBit (w + 1) r.1).insertBit w r.2, carry)
  | [a, b, c], none =>
    let r := comp32 a b c
    ((next.insertBit (w + 1) r.1).insertBit w r.2, carry)
  | [a, b, c], some ci =>
    let r := comp32 a b c
    (((next.insertBit w ci).insertBit (w + 1) r.1).insertBit w r.2, carry)
  | [a, b, c, d], cin =>
    let r := comp42 cin a b c d
    ((next.insertBit (w + 1) r.2.1).insertBit w r.2.2, carry.insertBit (w + 1) r.1)
  | _, _ => (next, carry)

/-- Body of `wallace_4to2_reduction` (157-199). -/
def wallace4Step (_prev next carry : Heap) (l : List Bool) (w : ℤ) : Heap × Heap :=
  let c := popCarry carry w
  comp4Step next c.2 c.1 l w

/-- Flushing of the carry heap (195-198, 252-255): the order of the bits of one weight is kept. -/
def flush (r : Heap × Heap) : Heap := r.1 ++ r.2

/-- `wallace_4to2_reduction` (157-199). -/
def wallace4 (h : Heap) : Heap := flush (redLoop 4 (by decide) wallace4Step h [] [])

/-- Body of `dadda_4to2_reduction` (201-256). -/
def dadda4Step (newCount : ℕ) (prev next carry : Heap) (l : List Bool) (w : ℤ) : Heap × Heap :=
  let c := popCarry carry w
  if l.length = 1 then comp4Step next c.2 c.1 l w
  else if c.1.toList.length + cnt w prev + l.length + cnt w next ≤ newCount then
    (insertAll (match c.1 with | none => next | some b => next.insertBit w b) w l, c.2)
  else comp4Step next c.2 c.1 l w

/-- `dadda_4to2_reduction` (201-256); `ceil(max_count / 2.0)` is written on integers. -/
def dadda4 (h : Heap) : Heap := flush (redLoop 4 (by decide) (dadda4Step ((maxCount h + 1) / 2)) h [] [])

/-! ## The generic loop -/

/-- `step` keeps the number. -/
def KeepsVal (n : ℕ) (step : Heap → Heap → Heap → List Bool → ℤ → Heap × Heap) : Prop :=
  ∀ prev next carry l w, 0 < l.length → l.length ≤ n →
    hval (step prev next carry l w).1 + hval (step prev next carry l w).2 = hval next + hval carry + bsum l * 2 ^ w

theorem redLoop_val {n : ℕ} {hn : 0 < n} {step} (hs : KeepsVal n step) (prev next carry : Heap) :
    hval (redLoop n hn step prev next carry).1 + hval (redLoop n hn step prev next carry).2 =
      hval prev + hval next + hval carry := by
  induction prev, next, carry using redLoop.induct n hn step with
  | case1 prev next carry hm =>
    rw [redLoop]
    split
    · rw [minIndex_none hm]; simp [hval]
    · next h => rw [hm] at h; cases h
  | case2 prev next carry w hm p r ih =>
    rw [redLoop]
    split
    · next h => rw [hm] at h; cases h
    · next w' h =>
      rw [hm] at h
      cases h
      dsimp only
      rw [ih]
      have h1 := popBits_cnt prev w n
      have h2 := minIndex_cnt hm
      have h3 := hs (popBits prev w n).2 next carry (popBits prev w n).1 w (by omega) (by omega)
      have h4 := popBits_val prev w n
      rw [h4]
      linarith

/-- `step` does not add bits, and removes one when the weight had `T` bits or more. -/
def Shrinks (n T : ℕ) (step : Heap → Heap → Heap → List Bool → ℤ → Heap × Heap) : Prop :=
  ∀ prev next carry l w, 0 < l.length → l.length = min n (l.length + cnt w prev) →
    (step prev next carry l w).1.length + (step prev next carry l w).2.length ≤ next.length + carry.length + l.length ∧
    (T ≤ l.length + cnt w prev →
      (step prev next carry l w).1.length + (step prev next carry l w).2.length < next.length + carry.length + l.length)

theorem redLoop_shrinks {n T : ℕ} {hn : 0 < n} {step} (hs : Shrinks n T step) (prev next carry : Heap) :
    (redLoop n hn step prev next carry).1.length + (redLoop n hn step prev next carry).2.length ≤
      prev.length + next.length + carry.length ∧
    ((∃ w, T ≤ cnt w prev ∧ 0 < cnt w prev) →
      (redLoop n hn step prev next carry).1.length + (redLoop n hn step prev next carry).2.length <
        prev.length + next.length + carry.length) := by
  induction prev, next, carry using redLoop.induct n hn step with
  | case1 prev next carry hm =>
    rw [redLoop]
    split
    · rw [minIndex_none hm]; simp [cnt]
    · next h => rw [hm] at h; cases h
  | case2 prev next carry w hm p r ih =>
    rw [redLoop]
    split
    · next h => rw [hm] at h; cases h
    · next w' h =>
      rw [hm] at h
      cases h
      dsimp only
      obtain ⟨h1, h1', h1''⟩ := popBits_cnt prev w n
      have h2 := minIndex_cnt hm
      obtain ⟨h3, h3'⟩ := hs (popBits prev w n).2 next carry (popBits prev w n).1 w (by omega) (by omega)
      have h4 := popBits_len prev w n
      have e1 : p = popBits prev w n := rfl
      have e2 : r = step (popBits prev w n).2 next carry (popBits prev w n).1 w := rfl
      rw [e1, e2] at ih
      refine ⟨by omega, ?_⟩
      rintro ⟨v, hv, hv0⟩
      by_cases hvw : v = w
      · subst hvw
        have := h3' (by omega)
        omega
      · have := ih.2 ⟨v, by rw [h1'' v hvw]; exact hv, by rw [h1'' v hvw]; exact hv0⟩
        omega

theorem hval_insertAll (h : Heap) (w : ℤ) (l : List Bool) : hval (insertAll h w l) = hval h + bsum l * 2 ^ w := by
  induction l generalizing h with
  | nil => simp [insertAll, bsum]
  | cons b t ih =>
    have : insertAll h w (b :: t) = insertAll (h.insertBit w b) w t := rfl
    rw [this, ih, hval_insert]
    simp only [bsum, List.map_cons, List.sum_cons]
    ring

theorem len_insertAll (h : Heap) (w : ℤ) (l : List Bool) : (insertAll h w l).length = h.length + l.length := by
  induction l generalizing h with
  | nil => simp [insertAll]
  | cons b t ih =>
    have : insertAll h w (b :: t) = insertAll (h.insertBit w b) w t := rfl
    rw [this, ih, len_insert, List.length_cons]
    omega

theorem two_succ (w : ℤ) : (2 : ℚ) ^ (w + 1) = 2 * 2 ^ w := by
  rw [zpow_add₀ (by norm_num), zpow_one, mul_comm]

theorem comp32_ins (next : Heap) (a b c : Bool) (w : ℤ) :
    hval ((next.insertBit (w + 1) (comp32 a b c).1).insertBit w (comp32 a b c).2) =
      hval next + bsum [a, b, c] * 2 ^ w := by
  rw [hval_insert, hval_insert, two_succ]
  have := C36_comp32 a b c
  simp only [bsum, List.map_cons, List.map_nil, List.sum_cons, List.sum_nil]
  linear_combination (2 : ℚ) ^ w * this

theorem wallace_keeps : KeepsVal 3 wallaceStep := by
  intro prev next carry l w _ _
  unfold wallaceStep
  split
  · dsimp only
    rw [comp32_ins]
    ring
  · dsimp only
    rw [hval_insertAll]
    ring

theorem dadda_keeps (k : ℕ) : KeepsVal 3 (daddaStep k) := by
  intro prev next carry l w _ _
  unfold daddaStep
  split
  · dsimp only
    rw [hval_insertAll]
    ring
  · split
    · dsimp only
      rw [comp32_ins]
      ring
    · dsimp only
      rw [hval_insertAll]
      ring

theorem popCarry_val (carry : Heap) (w : ℤ) :
    hval carry = bit ((popCarry carry w).1.getD false) * 2 ^ w + hval (popCarry carry w).2 := by
  have h := popBits_val carry w 1
  have hl := (popBits_cnt carry w 1).1
  unfold popCarry
  dsimp only
  rw [h]
  match hp : (popBits carry w 1).1, hl with
  | [], _ => simp [bsum, bit]
  | [a], _ => simp [bsum]
  | a :: b :: t, hl => simp at hl; omega

theorem popCarry_len (carry : Heap) (w : ℤ) :
    carry.length = (popCarry carry w).1.toList.length + (popCarry carry w).2.length := by
  have h := popBits_len carry w 1
  have hl := (popBits_cnt carry w 1).1
  unfold popCarry
  dsimp only
  match hp : (popBits carry w 1).1, hl with
  | [], _ => rw [hp] at h; simpa using h
  | [a], _ => rw [hp] at h; simpa using h
  | a :: b :: t, hl => simp at hl; omega

theorem comp4_val (next carry : Heap) (cin : Option Bool) (l : List Bool) (w : ℤ) (h1 : 0 < l.length) (h4 : l.length ≤ 4) :
    hval (comp4Step next carry cin l w).1 + hval (comp4Step next carry cin l w).2 =
      hval next + hval carry + bsum l * 2 ^ w + bit (cin.getD false) * 2 ^ w := by
  match l, cin, h1, h4 with
  | [a], none, _, _ =>
    dsimp only [comp4Step]
    rw [hval_insert]; have : bit (Option.getD none false) = 0 := rfl
    rw [this]
    simp only [bsum, List.map, List.sum_cons, List.sum_nil]; ring
  | [a], some c, _, _ =>
    dsimp only [comp4Step]
    rw [hval_insert, hval_insert]; simp only [bsum, List.map, List.sum_cons, List.sum_nil, Option.getD]; ring
  | [a, b], none, _, _ =>
    dsimp only [comp4Step]
    rw [hval_insert, hval_insert]
    have : bit (Option.getD none false) = 0 := rfl
    rw [this]
    simp only [bsum, List.map, List.sum_cons, List.sum_nil]; ring
  | [a, b], some c, _, _ =>
    dsimp only [comp4Step]
    rw [comp32_ins]; simp only [bsum, List.map, List.sum_cons, List.sum_nil, Option.getD]; ring
  | [a, b, c], none, _, _ =>
    dsimp only [comp4Step]
    have : bit (Option.getD none false) = 0 := rfl
    rw [comp32_ins, this]; ring
  | [a, b, c], some ci, _, _ =>
    dsimp only [comp4Step]
    rw [comp32_ins, hval_insert]; simp only [bsum, List.map, List.sum_cons, List.sum_nil, Option.getD]; ring
  | [a, b, c, d], cin, _, _ =>
    dsimp only [comp4Step]
    have := (C36_comp42 cin a b c d).1
    rw [hval_insert, hval_insert, hval_insert, two_succ]
    simp only [bsum, List.map_cons, List.map_nil, List.sum_cons, List.sum_nil]
    linear_combination (2 : ℚ) ^ w * this
  | a :: b :: c :: d :: e :: t, _, _, h => simp at h

theorem comp4_len (next carry : Heap) (cin : Option Bool) (l : List Bool) (w : ℤ) (h1 : 0 < l.length) (h4 : l.length ≤ 4) :
    (comp4Step next carry cin l w).1.length + (comp4Step next carry cin l w).2.length ≤
      next.length + carry.length + l.length + cin.toList.length ∧
    (3 ≤ l.length → (comp4Step next carry cin l w).1.length + (comp4Step next carry cin l w).2.length <
      next.length + carry.length + l.length + cin.toList.length) := by
  match l, cin, h1, h4 with
  | [a], none, _, _ => dsimp only [comp4Step]; simp [len_insert]; try omega
  | [a], some c, _, _ => dsimp only [comp4Step]; simp [len_insert]; omega
  | [a, b], none, _, _ => dsimp only [comp4Step]; simp [len_insert]; omega
  | [a, b], some c, _, _ => dsimp only [comp4Step]; simp [len_insert]; omega
  | [a, b, c], none, _, _ => dsimp only [comp4Step]; simp [len_insert]; omega
  | [a, b, c], some ci, _, _ => dsimp only [comp4Step]; simp [len_insert]; omega
  | [a, b, c, d], none, _, _ => dsimp only [comp4Step]; simp [len_insert]; omega
  | [a, b, c, d], some ci, _, _ => dsimp only [comp4Step]; simp [len_insert]; omega
  | a :: b :: c :: d :: e :: t, _, _, h => simp at h

theorem wallace4_keeps : KeepsVal 4 wallace4Step := by
  intro prev next carry l w h1 h4
  unfold wallace4Step
  dsimp only
  rw [comp4_val next _ _ l w h1 h4]
  have := popCarry_val carry w
  rw [this]
  ring

theorem dadda4_keeps (k : ℕ) : KeepsVal 4 (dadda4Step k) := by
  intro prev next carry l w h1 h4
  unfold dadda4Step
  dsimp only
  have hc := popCarry_val carry w
  split
  · rw [comp4_val next _ _ l w h1 h4, hc]; ring
  · split
    · dsimp only
      rw [hval_insertAll, hc]
      cases (popCarry carry w).1 with
      | none =>
        have : bit (Option.getD none false) = 0 := rfl
        rw [this]; ring
      | some b => dsimp only; rw [hval_insert]; simp only [Option.getD]; ring
    · rw [comp4_val next _ _ l w h1 h4, hc]; ring

theorem wallace_shrinks : Shrinks 3 3 wallaceStep := by
  intro prev next carry l w h1 hl
  unfold wallaceStep
  split
  · dsimp only
    simp only [len_insert, List.length_cons, List.length_nil]
    omega
  · next l' hne =>
    dsimp only
    rw [len_insertAll]
    refine ⟨by omega, fun h => ?_⟩
    exfalso
    match l, hne, hl with
    | [], _, hl => simp at h1
    | [a], _, hl => simp at hl; simp at h; omega
    | [a, b], _, hl => simp at hl; simp at h; omega
    | [a, b, c], hne, _ => exact hne a b c rfl
    | a :: b :: c :: d :: t, _, hl => simp at hl; omega

theorem dadda_shrinks (k m : ℕ) (hm : 3 ≤ m) (hk : k < m) : Shrinks 3 m (daddaStep k) := by
  intro prev next carry l w h1 hl
  unfold daddaStep
  split
  · next hc =>
    dsimp only
    rw [len_insertAll]
    exact ⟨by omega, fun h => by omega⟩
  · next hc =>
    split
    · dsimp only
      simp only [len_insert, List.length_cons, List.length_nil]
      omega
    · next l' hne =>
      exfalso
      match l, hne, hl, hc with
      | [], _, _, hc => simp at hc
      | [a], _, _, hc => simp at hc
      | [a, b], _, _, hc => simp at hc
      | [a, b, c], hne, _, _ => exact hne a b c rfl
      | a :: b :: c :: d :: t, _, hl, _ => simp at hl; omega

theorem wallace4_shrinks : Shrinks 4 3 wallace4Step := by
  intro prev next carry l w h1 hl
  unfold wallace4Step
  dsimp only
  obtain ⟨h2, h3⟩ := comp4_len next (popCarry carry w).2 (popCarry carry w).1 l w h1 (by omega)
  have h4 := popCarry_len carry w
  exact ⟨by omega, fun h => by have := h3 (by omega); omega⟩

theorem dadda4_shrinks (k m : ℕ) (hm : 3 ≤ m) (hk : k < m) : Shrinks 4 m (dadda4Step k) := by
  intro prev next carry l w h1 hl
  unfold dadda4Step
  dsimp only
  obtain ⟨h2, h3⟩ := comp4_len next (popCarry carry w).2 (popCarry carry w).1 l w h1 (by omega)
  have h4 := popCarry_len carry w
  split
  · exact ⟨by omega, fun h => by omega⟩
  · split
    · dsimp only
      rw [len_insertAll]
      refine ⟨?_, fun h => by omega⟩
      cases hp : (popCarry carry w).1 with
      | none => rw [hp] at h4; simp at h4; dsimp only; omega
      | some b => rw [hp] at h4; simp at h4; dsimp only; rw [len_insert]; omega
    · exact ⟨by omega, fun h => by have := h3 (by omega); omega⟩

/-! ## The property -/

/-- `ReductionMethod` (290-297) and `REDUCTION_METHOD_MAP` (299-304). -/
inductive Method | wallace | dadda | wallace4 | dadda4

def Method.run : Method → Heap → Heap
  | .wallace => HW.wallace
  | .dadda => HW.dadda
  | .wallace4 => HW.wallace4
  | .dadda4 => HW.dadda4

theorem carry_nil {n : ℕ} {hn : 0 < n} {step} (hs : ∀ p x c l w, (step p x c l w).2 = c) (prev next carry : Heap) :
    (redLoop n hn step prev next carry).2 = carry := by
  induction prev, next, carry using redLoop.induct n hn step with
  | case1 prev next carry hm =>
    rw [redLoop]
    split
    · rfl
    · next h => rw [hm] at h; cases h
  | case2 prev next carry w hm p r ih =>
    rw [redLoop]
    split
    · rfl
    · next w' h =>
      rw [hm] at h
      cases h
      dsimp only
      rw [ih]
      exact hs _ _ _ _ _

theorem wallace_carry (p x c : Heap) (l : List Bool) (w : ℤ) : (wallaceStep p x c l w).2 = c := by
  unfold wallaceStep; split <;> rfl

theorem dadda_carry (k : ℕ) (p x c : Heap) (l : List Bool) (w : ℤ) : (daddaStep k p x c l w).2 = c := by
  unfold daddaStep
  split
  · rfl
  · split <;> rfl

/-- **C36** (one reduction).  For every heap, whatever its weights, sizes and bits, each of the four reductions keeps
the number the heap stands for. -/
theorem C36_reduction_sum (m : Method) (h : Heap) : hval (m.run h) = hval h := by
  cases m
  · have := redLoop_val (hn := by decide) wallace_keeps h [] []
    rw [carry_nil wallace_carry] at this
    show hval (wallace h) = _
    unfold wallace
    simpa [hval] using this
  · have := redLoop_val (hn := by decide) (dadda_keeps ((2 * maxCount h + 2) / 3)) h [] []
    rw [carry_nil (dadda_carry _)] at this
    show hval (dadda h) = _
    unfold dadda
    simpa [hval] using this
  · have := redLoop_val (hn := by decide) wallace4_keeps h [] []
    show hval (wallace4 h) = _
    unfold wallace4 flush
    rw [hval_append, this]
    simp [hval]
  · have := redLoop_val (hn := by decide) (dadda4_keeps ((maxCount h + 1) / 2)) h [] []
    show hval (dadda4 h) = _
    unfold dadda4 flush
    rw [hval_append, this]
    simp [hval]

/-- **C36** (progress).  Whenever some weight has three bits or more, a reduction removes at least one bit. -/
theorem C36_reduction_shrinks (m : Method) (h : Heap) (h3 : 3 ≤ maxCount h) : (m.run h).length < h.length := by
  obtain ⟨w, hw⟩ := exists_maxCount h (by omega)
  cases m
  · have := (redLoop_shrinks (hn := by decide) wallace_shrinks h [] []).2 ⟨w, by omega, by omega⟩
    show (wallace h).length < _
    unfold wallace
    simp at this
    omega
  · have := (redLoop_shrinks (hn := by decide) (dadda_shrinks ((2 * maxCount h + 2) / 3) (maxCount h) h3 (by omega)) h [] []).2
      ⟨w, by omega, by omega⟩
    show (dadda h).length < _
    unfold dadda
    simp at this
    omega
  · have := (redLoop_shrinks (hn := by decide) wallace4_shrinks h [] []).2 ⟨w, by omega, by omega⟩
    show (wallace4 h).length < _
    unfold wallace4 flush
    simp at this ⊢
    omega
  · have := (redLoop_shrinks (hn := by decide) (dadda4_shrinks ((maxCount h + 1) / 2) (maxCount h) h3 (by omega)) h [] []).2
      ⟨w, by omega, by omega⟩
    show (dadda4 h).length < _
    unfold dadda4 flush
    simp at this ⊢
    omega

/-- `reduce_heap` (794-805) on one of the two heaps: reduce while higher than `limit`; `none` when still running after
`fuel` iterations. -/
def reduceHeap (m : Method) (limit : ℕ) : ℕ → Heap → Option Heap
  | 0, h => if maxCount h > limit then none else some h
  | f + 1, h => if maxCount h > limit then reduceHeap m limit f (m.run h) else some h

/-- **C36.**  For every method, heap and height limit of two or more, the reduction terminates, with at most `limit` bits
per weight and the number unchanged. -/
theorem C36_reduce (m : Method) (limit : ℕ) (hl : 2 ≤ limit) (h : Heap) :
    ∃ h', (∀ fuel, h.length ≤ fuel → reduceHeap m limit fuel h = some h') ∧ hval h' = hval h ∧ ∀ w, cnt w h' ≤ limit := by
  induction hn : h.length using Nat.strong_induction_on generalizing h with
  | _ n ih =>
    subst hn
    by_cases hc : maxCount h > limit
    · have hlt := C36_reduction_shrinks m h (by omega)
      obtain ⟨h', h1, h2, h3⟩ := ih _ hlt (m.run h) rfl
      refine ⟨h', ?_, h2.trans (C36_reduction_sum m h), h3⟩
      intro fuel hf
      obtain ⟨f, rfl⟩ : ∃ f, fuel = f + 1 := ⟨fuel - 1, by omega⟩
      rw [reduceHeap, if_pos hc]
      exact h1 f (by omega)
    · refine ⟨h, ?_, rfl, fun w => by have := cnt_le_maxCount h w; omega⟩
      intro fuel _
      cases fuel <;> rw [reduceHeap, if_neg hc]

/-- A heap with three weights, five bits of weight 1. -/
def sampleHeap : Heap := [(0, true), (1, true), (1, true), (-1, true), (1, false), (1, true), (1, true), (0, true)]
example : maxCount sampleHeap = 5 ∧ (reduceHeap .dadda4 2 8 sampleHeap).isSome := by decide +kernel

/-- With a height limit of one (a value the `stage_height_limit` option accepts) a heap with two bits of the same weight is
never done: the reductions leave it as it is. -/
theorem C36_limit_one_hangs (m : Method) (fuel : ℕ) : reduceHeap m 1 fuel [(0, true), (0, true)] = none := by
  have hrun : m.run [(0, true), (0, true)] = [(0, true), (0, true)] := by cases m <;> decide +kernel
  induction fuel with
  | zero => rfl
  | succ f ih =>
    rw [reduceHeap, hrun, ih]
    rfl

/-! ## Conversion of the reduced heap to operands -/

/-- One pass of `convert_bit_heap_to_fixed_point` (313-335): for each index from the lowest to the highest, pop one bit
or write zero. -/
def popRow (h : Heap) (lo : ℤ) : ℕ → List Bool × Heap
  | 0 => ([], h)
  | n + 1 =>
    let p := popBits h lo 1
    let r := popRow p.2 (lo + 1) n
    (p.1.headD false :: r.1, r.2)

/-- An operand: the exponent of its least significant bit (`-frac_size`) and its bits. -/
structure Operand where
  offset : ℤ
  bits : List Bool

/-- Value of an operand as the unsigned fixed-point number it is cast to (325-331; both calls pass `signed=False`). -/
def Operand.val (o : Operand) : ℚ := (o.bits.foldr (fun b acc => bit b + 2 * acc) 0) * 2 ^ o.offset

theorem popRow_val (h : Heap) (lo : ℤ) (n : ℕ) :
    hval h = (Operand.mk lo (popRow h lo n).1).val + hval (popRow h lo n).2 := by
  induction n generalizing h lo with
  | zero => simp [popRow, Operand.val]
  | succ n ih =>
    rw [popRow]
    dsimp only
    have h1 := popBits_val h lo 1
    have h2 := ih (popBits h lo 1).2 (lo + 1)
    have hl := (popBits_cnt h lo 1).1
    have hb : bsum (popBits h lo 1).1 = bit ((popBits h lo 1).1.headD false) := by
      match hp : (popBits h lo 1).1, hl with
      | [], _ => simp [bsum, bit]
      | [a], _ => simp [bsum]
      | a :: b :: t, hl => simp at hl; omega
    rw [h1, h2, hb]
    simp only [Operand.val, List.foldr_cons]
    rw [two_succ]
    ring

theorem popRow_len (h : Heap) (lo : ℤ) (n : ℕ) : (popRow h lo n).2.length ≤ h.length := by
  induction n generalizing h lo with
  | zero => simp [popRow]
  | succ n ih =>
    rw [popRow]
    dsimp only
    have := ih (popBits h lo 1).2 (lo + 1)
    have := popBits_len h lo 1
    omega

/-- `convert_bit_heap_to_fixed_point` (306-337). -/
def convertHeap (h : Heap) : List Operand :=
  match hm : minIndex h, maxIndex h with
  | some lo, some hi =>
    let r := popRow h lo ((hi - lo).toNat + 1)
    ⟨lo, r.1⟩ :: convertHeap r.2
  | _, _ => []
termination_by h.length
decreasing_by
  have h1 := popBits_lt hm 1 (by decide)
  show (popRow h lo ((hi - lo).toNat + 1)).2.length < _
  rw [popRow]
  have := popRow_len (popBits h lo 1).2 (lo + 1) (hi - lo).toNat
  dsimp only
  omega

/-- **C36** (conversion).  The operands extracted from a heap add up to the number the heap stands for. -/
theorem C36_convert (h : Heap) : ((convertHeap h).map Operand.val).sum = hval h := by
  induction h using convertHeap.induct with
  | case1 h lo hi hm hM r ih =>
    rw [convertHeap]
    split
    · next lo' hi' h1 h2 =>
      rw [hm] at h1; rw [hM] at h2
      cases h1; cases h2
      rw [List.map_cons, List.sum_cons, ih, popRow_val h lo ((hi - lo).toNat + 1)]
    · next h1 => exact (h1 _ _ hm hM).elim
  | case2 h hne =>
    rw [convertHeap]
    split
    · next h1 h2 => exact (hne _ _ h1 h2).elim
    · have : h = [] := by
        cases h with
        | nil => rfl
        | cons p t =>
          exfalso
          exact hne _ _ rfl rfl
      rw [this]
      simp [hval]

theorem popRow_cnt (h : Heap) (lo : ℤ) (n : ℕ) (v : ℤ) :
    cnt v (popRow h lo n).2 = if lo ≤ v ∧ v < lo + n then cnt v h - 1 else cnt v h := by
  induction n generalizing h lo with
  | zero =>
    rw [if_neg (by push_cast; omega)]
    rfl
  | succ n ih =>
    rw [popRow]
    dsimp only
    rw [ih]
    obtain ⟨_, h1, h2⟩ := popBits_cnt h lo 1
    by_cases hv : v = lo
    · subst hv
      rw [if_neg (by omega), if_pos (by push_cast; omega), h1]
      omega
    · rw [h2 v hv]
      by_cases hr : lo + 1 ≤ v ∧ v < lo + 1 + n
      · rw [if_pos hr, if_pos (by push_cast; omega)]
      · rw [if_neg hr, if_neg (by push_cast; omega)]

theorem minIndex_le {h : Heap} {lo : ℤ} (hm : minIndex h = some lo) : ∀ p ∈ h, lo ≤ p.1 := by
  induction h generalizing lo with
  | nil => cases hm
  | cons q t ih =>
    simp only [minIndex, Option.some.injEq] at hm
    intro p hp
    rcases ht : minIndex t with _ | m
    · rw [ht] at hm
      have := minIndex_none ht
      subst this
      rw [List.mem_singleton] at hp
      subst hp
      exact le_of_eq hm.symm
    · rw [ht] at hm
      dsimp only at hm
      rcases List.mem_cons.1 hp with rfl | hp
      · omega
      · have := ih ht p hp
        omega

theorem le_maxIndex {h : Heap} {hi : ℤ} (hm : maxIndex h = some hi) : ∀ p ∈ h, p.1 ≤ hi := by
  induction h generalizing hi with
  | nil => cases hm
  | cons q t ih =>
    simp only [maxIndex, Option.some.injEq] at hm
    intro p hp
    rcases ht : maxIndex t with _ | m
    · rw [ht] at hm
      have : t = [] := by
        cases t with
        | nil => rfl
        | cons a b => simp [maxIndex] at ht
      subst this
      rw [List.mem_singleton] at hp
      subst hp
      exact le_of_eq hm
    · rw [ht] at hm
      dsimp only at hm
      rcases List.mem_cons.1 hp with rfl | hp
      · omega
      · have := ih ht p hp
        omega

/-- **C36** (conversion, size).  A heap with at most `k` bits of each weight gives at most `k` operands: once reduced, two
operands and one addition. -/
theorem C36_convert_rows (h : Heap) (k : ℕ) (hk : ∀ w, cnt w h ≤ k) : (convertHeap h).length ≤ k := by
  induction h using convertHeap.induct generalizing k with
  | case1 h lo hi hm hM r ih =>
    rw [convertHeap]
    split
    · next lo' hi' h1 h2 =>
      rw [hm] at h1; rw [hM] at h2
      cases h1; cases h2
      have hpos := minIndex_cnt hm
      have h0 := hk lo
      obtain ⟨k, rfl⟩ := Nat.exists_eq_add_of_le' (show 1 ≤ k by omega)
      have := ih k (by
        intro w
        show cnt w (popRow h lo ((hi - lo).toNat + 1)).2 ≤ k
        rw [popRow_cnt]
        have hw := hk w
        split
        · omega
        · next hout =>
          have : cnt w h = 0 := by
            rw [cnt, List.countP_eq_zero]
            intro p hp hpw
            have hpw : p.1 = w := by simpa using hpw
            have a1 := minIndex_le hm p hp
            have a2 := le_maxIndex hM p hp
            apply hout
            push_cast
            omega
          omega)
      rw [List.length_cons]
      exact Nat.succ_le_succ this
    · simp
  | case2 h hne =>
    rw [convertHeap]
    split
    · next h1 h2 => exact (hne _ _ h1 h2).elim
    · simp

example : (convertHeap sampleHeap).length = 5 := by decide +kernel

end Verif.HW
