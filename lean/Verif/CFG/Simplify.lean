import Verif.CFG.Model
import Mathlib.Data.Finset.Card
import Mathlib.Tactic.Push

/-!
# C26: basic-block simplification
-/

namespace Verif.CFG

open Verif.BB (Instr Res)

variable {S V : Type}

theorem flat_flat (l : List (Item S V)) : flat (flat l) = flat l := by
  induction l with
  | nil => rfl
  | cons a l ih =>
    unfold flat at ih ⊢
    rw [List.flatMap_cons, List.flatMap_append, ih]
    congr 1
    cases a with
    | op i => rfl
    | sq m =>
      induction m with
      | nil => rfl
      | cons x m ihm => simp only [List.map_cons, List.flatMap_cons] at ihm ⊢; rw [ihm]; rfl

theorem ops_flat (l : List (Item S V)) : (flat l).flatMap Item.ops = l.flatMap Item.ops := by
  induction l with
  | nil => rfl
  | cons a l ih =>
    unfold flat at ih ⊢
    rw [List.flatMap_cons, List.flatMap_append, ih, List.flatMap_cons]
    congr 1
    cases a with
    | op i => rfl
    | sq m =>
      induction m with
      | nil => rfl
      | cons x m ihm =>
        simp only [List.map_cons, List.flatMap_cons] at ihm ⊢
        rw [ihm]; rfl

/-- Branch targets of a block, whatever the nesting. -/
theorem succ_flat (l : List (Item S V)) : successors (flat l) = (l.flatMap Item.ops).flatMap dests := by
  induction l with
  | nil => rfl
  | cons a l ih =>
    unfold flat successors at ih ⊢
    rw [List.flatMap_cons, List.flatMap_append, ih, List.flatMap_cons, List.flatMap_append]
    congr 1
    cases a with
    | op i => simp [Item.ops]
    | sq m =>
      induction m with
      | nil => rfl
      | cons x m ihm =>
        simp only [List.map_cons, List.flatMap_cons, Item.ops] at ihm ⊢
        rw [ihm]

/-- The branch targets of block `b`. -/
def targets (h : Heap S V) (b : ℕ) : List ℕ := ((h b).flatMap Item.ops).flatMap dests

structure Inv (h0 : Heap S V) (root : ℕ) (L : List ℕ) (h : Heap S V) (w done acc : List ℕ) :
    Prop where
  heap : ∀ b, (h b).flatMap Item.ops = (h0 b).flatMap Item.ops
  closed : ∀ x ∈ done, ∀ y ∈ targets h0 x, y ∈ done ∨ y ∈ w
  all : ∀ x, x ∈ acc ↔ x ∈ done ∨ x ∈ w
  reach : ∀ x ∈ acc, Reach (targets h0) root x
  head : acc.head? = some root
  sub : ∀ x ∈ acc, x ∈ L

theorem Inv.step {h0 : Heap S V} {root : ℕ} {L : List ℕ} (hL : ∀ b ∈ L, ∀ d ∈ targets h0 b, d ∈ L)
    {h : Heap S V} {b : ℕ} {w done acc : List ℕ} (I : Inv h0 root L h (b :: w) done acc) :
    let h' := Function.update h b (flat (h b))
    let new := (successors (h' b)).filter (fun d => !(done ++ [b]).contains d)
    Inv h0 root L h' (w ++ new) (done ++ [b]) (acc ++ new) := by
  intro h' new
  have hs : successors (h' b) = targets h0 b := by
    simp only [h', Function.update_self, succ_flat, I.heap]; rfl
  have hnew : ∀ d, d ∈ new ↔ d ∈ targets h0 b ∧ d ∉ done ++ [b] := by
    intro d
    simp only [new, hs, List.mem_filter]
    simp
  have hb : b ∈ acc := (I.all b).2 (Or.inr (by simp))
  refine ⟨?_, ?_, ?_, ?_, ?_, ?_⟩
  · intro x
    by_cases hx : x = b
    · subst hx; simp only [h', Function.update_self, ops_flat]; exact I.heap x
    · simp only [h', Function.update_of_ne hx]; exact I.heap x
  · intro x hx y hy
    by_cases hyd : y ∈ done ++ [b]
    · exact Or.inl hyd
    · right
      rw [List.mem_append] at hx
      rcases hx with hx | hx
      · rcases I.closed x hx y hy with h1 | h1
        · exact absurd (List.mem_append_left _ h1) hyd
        · rcases List.mem_cons.1 h1 with rfl | h1
          · simp at hyd
          · exact List.mem_append_left _ h1
      · simp at hx
        subst hx
        exact List.mem_append_right _ ((hnew y).2 ⟨hy, hyd⟩)
  · intro x
    simp only [List.mem_append, I.all x, List.mem_cons, List.not_mem_nil, or_false]
    tauto
  · intro x hx
    rcases List.mem_append.1 hx with hx | hx
    · exact I.reach x hx
    · exact .step (I.reach b hb) ((hnew x).1 hx).1
  · have := I.head
    cases acc with
    | nil => cases this
    | cons a l => exact this
  · intro x hx
    rcases List.mem_append.1 hx with hx | hx
    · exact I.sub x hx
    · exact hL b (I.sub b hb) x ((hnew x).1 hx).1

theorem Inv.skip {h0 : Heap S V} {root : ℕ} {L : List ℕ}
    {h : Heap S V} {b : ℕ} {w done acc : List ℕ} (I : Inv h0 root L h (b :: w) done acc)
    (he : (h b).isEmpty = true) : Inv h0 root L h w (done ++ [b]) acc := by
  have ht : targets h0 b = [] := by
    unfold targets
    rw [← I.heap b, List.isEmpty_iff.1 he]; rfl
  refine ⟨I.heap, ?_, ?_, I.reach, I.head, I.sub⟩
  · intro x hx y hy
    rw [List.mem_append] at hx
    rcases hx with hx | hx
    · rcases I.closed x hx y hy with h1 | h1
      · exact Or.inl (List.mem_append_left _ h1)
      · rcases List.mem_cons.1 h1 with rfl | h1
        · left; simp
        · exact Or.inr h1
    · simp at hx
      subst hx
      rw [ht] at hy; cases hy
  · intro x
    simp only [List.mem_append, I.all x, List.mem_cons, List.not_mem_nil, or_false]
    tauto

/-- The loop terminates in a state satisfying the invariant. -/
theorem loop_terminates {h0 : Heap S V} {root : ℕ} {L : List ℕ}
    (hL : ∀ b ∈ L, ∀ d ∈ targets h0 b, d ∈ L) :
    ∀ (u k : ℕ) (h : Heap S V) (w done acc : List ℕ), Inv h0 root L h w done acc →
      (L.toFinset \ done.toFinset).card ≤ u →
      ((∀ x ∈ w, x ∈ done) ∧ w.length ≤ k ∨
        ∃ pre x post, w = pre ++ x :: post ∧ x ∉ done ∧ (∀ y ∈ pre, y ∈ done) ∧ pre.length ≤ k) →
      ∃ n h' done' acc', simplLoop n h w done acc = some (h', acc') ∧
        Inv h0 root L h' [] done' acc' := by
  intro u
  induction u with
  | zero =>
    intro k
    induction k with
    | zero =>
      intro h w done acc I hu hw
      rcases hw with ⟨_, hk⟩ | ⟨pre, x, post, rfl, hx, hp, hk⟩
      · have : w = [] := List.length_eq_zero_iff.1 (by omega)
        subst this
        exact ⟨1, h, done, acc, rfl, I⟩
      · exfalso
        have hxL := I.sub x ((I.all x).2 (Or.inr (by simp)))
        have : L.toFinset \ done.toFinset = ∅ := Finset.card_eq_zero.1 (by omega)
        have hmem : x ∈ L.toFinset \ done.toFinset := by simp [hxL, hx]
        rw [this] at hmem; cases hmem
    | succ k ih =>
      intro h w done acc I hu hw
      rcases hw with ⟨hd, hk⟩ | ⟨pre, x, post, rfl, hx, hp, hk⟩
      · cases w with
        | nil => exact ⟨1, h, done, acc, rfl, I⟩
        | cons b w =>
          have hb : b ∈ done := hd b (by simp)
          have hu' : (L.toFinset \ (done ++ [b]).toFinset).card ≤ 0 := by
            refine Nat.le_trans (Finset.card_le_card ?_) hu
            intro z; simp; tauto
          by_cases he : (h b).isEmpty = true
          · obtain ⟨n, h', d', a', h1, h2⟩ := ih h w (done ++ [b]) acc (I.skip he) hu' (Or.inl
              ⟨fun y hy => List.mem_append_left _ (hd y (by simp [hy])), by simp at hk; omega⟩)
            exact ⟨n + 1, h', d', a', by unfold simplLoop; dsimp only; rw [if_pos he]; exact h1, h2⟩
          · have I' := I.step hL
            dsimp only at I'
            have hnew : (successors (Function.update h b (flat (h b)) b)).filter
                (fun d => !(done ++ [b]).contains d) = [] := by
              rw [List.filter_eq_nil_iff]
              intro d hdm
              have : d ∈ targets h0 b := by
                simp only [Function.update_self, succ_flat, I.heap] at hdm; exact hdm
              have : d ∈ done := by
                rcases I.closed b hb d this with h1 | h1
                · exact h1
                · exact hd d h1
              simp [this]
            rw [hnew, List.append_nil, List.append_nil] at I'
            obtain ⟨n, h', d', a', h1, h2⟩ := ih _ w (done ++ [b]) acc I' hu' (Or.inl
              ⟨fun y hy => List.mem_append_left _ (hd y (by simp [hy])), by simp at hk; omega⟩)
            refine ⟨n + 1, h', d', a', ?_, h2⟩
            unfold simplLoop; dsimp only
            rw [if_neg he, hnew, List.append_nil, List.append_nil]; exact h1
      · exfalso
        have hxL := I.sub x ((I.all x).2 (Or.inr (by simp)))
        have : L.toFinset \ done.toFinset = ∅ := Finset.card_eq_zero.1 (by omega)
        have hmem : x ∈ L.toFinset \ done.toFinset := by simp [hxL, hx]
        rw [this] at hmem; cases hmem
  | succ u ihu =>
    -- one step that marks a new block
    have fresh : ∀ (h : Heap S V) (b : ℕ) (w done acc : List ℕ), Inv h0 root L h (b :: w) done acc →
        (L.toFinset \ done.toFinset).card ≤ u + 1 → b ∉ done →
        ∃ n h' done' acc', simplLoop n h (b :: w) done acc = some (h', acc') ∧
          Inv h0 root L h' [] done' acc' := by
      intro h b w done acc I hu hb
      have hbL := I.sub b ((I.all b).2 (Or.inr (by simp)))
      have hu' : (L.toFinset \ (done ++ [b]).toFinset).card ≤ u := by
        have : (L.toFinset \ (done ++ [b]).toFinset) ⊂ (L.toFinset \ done.toFinset) := by
          rw [Finset.ssubset_iff_of_subset]
          · exact ⟨b, by simp [hbL, hb], by simp⟩
          · intro z; simp; tauto
        have := Finset.card_lt_card this
        omega
      have hcase : ∀ w' : List ℕ, ∃ k, ((∀ x ∈ w', x ∈ done ++ [b]) ∧ w'.length ≤ k ∨
          ∃ pre x post, w' = pre ++ x :: post ∧ x ∉ done ++ [b] ∧
            (∀ y ∈ pre, y ∈ done ++ [b]) ∧ pre.length ≤ k) := by
        intro w'
        by_cases hall : ∀ x ∈ w', x ∈ done ++ [b]
        · exact ⟨w'.length, Or.inl ⟨hall, Nat.le_refl _⟩⟩
        · have : ∃ pre x post, w' = pre ++ x :: post ∧ x ∉ done ++ [b] ∧
              (∀ y ∈ pre, y ∈ done ++ [b]) := by
            clear I hu
            induction w' with
            | nil => simp at hall
            | cons a t ih =>
              by_cases ha : a ∈ done ++ [b]
              · have : ¬ ∀ x ∈ t, x ∈ done ++ [b] := by
                  intro hh
                  apply hall
                  intro x hx
                  rcases List.mem_cons.1 hx with rfl | hx
                  · exact ha
                  · exact hh x hx
                obtain ⟨pre, x, post, rfl, h1, h2⟩ := ih this
                refine ⟨a :: pre, x, post, rfl, h1, ?_⟩
                intro y hy
                rcases List.mem_cons.1 hy with rfl | hy
                · exact ha
                · exact h2 y hy
              · exact ⟨[], a, t, rfl, ha, by simp⟩
          obtain ⟨pre, x, post, h1, h2, h3⟩ := this
          exact ⟨pre.length, Or.inr ⟨pre, x, post, h1, h2, h3, Nat.le_refl _⟩⟩
      by_cases he : (h b).isEmpty = true
      · obtain ⟨k, hk⟩ := hcase w
        obtain ⟨n, h', d', a', h1, h2⟩ := ihu k h w (done ++ [b]) acc (I.skip he) hu' hk
        exact ⟨n + 1, h', d', a', by unfold simplLoop; dsimp only; rw [if_pos he]; exact h1, h2⟩
      · have I' := I.step hL
        dsimp only at I'
        obtain ⟨k, hk⟩ := hcase (w ++ (successors (Function.update h b (flat (h b)) b)).filter
                (fun d => !(done ++ [b]).contains d))
        obtain ⟨n, h', d', a', h1, h2⟩ := ihu k _ _ _ _ I' hu' hk
        exact ⟨n + 1, h', d', a', by unfold simplLoop; dsimp only; rw [if_neg he]; exact h1, h2⟩
    intro k
    induction k with
    | zero =>
      intro h w done acc I hu hw
      rcases hw with ⟨_, hk⟩ | ⟨pre, x, post, rfl, hx, hp, hk⟩
      · have : w = [] := List.length_eq_zero_iff.1 (by omega)
        subst this
        exact ⟨1, h, done, acc, rfl, I⟩
      · have : pre = [] := List.length_eq_zero_iff.1 (by omega)
        subst this
        exact fresh h x post done acc I hu hx
    | succ k ih =>
      intro h w done acc I hu hw
      rcases hw with ⟨hd, hk⟩ | ⟨pre, x, post, rfl, hx, hp, hk⟩
      · cases w with
        | nil => exact ⟨1, h, done, acc, rfl, I⟩
        | cons b w =>
          have hb : b ∈ done := hd b (by simp)
          have hu' : (L.toFinset \ (done ++ [b]).toFinset).card ≤ u + 1 := by
            refine Nat.le_trans (Finset.card_le_card ?_) hu
            intro z; simp; tauto
          by_cases he : (h b).isEmpty = true
          · obtain ⟨n, h', d', a', h1, h2⟩ := ih h w (done ++ [b]) acc (I.skip he) hu' (Or.inl
              ⟨fun y hy => List.mem_append_left _ (hd y (by simp [hy])), by simp at hk; omega⟩)
            exact ⟨n + 1, h', d', a', by unfold simplLoop; dsimp only; rw [if_pos he]; exact h1, h2⟩
          · have I' := I.step hL
            dsimp only at I'
            have hnew : (successors (Function.update h b (flat (h b)) b)).filter
                (fun d => !(done ++ [b]).contains d) = [] := by
              rw [List.filter_eq_nil_iff]
              intro d hdm
              have : d ∈ targets h0 b := by
                simp only [Function.update_self, succ_flat, I.heap] at hdm; exact hdm
              have : d ∈ done := by
                rcases I.closed b hb d this with h1 | h1
                · exact h1
                · exact hd d h1
              simp [this]
            rw [hnew, List.append_nil, List.append_nil] at I'
            obtain ⟨n, h', d', a', h1, h2⟩ := ih _ w (done ++ [b]) acc I' hu' (Or.inl
              ⟨fun y hy => List.mem_append_left _ (hd y (by simp [hy])), by simp at hk; omega⟩)
            refine ⟨n + 1, h', d', a', ?_, h2⟩
            unfold simplLoop; dsimp only
            rw [if_neg he, hnew, List.append_nil, List.append_nil]; exact h1
      · cases pre with
        | nil => exact fresh h x post done acc I hu hx
        | cons b pre =>
          have hb : b ∈ done := hp b (by simp)
          have hu' : (L.toFinset \ (done ++ [b]).toFinset).card ≤ u + 1 := by
            refine Nat.le_trans (Finset.card_le_card ?_) hu
            intro z; simp; tauto
          have hx' : x ∉ done ++ [b] := by
            simp; exact ⟨hx, fun h => hx (h ▸ hb)⟩
          have hp' : ∀ y ∈ pre, y ∈ done ++ [b] :=
            fun y hy => List.mem_append_left _ (hp y (by simp [hy]))
          by_cases he : (h b).isEmpty = true
          · obtain ⟨n, h', d', a', h1, h2⟩ := ih h (pre ++ x :: post) (done ++ [b]) acc (I.skip he)
              hu' (Or.inr ⟨pre, x, post, rfl, hx', hp', by simp at hk; omega⟩)
            exact ⟨n + 1, h', d', a', by rw [List.cons_append]; unfold simplLoop; dsimp only; rw [if_pos he]; exact h1, h2⟩
          · have I' := I.step hL
            dsimp only at I'
            obtain ⟨n, h', d', a', h1, h2⟩ := ih _ _ _ _ I' hu'
              (Or.inr ⟨pre, x, post ++ _, List.append_assoc pre (x :: post) _, hx', hp', by simp at hk; omega⟩)
            exact ⟨n + 1, h', d', a', by rw [List.cons_append]; unfold simplLoop; dsimp only; rw [if_neg he]; exact h1, h2⟩

/-- Instructions only branch to the targets of their block. -/
theorem mem_targets {h : Heap S V} {b i : ℕ} {x : Instr S V} {d : ℕ}
    (hx : ((h b).flatMap Item.ops)[i]? = some x) (hd : d ∈ dests x) : d ∈ targets h b :=
  List.mem_flatMap.2 ⟨x, List.mem_of_getElem? hx, hd⟩

/-- Two block lists with the same code, both closed under branching: same runs. -/
theorem runP_congr {h h' : Heap S V} {L L' : List ℕ}
    (hh : ∀ b, (h' b).flatMap Item.ops = (h b).flatMap Item.ops)
    (hL : ∀ b ∈ L, ∀ d ∈ targets h b, d ∈ L) (hL' : ∀ b ∈ L', ∀ d ∈ targets h b, d ∈ L') :
    ∀ (n b i : ℕ) (s : S), b ∈ L → b ∈ L' → runP h' L' n b i s = runP h L n b i s := by
  intro n
  induction n with
  | zero => intro b i s _ _; rfl
  | succ n ih =>
    intro b i s hb hb'
    unfold runP
    rw [if_pos hb, if_pos hb', hh b]
    split
    · rfl
    · exact ih _ _ _ hb hb'
    · exact ih _ _ _ hb hb'
    · rfl
    · rename_i d hx
      have hd := mem_targets hx (d := d) (by simp [dests])
      exact ih _ _ _ (hL b hb d hd) (hL' b hb' d hd)
    · rename_i c t e hx
      have ht := mem_targets hx (d := t) (by simp [dests])
      have he := mem_targets hx (d := e) (by simp [dests])
      split
      · exact ih _ _ _ (hL b hb t ht) (hL' b hb' t ht)
      · exact ih _ _ _ (hL b hb e he) (hL' b hb' e he)

/-- **C26.**  On a block list `L` containing its entry `root` and all branch targets,
simplification terminates; the new list starts with the entry, contains exactly the blocks
reachable from it, and every execution from the entry is the same. -/
theorem C26_simplify (h : Heap S V) (root : ℕ) (L : List ℕ) (hr : root ∈ L)
    (hL : ∀ b ∈ L, ∀ d ∈ targets h b, d ∈ L) :
    ∃ n h' L', simplify n h root = some (h', L') ∧ L'.head? = some root ∧
      (∀ b, b ∈ L' ↔ Reach (targets h) root b) ∧
      ∀ m s, runP h' L' m root 0 s = runP h L m root 0 s := by
  have I : Inv h root L h [root] [] [root] :=
    ⟨fun _ => rfl, by simp, by simp, by intro x hx; simp at hx; subst hx; exact .refl, rfl,
      by intro x hx; simp at hx; subst hx; exact hr⟩
  obtain ⟨n, h', done, L', h1, I'⟩ := loop_terminates hL _ 0 h [root] [] [root] I (Nat.le_refl _)
    (Or.inr ⟨[], root, [], rfl, by simp, by simp, by simp⟩)
  have hrL : root ∈ L' := List.mem_of_mem_head? (by rw [I'.head]; rfl)
  have hcl : ∀ b ∈ L', ∀ d ∈ targets h b, d ∈ L' := by
    intro b hb d hd
    have hb' : b ∈ done := by
      rcases (I'.all b).1 hb with h | h
      · exact h
      · cases h
    rcases I'.closed b hb' d hd with h2 | h2
    · exact (I'.all d).2 (Or.inl h2)
    · cases h2
  refine ⟨n, h', L', h1, I'.head, ?_, ?_⟩
  · intro b
    refine ⟨I'.reach b, ?_⟩
    intro hb
    induction hb with
    | refl => exact hrL
    | step _ hd ih => exact hcl _ ih _ hd
  · intro m s
    exact runP_congr I'.heap hL hcl m root 0 s hr hrL

/-! A diamond with an unreachable block 4 and a sequential block. -/
def diamond : Heap ℕ ℕ
  | 0 => [.op (.act (· + 1)), .op (.cbr (fun s => s > 3) 1 2)]
  | 1 => [.sq [.act (· * 2), .br 3]]
  | 2 => [.op (.br 3)]
  | 3 => [.op (.ret id)]
  | 4 => [.op (.br 0)]
  | _ => []

example : ∀ b ∈ [0, 1, 2, 3, 4], ∀ d ∈ targets diamond b, d ∈ [0, 1, 2, 3, 4] := by decide
example : (simplify 10 diamond 0).map Prod.snd = some [0, 1, 2, 3, 3] := rfl
example : ((simplify 10 diamond 0).bind fun x => runP x.1 x.2 10 0 0 5) =
  some (.res (.ret 12 12)) := rfl

/-- The new list names a block once per path found while it was waiting: the last block of a diamond
appears twice. -/
theorem C26_duplicates : ∃ (h : Heap ℕ ℕ) (root n : ℕ) (h' : Heap ℕ ℕ) (L' : List ℕ),
    simplify n h root = some (h', L') ∧ ¬ L'.Nodup := by
  obtain ⟨p, hp⟩ : ∃ p, simplify 10 diamond 0 = some p := ⟨_, rfl⟩
  refine ⟨diamond, 0, 10, p.1, p.2, hp, ?_⟩
  have : p.2 = [0, 1, 2, 3, 3] := by
    have h : (simplify 10 diamond 0).map Prod.snd = some [0, 1, 2, 3, 3] := rfl
    rw [hp] at h; simpa using h
  rw [this]
  decide

end Verif.CFG
