import Verif.CFG.Model
import Mathlib.Algebra.Order.BigOperators.Group.Finset
import Mathlib.Data.Finset.Card
import Mathlib.Tactic.Push

/-!
# C27: dominators
-/

namespace Verif.CFG

theorem mem_preds {E : List (ℕ × ℕ)} {p b : ℕ} : p ∈ preds E b ↔ (p, b) ∈ E := by
  unfold preds
  rw [List.mem_map]
  constructor
  · rintro ⟨⟨a, c⟩, h, rfl⟩
    rw [List.mem_filter] at h
    have : c = b := by simpa using h.2
    subst this
    exact h.1
  · intro h
    exact ⟨(p, b), List.mem_filter.2 ⟨h, by simp⟩, rfl⟩

theorem mem_predKeys : ∀ (E : List (ℕ × ℕ)) (ks : List ℕ) (b : ℕ),
    b ∈ predKeys E ks ↔ b ∈ ks ∨ ∃ p, (p, b) ∈ E
  | [], ks, b => by simp [predKeys]
  | (a, d) :: E, ks, b => by
    rw [predKeys, mem_predKeys E]
    constructor
    · rintro (h | ⟨p, h⟩)
      · split at h
        · exact Or.inl h
        · rcases List.mem_append.1 h with h | h
          · exact Or.inl h
          · simp at h; subst h; exact Or.inr ⟨a, by simp⟩
      · exact Or.inr ⟨p, List.mem_cons_of_mem _ h⟩
    · rintro (h | ⟨p, h⟩)
      · left
        split
        · exact h
        · exact List.mem_append_left _ h
      · rcases List.mem_cons.1 h with h | h
        · cases h
          left
          split
          · assumption
          · simp
        · exact Or.inr ⟨p, h⟩

theorem mem_interAll : ∀ {l : List (Finset ℕ)}, l ≠ [] → ∀ {x : ℕ},
    x ∈ interAll l ↔ ∀ s ∈ l, x ∈ s
  | [], h, _ => absurd rfl h
  | [s], _, x => by simp [interAll]
  | s :: t :: l, _, x => by
    rw [interAll, Finset.mem_inter, mem_interAll (by simp)]
    simp

/-- The new set of dominators of `b`. -/
def domF (E : List (ℕ × ℕ)) (m : ℕ → Finset ℕ) (b : ℕ) : Finset ℕ :=
  {b} ∪ interAll ((preds E b).map m)

theorem mem_domF {E : List (ℕ × ℕ)} {m : ℕ → Finset ℕ} {b d : ℕ} (hb : ∃ p, (p, b) ∈ E) :
    d ∈ domF E m b ↔ d = b ∨ ∀ p, (p, b) ∈ E → d ∈ m p := by
  have hne : (preds E b).map m ≠ [] := by
    obtain ⟨p, hp⟩ := hb
    intro h
    rw [List.map_eq_nil_iff] at h
    have := mem_preds.2 hp
    rw [h] at this
    cases this
  unfold domF
  rw [Finset.mem_union, Finset.mem_singleton, mem_interAll hne]
  constructor
  · rintro (h | h)
    · exact Or.inl h
    · exact Or.inr fun p hp => h _ (List.mem_map_of_mem (mem_preds.2 hp))
  · rintro (h | h)
    · exact Or.inl h
    · right
      intro s hs
      obtain ⟨p, hp, rfl⟩ := List.mem_map.1 hs
      exact h p (mem_preds.1 hp)

structure DInv (E : List (ℕ × ℕ)) (L : List ℕ) (root : ℕ) (m : ℕ → Finset ℕ) : Prop where
  rootEq : m root = {root}
  sub : ∀ b, m b ⊆ L.toFinset
  sound : ∀ b ∈ L, ∀ d ∈ L, Dominates E root d b → d ∈ m b
  mono : ∀ b, (∃ p, (p, b) ∈ E) → domF E m b ⊆ m b

def mu (L : List ℕ) (m : ℕ → Finset ℕ) : ℕ := L.toFinset.sum fun b => (m b).card

theorem DInv.step {E : List (ℕ × ℕ)} {L : List ℕ} {root : ℕ} {m : ℕ → Finset ℕ}
    (hE : ∀ a b, (a, b) ∈ E → a ∈ L ∧ b ∈ L) (hr : ∀ a, (a, root) ∉ E)
    (I : DInv E L root m) {b : ℕ} (hb : ∃ p, (p, b) ∈ E) :
    DInv E L root (Function.update m b (domF E m b)) ∧
      (∀ x, Function.update m b (domF E m b) x ⊆ m x) := by
  have hle : ∀ x, Function.update m b (domF E m b) x ⊆ m x := by
    intro x
    by_cases hx : x = b
    · subst hx; rw [Function.update_self]; exact I.mono x hb
    · rw [Function.update_of_ne hx]
  have hne : root ≠ b := by
    rintro rfl
    obtain ⟨p, hp⟩ := hb
    exact hr p hp
  refine ⟨⟨?_, ?_, ?_, ?_⟩, hle⟩
  · rw [Function.update_of_ne hne]; exact I.rootEq
  · intro x; exact (hle x).trans (I.sub x)
  · intro x hx d hd hdom
    by_cases hxb : x = b
    · subst hxb
      rw [Function.update_self, mem_domF hb]
      by_cases hdx : d = x
      · exact Or.inl hdx
      · right
        intro p hp
        refine I.sound p (hE _ _ hp).1 d hd ?_
        intro q hq
        have := hdom (x :: q) (.snoc hq hp)
        rcases List.mem_cons.1 this with h | h
        · exact absurd h hdx
        · exact h
    · rw [Function.update_of_ne hxb]; exact I.sound x hx d hd hdom
  · intro x hx d hd
    have hd' : d ∈ domF E m x := by
      rw [mem_domF hx] at hd ⊢
      rcases hd with h | h
      · exact Or.inl h
      · exact Or.inr fun p hp => hle p (h p hp)
    by_cases hxb : x = b
    · subst hxb; rw [Function.update_self]; exact hd'
    · rw [Function.update_of_ne hxb]; exact I.mono x hx hd'

theorem sweep {E : List (ℕ × ℕ)} {L : List ℕ} {root : ℕ}
    (hE : ∀ a b, (a, b) ∈ E → a ∈ L ∧ b ∈ L) (hr : ∀ a, (a, root) ∉ E) :
    ∀ (ks : List ℕ) (m : ℕ → Finset ℕ) (ch : Bool), (∀ b ∈ ks, ∃ p, (p, b) ∈ E) →
      DInv E L root m → ∃ m' ch', domSweep E L ks m ch = some (m', ch') ∧ DInv E L root m' ∧
        mu L m' ≤ mu L m ∧ (ch' = false → ch = false ∧ m' = m ∧ ∀ b ∈ ks, domF E m b = m b) ∧
        (ch' = true → ch = true ∨ mu L m' < mu L m)
  | [], m, ch, _, I => ⟨m, ch, rfl, I, Nat.le_refl _, fun h => ⟨h, rfl, by simp⟩, fun h => Or.inl h⟩
  | b :: ks, m, ch, hks, I => by
    have hb := hks b (by simp)
    have hbL : b ∈ L := by obtain ⟨p, hp⟩ := hb; exact (hE _ _ hp).2
    obtain ⟨I1, hle⟩ := I.step hE hr hb
    obtain ⟨m', ch', h1, h2, h3, h4, h5⟩ := sweep hE hr ks (Function.update m b (domF E m b))
      (ch || domF E m b ≠ m b) (fun x hx => hks x (by simp [hx])) I1
    have hmu : mu L (Function.update m b (domF E m b)) ≤ mu L m :=
      Finset.sum_le_sum fun x _ => Finset.card_le_card (hle x)
    refine ⟨m', ch', ?_, h2, Nat.le_trans h3 hmu, ?_, ?_⟩
    · rw [domSweep, if_pos hbL]
      exact h1
    · intro hc
      obtain ⟨ho, hm, hk⟩ := h4 hc
      have hch : ch = false ∧ domF E m b = m b := by
        simpa using ho
      have hup : Function.update m b (domF E m b) = m := by
        rw [hch.2]; exact Function.update_eq_self b m
      rw [hup] at hm hk
      refine ⟨hch.1, hm, ?_⟩
      intro x hx
      rcases List.mem_cons.1 hx with rfl | hx
      · exact hch.2
      · exact hk x hx
    · intro hc
      rcases h5 hc with h | h
      · rw [Bool.or_eq_true] at h
        rcases h with h | h
        · exact Or.inl h
        · right
          have hne : domF E m b ≠ m b := by simpa using h
          have hss : domF E m b ⊂ m b := (Finset.ssubset_iff_subset_ne).2 ⟨I.mono b hb, hne⟩
          refine Nat.lt_of_le_of_lt h3 ?_
          refine Finset.sum_lt_sum (fun x _ => Finset.card_le_card (hle x))
            ⟨b, by simpa using hbL, ?_⟩
          rw [Function.update_self]
          exact Finset.card_lt_card hss
      · exact Or.inr (Nat.lt_of_lt_of_le h hmu)

theorem domLoop_spec {E : List (ℕ × ℕ)} {L : List ℕ} {root : ℕ}
    (hE : ∀ a b, (a, b) ∈ E → a ∈ L ∧ b ∈ L) (hr : ∀ a, (a, root) ∉ E) :
    ∀ (k : ℕ) (m : ℕ → Finset ℕ), mu L m ≤ k → DInv E L root m →
      ∃ n m', domLoop E L n m = some m' ∧ DInv E L root m' ∧
        ∀ b, (∃ p, (p, b) ∈ E) → domF E m' b = m' b := by
  intro k
  induction k with
  | zero =>
    intro m hk I
    obtain ⟨m', ch', h1, h2, h3, h4, h5⟩ := sweep hE hr (predKeys E []) m false
      (fun b hb => by simpa using (mem_predKeys E [] b).1 hb) I
    cases ch' with
    | true => exact absurd (h5 rfl) (by simp; omega)
    | false =>
      obtain ⟨-, rfl, hk'⟩ := h4 rfl
      refine ⟨1, m', by simp [domLoop, h1], I, ?_⟩
      intro b hb
      exact hk' b ((mem_predKeys E [] b).2 (Or.inr hb))
  | succ k ih =>
    intro m hk I
    obtain ⟨m', ch', h1, h2, h3, h4, h5⟩ := sweep hE hr (predKeys E []) m false
      (fun b hb => by simpa using (mem_predKeys E [] b).1 hb) I
    cases ch' with
    | true =>
      have hlt : mu L m' < mu L m := by
        rcases h5 rfl with h | h
        · cases h
        · exact h
      obtain ⟨n, m'', g1, g2, g3⟩ := ih m' (by omega) h2
      exact ⟨n + 1, m'', by simp [domLoop, h1, g1], g2, g3⟩
    | false =>
      obtain ⟨-, rfl, hk'⟩ := h4 rfl
      refine ⟨1, m', by simp [domLoop, h1], I, ?_⟩
      intro b hb
      exact hk' b ((mem_predKeys E [] b).2 (Or.inr hb))

/-- **C27.**  On a graph whose edges stay in the block list `L` and whose entry has no incoming edge
(both hold of generated code, `C27_generated`), the dominator computation terminates, whatever the
order in which the edges are listed, and `d` is listed as a dominator of `b` exactly when every
path from the entry to `b` goes through `d`.

Partial: with an edge back to the entry the result is wrong (`C27_entry_loop_wrong`). -/
theorem C27_dominators_partial (E : List (ℕ × ℕ)) (L : List ℕ) (root : ℕ) (hroot : root ∈ L)
    (hE : ∀ a b, (a, b) ∈ E → a ∈ L ∧ b ∈ L) (hr : ∀ a, (a, root) ∉ E) :
    ∃ n m, dominatorMap n E L root = some m ∧
      ∀ b ∈ L, ∀ d, d ∈ m b ↔ d ∈ L ∧ Dominates E root d b := by
  have I : DInv E L root
      (Function.update (fun b => if b ∈ L then L.toFinset else ∅) root {root}) := by
    have hsub : ∀ b, Function.update (fun b => if b ∈ L then L.toFinset else ∅) root {root} b ⊆
        L.toFinset := by
      intro b
      by_cases hb : b = root
      · subst hb; rw [Function.update_self]; simpa using hroot
      · rw [Function.update_of_ne hb]
        split
        · exact Finset.Subset.refl _
        · exact Finset.empty_subset _
    refine ⟨by rw [Function.update_self], hsub, ?_, ?_⟩
    · intro b hb d hd hdom
      by_cases hbr : b = root
      · subst hbr
        rw [Function.update_self]
        simpa using hdom [b] .nil
      · rw [Function.update_of_ne hbr, if_pos hb]
        simpa using hd
    · intro b hb d hd
      have hbr : b ≠ root := by
        rintro rfl
        obtain ⟨p, hp⟩ := hb
        exact hr p hp
      have hbL : b ∈ L := by obtain ⟨p, hp⟩ := hb; exact (hE _ _ hp).2
      rw [Function.update_of_ne hbr, if_pos hbL]
      rw [mem_domF hb] at hd
      rcases hd with rfl | h
      · simpa using hbL
      · obtain ⟨p, hp⟩ := hb
        exact hsub p (h p hp)
  obtain ⟨n, m, h1, I', hfix⟩ := domLoop_spec hE hr _ _ (Nat.le_refl _) I
  refine ⟨n, m, h1, ?_⟩
  intro b hb d
  constructor
  · intro hd
    refine ⟨by simpa using I'.sub b hd, ?_⟩
    intro p hp
    clear hb
    induction hp with
    | nil => rw [I'.rootEq] at hd; simpa using hd
    | @snoc a c q hq hac ih =>
      rw [← hfix c ⟨a, hac⟩, mem_domF ⟨a, hac⟩] at hd
      rcases hd with rfl | h
      · simp
      · exact List.mem_cons_of_mem _ (ih (h a hac))
  · rintro ⟨hd, hdom⟩
    exact I'.sound b hb d hd hdom

/-! A diamond inside a loop: 0 → 1 → {2, 3} → 4 → {1, 5}. -/
def loopE : List (ℕ × ℕ) := [(4, 1), (2, 4), (1, 3), (0, 1), (1, 2), (4, 5), (3, 4)]

example : (∀ e ∈ loopE, e.1 ∈ List.range 6 ∧ e.2 ∈ List.range 6) ∧
    (∀ e ∈ loopE, e.2 ≠ 0) := by decide
example : ((dominatorMap 5 loopE (List.range 6) 0).map fun m => (List.range 6).map m) =
    some [{0}, {0, 1}, {0, 1, 2}, {0, 1, 3}, {0, 1, 4}, {0, 1, 4, 5}] := by decide +kernel

/-- With an edge back to the entry the computation is wrong: block 1 is listed as a dominator of the
entry 0, although the path made of the entry alone avoids it. -/
theorem C27_entry_loop_wrong : ∃ (E : List (ℕ × ℕ)) (L : List ℕ) (n : ℕ) (m : ℕ → Finset ℕ),
    dominatorMap n E L 0 = some m ∧ 1 ∈ m 0 ∧ ¬ Dominates E 0 1 0 := by
  obtain ⟨m, hm⟩ : ∃ m, dominatorMap 5 [(0, 1), (1, 0)] [0, 1] 0 = some m := by
    have : (dominatorMap 5 [(0, 1), (1, 0)] [0, 1] 0).isSome = true := by decide +kernel
    exact Option.isSome_iff_exists.1 this
  refine ⟨[(0, 1), (1, 0)], [0, 1], 5, m, hm, ?_, ?_⟩
  · have : ((dominatorMap 5 [(0, 1), (1, 0)] [0, 1] 0).map fun m => m 0) = some {0, 1} := by
      decide +kernel
    rw [hm] at this
    simp only [Option.map_some, Option.some.injEq] at this
    rw [this]; decide
  · intro h
    have := h [0] .nil
    simp at this

end Verif.CFG
