import Verif.Tabs.Model
import Mathlib.Data.List.Nodup
import Mathlib.Data.List.Perm.Subperm
import Mathlib.Data.List.Range

namespace Verif.Tabs

/-- What queueing operands does. -/
theorem push_ok : ∀ (l proc work : List ℕ), proc.Nodup →
    ∃ new, (push l proc work).1 = proc ++ new ∧ (push l proc work).2 = work ++ new ∧ (proc ++ new).Nodup ∧
      (∀ x ∈ new, x ∈ l) ∧ ∀ x ∈ l, x ∈ proc ++ new
  | [], proc, work, h => ⟨[], by simp [push], by simp [push], by simpa using h, by simp, by simp⟩
  | j :: l, proc, work, h => by
    by_cases hj : j ∈ proc
    · obtain ⟨new, h1, h2, h3, h4, h5⟩ := push_ok l proc work h
      refine ⟨new, by simp [push, hj, h1], by simp [push, hj, h2], h3, fun x hx => List.mem_cons_of_mem _ (h4 x hx), ?_⟩
      intro x hx
      rcases List.mem_cons.1 hx with rfl | hx
      · exact List.mem_append.2 (Or.inl hj)
      · exact h5 x hx
    · have hnd : (proc ++ [j]).Nodup := by
        rw [List.nodup_append]
        refine ⟨h, by simp, ?_⟩
        intro a ha b hb hab
        simp at hb
        subst hb; subst hab
        exact hj ha
      obtain ⟨new, h1, h2, h3, h4, h5⟩ := push_ok l (proc ++ [j]) (work ++ [j]) hnd
      refine ⟨j :: new, by simp [push, hj, h1], by simp [push, hj, h2], by simpa using h3, ?_, ?_⟩
      · intro x hx
        rcases List.mem_cons.1 hx with rfl | hx
        · simp
        · exact List.mem_cons_of_mem _ (h4 x hx)
      · intro x hx
        rcases List.mem_cons.1 hx with rfl | hx
        · simp
        · have := h5 x hx
          simpa using this

/-- The invariant of the loop. -/
structure Inv (G : Graph) (n root : ℕ) (proc work t : List ℕ) : Prop where
  nodup : proc.Nodup
  bound : ∀ x ∈ proc, x < n
  uses : ∀ x ∈ proc, Uses G root x
  sub : ∀ x ∈ work, x ∈ proc
  start : root ∈ proc
  done : ∀ x ∈ proc, x ∉ work → (G.kind x = .table → x ∈ t) ∧ (G.kind x = .op → ∀ j ∈ G.inputs x, j ∈ proc)
  tabs : ∀ x ∈ t, x ∈ proc ∧ G.kind x = .table
  tnodup : t.Nodup

theorem length_le {l : List ℕ} {n : ℕ} (hn : l.Nodup) (hb : ∀ x ∈ l, x < n) : l.length ≤ n := by
  have h : l.Subperm (List.range n) := List.subperm_of_subset hn fun x hx => List.mem_range.2 (hb x hx)
  simpa using h.length_le

theorem mem_add {t : List ℕ} {e x : ℕ} : x ∈ add t e ↔ x ∈ t ∨ x = e := by
  unfold add
  by_cases h : e ∈ t
  · rw [if_pos h]
    constructor
    · exact Or.inl
    · rintro (h' | rfl)
      · exact h'
      · exact h
  · rw [if_neg h]; simp

theorem nodup_add {t : List ℕ} {e : ℕ} (h : t.Nodup) : (add t e).Nodup := by
  unfold add
  by_cases he : e ∈ t
  · rw [if_pos he]; exact h
  · rw [if_neg he, List.nodup_append]
    refine ⟨h, by simp, ?_⟩
    intro a ha b hb hab
    simp at hb
    subst hb; subst hab
    exact he ha

theorem loop_ok {G : Graph} {n root : ℕ} (hG : Bounded G n) : ∀ (fuel : ℕ) (proc work t : List ℕ),
    Inv G n root proc work t → work.length + n ≤ fuel + proc.length →
      ∃ t', loop G fuel proc work t = some t' ∧ t'.Nodup ∧ ∀ x, x ∈ t' ↔ Uses G root x ∧ G.kind x = .table := by
  intro fuel
  induction fuel with
  | zero =>
    intro proc work t hi hf
    have := length_le hi.nodup hi.bound
    cases work with
    | cons e w => simp at hf; omega
    | nil =>
      refine ⟨t, by unfold loop; rfl, hi.tnodup, ?_⟩
      have hall : ∀ x, Uses G root x → x ∈ proc := by
        intro x hx
        induction hx with
        | root => exact hi.start
        | step _ hk hj ih => exact (hi.done _ ih (by simp)).2 hk _ hj
      exact fun x => ⟨fun hx => ⟨hi.uses x (hi.tabs x hx).1, (hi.tabs x hx).2⟩,
        fun hx => (hi.done x (hall x hx.1) (by simp)).1 hx.2⟩
  | succ fuel ih =>
    intro proc work t hi hf
    cases work with
    | nil =>
      refine ⟨t, by unfold loop; rfl, hi.tnodup, ?_⟩
      have hall : ∀ x, Uses G root x → x ∈ proc := by
        intro x hx
        induction hx with
        | root => exact hi.start
        | step _ hk hj ih => exact (hi.done _ ih (by simp)).2 hk _ hj
      exact fun x => ⟨fun hx => ⟨hi.uses x (hi.tabs x hx).1, (hi.tabs x hx).2⟩,
        fun hx => (hi.done x (hall x hx.1) (by simp)).1 hx.2⟩
    | cons e work =>
      have hep : e ∈ proc := hi.sub e (by simp)
      have hsub : ∀ x ∈ work, x ∈ proc := fun x hx => hi.sub x (List.mem_cons_of_mem _ hx)
      simp only [List.length_cons] at hf
      unfold loop
      cases hk : G.kind e with
      | table =>
        refine ih proc work (add t e) ⟨hi.nodup, hi.bound, hi.uses, hsub, hi.start, ?_, ?_, nodup_add hi.tnodup⟩ (by omega)
        · intro x hx hxw
          by_cases hxe : x = e
          · subst hxe
            exact ⟨fun _ => mem_add.2 (Or.inr rfl), fun h => by rw [hk] at h; cases h⟩
          · obtain ⟨d1, d2⟩ := hi.done x hx (by simp [hxe, hxw])
            exact ⟨fun h => mem_add.2 (Or.inl (d1 h)), d2⟩
        · intro x hx
          rcases mem_add.1 hx with hx | rfl
          · exact hi.tabs x hx
          · exact ⟨hep, hk⟩
      | leaf =>
        refine ih proc work t ⟨hi.nodup, hi.bound, hi.uses, hsub, hi.start, ?_, hi.tabs, hi.tnodup⟩ (by omega)
        intro x hx hxw
        by_cases hxe : x = e
        · subst hxe
          exact ⟨fun h => (by rw [hk] at h; cases h), fun h => (by rw [hk] at h; cases h)⟩
        · exact hi.done x hx (by simp [hxe, hxw])
      | op =>
        obtain ⟨new, h1, h2, h3, h4, h5⟩ := push_ok (G.inputs e) proc work hi.nodup
        simp only []
        rw [h1, h2]
        refine ih (proc ++ new) (work ++ new) t ⟨h3, ?_, ?_, ?_, List.mem_append.2 (Or.inl hi.start), ?_, ?_, hi.tnodup⟩
          (by simp only [List.length_append]; omega)
        · intro x hx
          rcases List.mem_append.1 hx with hx | hx
          · exact hi.bound x hx
          · exact hG e (hi.bound e hep) x (h4 x hx)
        · intro x hx
          rcases List.mem_append.1 hx with hx | hx
          · exact hi.uses x hx
          · exact .step (hi.uses e hep) hk (h4 x hx)
        · intro x hx
          rcases List.mem_append.1 hx with hx | hx
          · exact List.mem_append.2 (Or.inl (hsub x hx))
          · exact List.mem_append.2 (Or.inr hx)
        · intro x hx hxw
          have hxn : x ∉ new := fun h => hxw (List.mem_append.2 (Or.inr h))
          have hxw' : x ∉ work := fun h => hxw (List.mem_append.2 (Or.inl h))
          have hxp : x ∈ proc := (List.mem_append.1 hx).resolve_right hxn
          by_cases hxe : x = e
          · subst hxe
            exact ⟨fun h => (by rw [hk] at h; cases h), fun _ j hj => h5 j hj⟩
          · obtain ⟨d1, d2⟩ := hi.done x hxp (by simp [hxe, hxw'])
            exact ⟨d1, fun h j hj => List.mem_append.2 (Or.inl (d2 h j hj))⟩
        · intro x hx
          exact ⟨List.mem_append.2 (Or.inl (hi.tabs x hx).1), (hi.tabs x hx).2⟩

/-- **C142**: on every graph of `n` nodes, with any sharing and even with cycles, the search
ends after at most `n` turns and gives exactly the tables which the root uses, each once. -/
theorem C142_tables (G : Graph) (n root fuel : ℕ) (hG : Bounded G n) (hr : root < n) (hf : n ≤ fuel) :
    ∃ t, extract G fuel root = some t ∧ t.Nodup ∧ ∀ x, x ∈ t ↔ Uses G root x ∧ G.kind x = .table := by
  refine loop_ok hG fuel [root] [root] [] ⟨by simp, ?_, ?_, by simp, by simp, ?_, by simp, by simp⟩ (by simp; omega)
  · intro x hx; simp at hx; subst hx; exact hr
  · intro x hx; simp at hx; subst hx; exact .root
  · intro x hx hxw; exact absurd hx hxw

/-- **C142**: the search reaches the tables of each operand: those of an operation are those
of its operands together. -/
theorem C142_operands (G : Graph) (n root fuel : ℕ) (hG : Bounded G n) (hr : root < n) (hf : n ≤ fuel)
    (hop : G.kind root = .op) (t : List ℕ) (ht : extract G fuel root = some t) (x : ℕ) :
    x ∈ t ↔ ∃ j ∈ G.inputs root, ∃ t', extract G fuel j = some t' ∧ x ∈ t' := by
  obtain ⟨t0, h0, _, h2⟩ := C142_tables G n root fuel hG hr hf
  rw [ht] at h0
  cases h0
  rw [h2]
  constructor
  · rintro ⟨hu, hk⟩
    have key : ∀ y, Uses G root y → y = root ∨ ∃ j ∈ G.inputs root, Uses G j y := by
      intro y hy
      induction hy with
      | root => exact Or.inl rfl
      | step _ hk hj ih =>
        rcases ih with rfl | ⟨j, hj', hu⟩
        · exact Or.inr ⟨_, hj, .root⟩
        · exact Or.inr ⟨j, hj', .step hu hk hj⟩
    rcases key x hu with rfl | ⟨j, hj, hu'⟩
    · rw [hop] at hk; cases hk
    · obtain ⟨t', h', _, h2'⟩ := C142_tables G n j fuel hG (hG root hr j hj) hf
      exact ⟨j, hj, t', h', (h2' x).2 ⟨hu', hk⟩⟩
  · rintro ⟨j, hj, t', h', hx⟩
    obtain ⟨t1, h1, _, h2'⟩ := C142_tables G n j fuel hG (hG root hr j hj) hf
    rw [h'] at h1
    cases h1
    obtain ⟨hu, hk⟩ := (h2' x).1 hx
    refine ⟨?_, hk⟩
    clear hk hx
    induction hu with
    | root => exact .step .root hop hj
    | step _ hk hj ih => exact .step ih hk hj

/-- Node 0 uses 1 and 2, 1 uses the tables 3 and 4, 2 uses 3 and, in a cycle, 0; 5 is a
table which is not used. -/
def ex : Graph where
  kind i := if i = 3 ∨ i = 4 ∨ i = 5 then .table else if i = 6 then .leaf else .op
  inputs i := if i = 0 then [1, 2, 6] else if i = 1 then [3, 4] else if i = 2 then [3, 0] else []

example : extract ex 7 0 = some [3, 4] := by decide
example : Bounded ex 7 := by
  intro i _ j hj
  unfold ex at hj
  simp only [] at hj
  split at hj
  · simp at hj; omega
  · split at hj
    · simp at hj; omega
    · split at hj
      · simp at hj; omega
      · cases hj

end Verif.Tabs
