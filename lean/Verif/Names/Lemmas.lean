import Verif.Names.Model
import Mathlib.Tactic.Ring
import Mathlib.Tactic.Push

namespace Verif.Names

theorem indexed_inj (p : Name) {i j : ℕ} (h : indexed p i = indexed p j) : i = j := by
  have h' := List.append_cancel_left h
  have := Nat.ofDigitChars_toDigits (b := 10) (n := i) (by decide) (by decide)
  rw [h', Nat.ofDigitChars_toDigits (by decide) (by decide)] at this
  exact this.symm

theorem eventually_free (p : Name) (l : List Name) : ∃ K, ∀ j, K ≤ j → indexed p j ∉ l := by
  induction l with
  | nil => exact ⟨0, by simp⟩
  | cons n l ih =>
    obtain ⟨K, hK⟩ := ih
    by_cases h : ∃ i, indexed p i = n
    · obtain ⟨i, hi⟩ := h
      refine ⟨max K (i + 1), fun j hj => ?_⟩
      simp only [List.mem_cons, not_or]
      refine ⟨fun e => ?_, hK j (by omega)⟩
      have := indexed_inj p (e.trans hi.symm)
      omega
    · refine ⟨K, fun j hj => ?_⟩
      simp only [List.mem_cons, not_or]
      exact ⟨fun e => h ⟨j, e⟩, hK j hj⟩

theorem search_some {free : Name → Bool} {p : Name} {fuel i j : ℕ}
    (h : search free p fuel i = some j) : i ≤ j ∧ free (indexed p j) = true := by
  induction fuel generalizing i with
  | zero => simp [search] at h
  | succ f ih =>
    unfold search at h
    split at h
    · rename_i hf
      cases h
      exact ⟨le_rfl, hf⟩
    · obtain ⟨a, b⟩ := ih h
      exact ⟨by omega, b⟩

theorem search_terminates {free : Name → Bool} {p : Name} {K : ℕ}
    (hK : ∀ j, K ≤ j → free (indexed p j) = true) (fuel i : ℕ) (hf : K < fuel + i) (hf0 : 0 < fuel) :
    ∃ j, search free p fuel i = some j ∧ j ≤ max i K := by
  induction fuel generalizing i with
  | zero => omega
  | succ f ih =>
    unfold search
    by_cases hc : free (indexed p i) = true
    · exact ⟨i, by rw [if_pos hc], by omega⟩
    · rw [if_neg hc]
      have : ¬ K ≤ i := fun h => hc (hK i h)
      obtain ⟨j, h1, h2⟩ := ih (i + 1) (by omega) (by omega)
      exact ⟨j, h1, by omega⟩

/-- More fuel never changes the answer of a search. -/
theorem search_mono {free : Name → Bool} {p : Name} {fuel i j : ℕ}
    (h : search free p fuel i = some j) : ∀ fuel', fuel ≤ fuel' → search free p fuel' i = some j := by
  induction fuel generalizing i with
  | zero => simp [search] at h
  | succ f ih =>
    intro fuel' hle
    obtain ⟨g, rfl⟩ : ∃ g, fuel' = g + 1 := ⟨fuel' - 1, by omega⟩
    unfold search at h ⊢
    split at h
    · rename_i hf
      rw [if_pos hf]; exact h
    · rename_i hf
      rw [if_neg hf]
      exact ih h g (by omega)

mutual
theorem isFree_iff (w : World) : ∀ (s : Scope) (n : Name), isFree w s n = true ↔ Fresh w.decl s n
  | .mk i c o ps, n => by
    unfold isFree
    rw [Bool.and_eq_true, isFreeAll_iff w ps n]
    simp only [List.all_eq_true, SymTab.isFree, decide_eq_true_eq]
    constructor
    · rintro ⟨h1, h2⟩ t ht
      cases ht with
      | cst => exact h1 _ (by simp)
      | other h => exact h1 _ (by simp [h])
      | parent h h' => exact h2 _ h _ h'
    · intro h
      refine ⟨fun t ht => ?_, fun p hp t ht => h t (.parent hp ht)⟩
      rcases List.mem_cons.1 ht with rfl | ht
      · exact h _ .cst
      · exact h _ (.other ht)
theorem isFreeAll_iff (w : World) : ∀ (ps : List Scope) (n : Name),
    isFreeAll w ps n = true ↔ ∀ p ∈ ps, Fresh w.decl p n
  | [], n => by simp [isFreeAll]
  | p :: ps, n => by
    unfold isFreeAll
    rw [Bool.and_eq_true, isFree_iff w p n, isFreeAll_iff w ps n]
    simp
end

mutual
/-- All the names declared in the visible tables. -/
def taken (w : World) : Scope → List Name
  | .mk _ c o ps => (c :: o).flatMap w.decl ++ takenAll w ps
def takenAll (w : World) : List Scope → List Name
  | [] => []
  | p :: ps => taken w p ++ takenAll w ps
end

mutual
theorem taken_iff (w : World) : ∀ (s : Scope) (n : Name), n ∉ taken w s ↔ Fresh w.decl s n
  | .mk i c o ps, n => by
    unfold taken
    rw [List.mem_append, not_or, takenAll_iff w ps n]
    simp only [List.mem_flatMap, not_exists, not_and]
    constructor
    · rintro ⟨h1, h2⟩ t ht
      cases ht with
      | cst => exact h1 _ (by simp)
      | other h => exact h1 _ (by simp [h])
      | parent h h' => exact h2 _ h _ h'
    · intro h
      refine ⟨fun t ht => ?_, fun p hp t ht => h t (.parent hp ht)⟩
      rcases List.mem_cons.1 ht with rfl | ht
      · exact h _ .cst
      · exact h _ (.other ht)
theorem takenAll_iff (w : World) : ∀ (ps : List Scope) (n : Name),
    n ∉ takenAll w ps ↔ ∀ p ∈ ps, Fresh w.decl p n
  | [], n => by simp [takenAll]
  | p :: ps, n => by
    unfold takenAll
    rw [List.mem_append, not_or, taken_iff w p n, takenAll_iff w ps n]
    simp
end

theorem eventually_fresh (w : World) (s : Scope) (p : Name) :
    ∃ K, ∀ j, K ≤ j → isFree w s (indexed p j) = true := by
  obtain ⟨K, hK⟩ := eventually_free p (taken w s)
  exact ⟨K, fun j hj => (isFree_iff w s _).2 ((taken_iff w s _).1 (hK j hj))⟩

/-- The `decl` view is what matters for freshness. -/
theorem isFree_congr {w w' : World} (h : w.decl = w'.decl) (s : Scope) (n : Name) :
    isFree w s n = isFree w' s n := by
  rw [Bool.eq_iff_iff, isFree_iff, isFree_iff, h]

theorem getFreeName_spec {fuel : ℕ} {w w' : World} {s : Scope} {p n : Name}
    (h : getFreeName fuel w s p = some (n, w')) : Fresh w.decl s n ∧ w'.decl = w.decl := by
  unfold getFreeName at h
  split at h
  · rename_i hf
    cases h
    exact ⟨(isFree_iff w s _).1 hf, rfl⟩
  · split at h
    · cases h
    · rename_i i hi
      cases h
      exact ⟨(isFree_iff w s _).1 (search_some hi).2, rfl⟩

theorem symGet_spec {fuel : ℕ} {t t' : SymTab} {p n : Name}
    (h : t.getFreeName fuel p = some (n, t')) : t'.table = t.table ∧ t'.uniq = t.uniq := by
  unfold SymTab.getFreeName at h
  dsimp only at h
  split at h
  · cases h; exact ⟨rfl, rfl⟩
  · split at h
    · cases h
    · cases h; exact ⟨rfl, rfl⟩

theorem decl_upd {w : World} {c : ℕ} {t' : SymTab} (h : t'.table = (w.tabs c).table) :
    World.decl { w with tabs := upd w.tabs c t' } = w.decl := by
  funext x
  unfold World.decl upd
  dsimp only
  split
  · rename_i hx; rw [h, hx]
  · rfl

theorem cstLoop_spec {inner fuel : ℕ} {w w' : World} {s : Scope} {p n : Name}
    (h : cstLoop inner s p fuel w = some (n, w')) : Fresh w.decl s n ∧ w'.decl = w.decl := by
  induction fuel generalizing w with
  | zero => simp [cstLoop] at h
  | succ f ih =>
    unfold cstLoop at h
    split at h
    · cases h
    · rename_i n' t' ht
      have hd := decl_upd (w := w) (c := s.cst) (symGet_spec ht).1
      dsimp only at h
      split at h
      · rename_i hfree
        cases h
        exact ⟨by rw [← hd]; exact (isFree_iff _ s _).1 hfree, hd⟩
      · obtain ⟨a, b⟩ := ih h
        exact ⟨by rw [← hd]; exact a, by rw [b, hd]⟩

theorem declare_decl (w : World) (t : ℕ) (n : Name) (x : ℕ) :
    (declare w t n).decl x = if x = t then n :: w.decl x else w.decl x := by
  unfold declare World.decl upd
  dsimp only
  split
  · rename_i h; rw [h]
  · rfl

theorem declare_mono (w : World) (t : ℕ) (n : Name) {x : ℕ} {m : Name} (h : m ∈ w.decl x) :
    m ∈ (declare w t n).decl x := by
  rw [declare_decl]
  split
  · exact List.mem_cons_of_mem _ h
  · exact h

/-- One step: names declared before stay declared; an allocated name was fresh and is declared. -/
theorem step_spec {fuel : ℕ} {w w' : World} {op : Op} {as : List Alloc}
    (h : step fuel w op = some (as, w')) :
    (∀ x m, m ∈ w.decl x → m ∈ w'.decl x) ∧
    (as = [] ∨ ∃ a, as = [a] ∧ Fresh w.decl a.scope a.name ∧ a.name ∈ w'.decl a.table) := by
  cases op with
  | request s p t =>
    simp only [step] at h
    split at h
    · cases h
    · rename_i n w1 hg
      obtain ⟨hf, hd⟩ := getFreeName_spec hg
      cases h
      refine ⟨fun x m hm => declare_mono _ _ _ (by rw [hd]; exact hm), Or.inr ⟨_, rfl, hf, ?_⟩⟩
      rw [declare_decl, if_pos rfl]; exact List.mem_cons_self
  | requestCst s p =>
    simp only [step] at h
    split at h
    · cases h
    · rename_i n w1 hg
      obtain ⟨hf, hd⟩ := cstLoop_spec hg
      cases h
      refine ⟨fun x m hm => declare_mono _ _ _ (by rw [hd]; exact hm), Or.inr ⟨_, rfl, hf, ?_⟩⟩
      rw [declare_decl, if_pos rfl]; exact List.mem_cons_self
  | peek s p =>
    simp only [step] at h
    split at h
    · cases h
    · rename_i n w1 hg
      obtain ⟨hf, hd⟩ := getFreeName_spec hg
      cases h
      exact ⟨fun x m hm => by rw [hd]; exact hm, Or.inl rfl⟩
  | declare t n =>
    simp only [step] at h
    cases h
    exact ⟨fun x m hm => declare_mono _ _ _ hm, Or.inl rfl⟩

theorem run_spec {fuel : ℕ} {w w' : World} {ops : List Op} {as : List Alloc}
    (h : run fuel w ops = some (as, w')) :
    (∀ a ∈ as, Fresh w.decl a.scope a.name) ∧
    as.Pairwise (fun a b => Visible a.table b.scope → a.name ≠ b.name) := by
  induction ops generalizing w as with
  | nil => simp only [run] at h; cases h; simp
  | cons op ops ih =>
    simp only [run] at h
    split at h
    · cases h
    · rename_i a w1 hs
      split at h
      · cases h
      · rename_i as' w2 hr
        cases h
        obtain ⟨hm, ha⟩ := step_spec hs
        obtain ⟨h1, h2⟩ := ih hr
        have h1' : ∀ b ∈ as', Fresh w.decl b.scope b.name := fun b hb t ht hc =>
          h1 b hb t ht (hm t _ hc)
        rcases ha with rfl | ⟨a, rfl, hf, hd⟩
        · exact ⟨h1', h2⟩
        · refine ⟨?_, ?_⟩
          · intro b hb
            rcases List.mem_append.1 hb with hb | hb
            · rw [List.mem_singleton.1 hb]; exact hf
            · exact h1' b hb
          · refine List.pairwise_cons.2 ⟨fun b hb hv e => ?_, h2⟩
            exact h1 b hb _ hv (e ▸ hd)

/-- Termination of the constant loop once the prefix is in the constant table. -/
theorem cstLoop_terminates {inner K : ℕ} {s : Scope} {p : Name} (fuel : ℕ) (w : World)
    (htaken : (w.tabs s.cst).uniq ++ p ∈ (w.tabs s.cst).table)
    (hK : ∀ j, K ≤ j → isFree w s (indexed ((w.tabs s.cst).uniq ++ p) j) = true)
    (hfuel : K < fuel + startIndex ((w.tabs s.cst).index ((w.tabs s.cst).uniq ++ p)))
    (hf0 : 0 < fuel) (hinner : K < inner) :
    ∃ r, cstLoop inner s p fuel w = some r := by
  induction fuel generalizing w with
  | zero => omega
  | succ f ih =>
    unfold cstLoop
    have hK' : ∀ j, K ≤ j →
        (w.tabs s.cst).isFree (indexed ((w.tabs s.cst).uniq ++ p) j) = true := by
      intro j hj
      have := (isFree_iff w s _).1 (hK j hj) s.cst (by cases s; exact .cst)
      unfold SymTab.isFree
      exact decide_eq_true this
    obtain ⟨j, hs, hj⟩ := search_terminates hK' inner
      (startIndex ((w.tabs s.cst).index ((w.tabs s.cst).uniq ++ p))) (by omega) (by omega)
    have hle := (search_some hs).1
    have hget : (w.tabs s.cst).getFreeName inner p =
        some (indexed ((w.tabs s.cst).uniq ++ p) j,
          { w.tabs s.cst with
            index := upd (w.tabs s.cst).index ((w.tabs s.cst).uniq ++ p) (some j) }) := by
      unfold SymTab.getFreeName
      dsimp only
      rw [if_neg (show ¬ (w.tabs s.cst).isFree ((w.tabs s.cst).uniq ++ p) = true by
        simp [SymTab.isFree, htaken]), hs]
    rw [hget]
    dsimp only
    set t' : SymTab := { w.tabs s.cst with
            index := upd (w.tabs s.cst).index ((w.tabs s.cst).uniq ++ p) (some j) } with ht'
    have hd : World.decl { w with tabs := upd w.tabs s.cst t' } = w.decl := decl_upd (by rw [ht'])
    by_cases hfree : isFree { w with tabs := upd w.tabs s.cst t' } s
        (indexed ((w.tabs s.cst).uniq ++ p) j) = true
    · exact ⟨_, by rw [if_pos hfree]⟩
    · rw [if_neg hfree]
      rw [isFree_congr hd] at hfree
      have hjK : j < K := by
        by_contra hc
        exact hfree (hK j (by omega))
      have e : upd w.tabs s.cst t' s.cst = t' := by unfold upd; rw [if_pos rfl]
      apply ih
      · dsimp only; rw [e, ht']; exact htaken
      · dsimp only; rw [e, ht']
        intro k hk
        rw [isFree_congr hd]
        exact hK k hk
      · dsimp only; rw [e, ht']
        dsimp only [upd]
        rw [if_pos rfl]
        simp only [startIndex]
        omega
      · omega

end Verif.Names
