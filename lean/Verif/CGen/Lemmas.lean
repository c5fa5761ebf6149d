import Verif.CGen.Model
import Verif.Names.Lemmas
import Mathlib.Data.List.Nodup
import Mathlib.Data.List.Perm.Subperm

namespace Verif.CGen

open Verif.Names (Name indexed search startIndex)

variable {V : Type}

/-! ## C environments -/

/-- The names declared by the open blocks. -/
def doms (ρ : Env V) : List (List Name) := ρ.map (·.map Prod.fst)

theorem lookup_isSome {β : Type} (f : List (Name × β)) (n : Name) :
    (f.lookup n).isSome = true ↔ n ∈ f.map Prod.fst := by
  induction f with
  | nil => simp
  | cons p f ih =>
    obtain ⟨m, w⟩ := p
    rw [List.lookup_cons]
    by_cases h : n = m
    · subst h; simp
    · have : (n == m) = false := by simpa using h
      rw [this]
      simp [ih, h]

theorem lookup_none {β : Type} (f : List (Name × β)) (n : Name) :
    f.lookup n = none ↔ n ∉ f.map Prod.fst := by
  rw [← lookup_isSome]; cases f.lookup n <;> simp

theorem look_isSome (ρ : Env V) (n : Name) : (look ρ n).isSome = true ↔ ∃ d ∈ doms ρ, n ∈ d := by
  induction ρ with
  | nil => simp [look, doms]
  | cons f ρ ih =>
    unfold look
    cases h : f.lookup n with
    | some v =>
      have : n ∈ f.map Prod.fst := (lookup_isSome f n).1 (by rw [h]; rfl)
      simp only [Option.isSome_some, true_iff]
      exact ⟨_, by simp [doms], this⟩
    | none =>
      have hn := (lookup_none f n).1 h
      simp only [ih, doms, List.map_cons, List.mem_cons]
      constructor
      · rintro ⟨d, hd, h'⟩; exact ⟨d, .inr hd, h'⟩
      · rintro ⟨d, rfl | hd, h'⟩
        · exact absurd h' hn
        · exact ⟨d, hd, h'⟩

theorem lookup_setF (n m : Name) (v : V) (f : Frame V) (h : n ∈ f.map Prod.fst) :
    (setF n v f).lookup m = if m = n then some (some v) else f.lookup m := by
  induction f with
  | nil => simp at h
  | cons p f ih =>
    obtain ⟨a, w⟩ := p
    unfold setF
    by_cases hn : a = n
    · subst hn
      rw [if_pos rfl, List.lookup_cons, List.lookup_cons]
      by_cases hm : m = a
      · simp [hm]
      · have : (m == a) = false := by simpa using hm
        rw [this, if_neg hm]
    · rw [if_neg hn, List.lookup_cons, List.lookup_cons]
      have h' : n ∈ f.map Prod.fst := by
        simp only [List.map_cons, List.mem_cons] at h
        exact h.resolve_left (fun e => hn e.symm)
      rw [ih h']
      by_cases hm : m = a
      · subst hm; simp [hn]
      · have : (m == a) = false := by simpa using hm
        rw [this]

theorem setF_dom (n : Name) (v : V) (f : Frame V) : (setF n v f).map Prod.fst = f.map Prod.fst := by
  induction f with
  | nil => rfl
  | cons p f ih =>
    obtain ⟨a, w⟩ := p
    unfold setF
    split <;> simp [ih]

theorem look_set {ρ ρ' : Env V} {n : Name} {v : V} (h : set ρ n v = some ρ') (m : Name) :
    look ρ' m = if m = n then some (some v) else look ρ m := by
  induction ρ generalizing ρ' with
  | nil => simp [set] at h
  | cons f ρ ih =>
    unfold set at h
    cases hf : f.lookup n with
    | some w =>
      rw [hf] at h
      cases h
      have hd := (lookup_isSome f n).1 (by rw [hf]; rfl)
      unfold look
      rw [lookup_setF n m v f hd]
      by_cases hm : m = n
      · simp [hm]
      · simp [hm]
    | none =>
      rw [hf] at h
      simp only [Option.map_eq_some_iff] at h
      obtain ⟨ρ1, h1, rfl⟩ := h
      unfold look
      rw [ih h1]
      by_cases hm : m = n
      · subst hm; rw [hf]
      · simp [hm]

theorem doms_set {ρ ρ' : Env V} {n : Name} {v : V} (h : set ρ n v = some ρ') : doms ρ' = doms ρ := by
  induction ρ generalizing ρ' with
  | nil => simp [set] at h
  | cons f ρ ih =>
    unfold set at h
    cases hf : f.lookup n with
    | some w =>
      rw [hf] at h
      cases h
      simp [doms, setF_dom]
    | none =>
      rw [hf] at h
      simp only [Option.map_eq_some_iff] at h
      obtain ⟨ρ1, h1, rfl⟩ := h
      have := ih h1
      simp only [doms, List.map_cons] at this ⊢
      rw [this]

theorem set_isSome {ρ : Env V} {n : Name} (h : (look ρ n).isSome = true) (v : V) :
    ∃ ρ', set ρ n v = some ρ' := by
  induction ρ with
  | nil => simp [look] at h
  | cons f ρ ih =>
    unfold set
    unfold look at h
    cases hf : f.lookup n with
    | some w => exact ⟨_, rfl⟩
    | none =>
      rw [hf] at h
      obtain ⟨ρ', h'⟩ := ih h
      exact ⟨_, by rw [h']; rfl⟩

theorem iter_inv {S : Type} {c : S → Option Bool} {b : S → Res S V} (R : S → S → Prop)
    (refl : ∀ s, R s s) (trans : ∀ s t u, R s t → R t u → R s u)
    (hb : ∀ s s', b s = .norm s' → R s s') : ∀ n s s', iter c b n s = .norm s' → R s s' := by
  intro n
  induction n with
  | zero =>
    intro s s' h
    unfold iter at h
    split at h
    · cases h
    · cases h; exact refl _
    · cases h
  | succ n ih =>
    intro s s' h
    unfold iter at h
    split at h
    · cases h
    · cases h; exact refl _
    · split at h
      · rename_i s1 h1
        exact trans _ _ _ (hb _ _ h1) (ih _ _ h)
      · cases h
      · cases h
      · cases h

theorem andThen_norm {S T : Type} {r : Res S V} {f : S → Res T V} {t : T}
    (h : r.andThen f = .norm t) : ∃ s, r = .norm s ∧ f s = .norm t := by
  cases r with
  | norm s => exact ⟨s, rfl, h⟩
  | ret v => cases h
  | err => cases h
  | out => cases h

theorem leave_norm {r : Res (Env V) V} {ρ : Env V} (h : leave r = .norm ρ) :
    ∃ ρ', r = .norm ρ' ∧ ρ = ρ'.tail := by
  cases r with
  | norm s => cases h; exact ⟨s, rfl, rfl⟩
  | ret v => cases h
  | err => cases h
  | out => cases h

theorem doms_block {f : ℕ} {I : Interp V} {s : Code} {d : List Name} {ρ ρ' : Env V}
    (ih : ∀ ρ ρ', execC I f s ρ = .norm ρ' → doms ρ' = doms ρ)
    (h : leave (execC I f s (enter d ρ)) = .norm ρ') : doms ρ' = doms ρ := by
  obtain ⟨ρ1, h1, rfl⟩ := leave_norm h
  have := ih _ _ h1
  simp only [doms, enter, List.map_cons, List.map_map] at this ⊢
  rw [List.map_tail, this]
  rfl

theorem doms_exec (I : Interp V) (fuel : ℕ) (c : Code) : ∀ ρ ρ', execC I fuel c ρ = .norm ρ' →
    doms ρ' = doms ρ := by
  induction c with
  | skip => intro ρ ρ' h; cases h; rfl
  | seq s t ihs iht =>
    intro ρ ρ' h
    obtain ⟨ρ1, h1, h2⟩ := andThen_norm h
    exact (iht _ _ h2).trans (ihs _ _ h1)
  | assign n e =>
    intro ρ ρ' h
    unfold execC at h
    split at h
    · cases h
    · split at h
      · cases h
      · rename_i h'
        cases h
        exact doms_set h'
  | ite e d s d' t ihs iht =>
    intro ρ ρ' h
    unfold execC at h
    split at h
    · cases h
    · split at h
      · exact doms_block ihs h
      · exact doms_block iht h
  | loop e d s ih =>
    intro ρ ρ' h
    unfold execC at h
    exact iter_inv (fun a b => doms b = doms a) (fun _ => rfl) (fun _ _ _ h1 h2 => h2.trans h1)
      (fun _ _ h => doms_block ih h) _ _ _ h
  | ret e =>
    intro ρ ρ' h
    unfold execC at h
    split at h <;> cases h

theorem look_cons {f : Frame V} {ρ : Env V} {n : Name} (h : n ∉ f.map Prod.fst) :
    look (f :: ρ) n = look ρ n := by
  conv_lhs => unfold look
  rw [(lookup_none f n).2 h]

theorem look_enter {d : List Name} {ρ : Env V} {n : Name} (h : n ∉ d) :
    look (enter d ρ) n = look ρ n := by
  unfold enter
  apply look_cons
  rw [List.map_map]
  simpa using h

theorem look_leave {d : List Name} {ρ ρ' : Env V} {n : Name} (hd : doms ρ' = doms (enter d ρ))
    (h : n ∉ d) : look ρ'.tail n = look ρ' n := by
  cases ρ' with
  | nil => simp [doms, enter] at hd
  | cons f fs =>
    simp only [doms, enter, List.map_cons, List.cons.injEq] at hd
    rw [List.tail_cons, look_cons]
    rw [hd.1, List.map_map]
    simpa using h

/-! ## Fresh names -/

theorem search_none {used : List Name} {p : Name} : ∀ (fuel i : ℕ),
    search (fun n => decide (n ∉ used)) p fuel i = none → ∀ j, i ≤ j → j < i + fuel → indexed p j ∈ used := by
  intro fuel
  induction fuel with
  | zero => intro i _ j h1 h2; omega
  | succ f ih =>
    intro i h j h1 h2
    unfold search at h
    split at h
    · cases h
    · rename_i hf
      by_cases hj : j = i
      · subst hj
        simpa using hf
      · exact ih (i + 1) h j (by omega) (by omega)

theorem search_total (used : List Name) (p : Name) (i : ℕ) :
    search (fun n => decide (n ∉ used)) p (used.length + 1) i ≠ none := by
  intro h
  have h' := search_none _ _ h
  have hsub : (List.range' i (used.length + 1)).map (indexed p) ⊆ used := by
    intro x hx
    simp only [List.mem_map, List.mem_range'_1] at hx
    obtain ⟨j, ⟨h1, h2⟩, rfl⟩ := hx
    exact h' j h1 h2
  have hnd : ((List.range' i (used.length + 1)).map (indexed p)).Nodup := by
    apply List.Nodup.map
    · exact fun a b hab => Names.indexed_inj p hab
    · exact List.nodup_range'
  have := (hnd.subperm hsub).length_le
  simp at this

theorem freeName_fresh (used : List Name) (ix : Option ℕ) (p : Name) :
    (freeName used ix p).1 ∉ used := by
  unfold freeName
  split
  · assumption
  · split
    · rename_i i h
      have := (Names.search_some h).2
      simpa using this
    · rename_i h
      exact absurd h (search_total _ _ _)

theorem freeName_form (used : List Name) (ix : Option ℕ) (p : Name) :
    ∃ ds : Name, (∀ d ∈ ds, d.isDigit = true) ∧ (freeName used ix p).1 = p ++ ds := by
  unfold freeName
  split
  · exact ⟨[], by simp, by simp⟩
  · split
    · rename_i i h
      refine ⟨Nat.toDigits 10 i, fun d hd => ?_, rfl⟩
      exact Nat.isDigit_of_mem_toDigits (by decide) (by decide) hd
    · exact ⟨[], by simp, by simp⟩

/-! ## Nodes -/

theorem self_mem_sub (n : Node) : n ∈ sub n := by cases n <;> simp [sub]

theorem sub_trans : ∀ (n m p : Node), m ∈ sub n → p ∈ sub m → p ∈ sub n := by
  intro n
  induction n with
  | cst i k => intro m p hm hp; simp only [sub, List.mem_singleton] at hm; subst hm; exact hp
  | var x => intro m p hm hp; simp only [sub, List.mem_singleton] at hm; subst hm; exact hp
  | un i o a ih =>
    intro m p hm hp
    simp only [sub, List.mem_cons] at hm ⊢
    rcases hm with rfl | hm
    · simpa [sub] using hp
    · exact .inr (ih m p hm hp)
  | bin i o a b iha ihb =>
    intro m p hm hp
    simp only [sub, List.mem_cons, List.mem_append] at hm ⊢
    rcases hm with rfl | hm | hm
    · simpa [sub] using hp
    · exact .inr (.inl (iha m p hm hp))
    · exact .inr (.inr (ihb m p hm hp))

theorem nodes_closed : ∀ (s : Stmt) (n : Node), n ∈ nodes s → ∀ m ∈ sub n, m ∈ nodes s := by
  intro s
  induction s with
  | skip => intro n h; simp [nodes] at h
  | seq s t ihs iht =>
    intro n h m hm
    simp only [nodes, List.mem_append] at h ⊢
    exact h.imp (fun h => ihs n h m hm) (fun h => iht n h m hm)
  | expr e => intro n h m hm; exact sub_trans e n m h hm
  | assign x e =>
    intro n h m hm
    simp only [nodes, List.mem_cons] at h ⊢
    rcases h with rfl | h
    · left; simpa [sub] using hm
    · exact .inr (sub_trans e n m h hm)
  | ite c a b iha ihb =>
    intro n h m hm
    simp only [nodes, List.mem_append] at h ⊢
    rcases h with (h | h) | h
    · exact .inl (.inl (sub_trans c n m h hm))
    · exact .inl (.inr (iha n h m hm))
    · exact .inr (ihb n h m hm)
  | loop init c body ihi ihb =>
    intro n h m hm
    simp only [nodes, List.mem_append] at h ⊢
    rcases h with (h | h) | h
    · exact .inl (.inl (ihi n h m hm))
    · exact .inl (.inr (sub_trans c n m h hm))
    · exact .inr (ihb n h m hm)
  | ret e => intro n h m hm; exact sub_trans e n m h hm

theorem eval_update {I : Interp V} {σ : Store V} {x : Var} {v : Option V} : ∀ (n : Node),
    .var x ∉ sub n → eval I (fun y => if y = x then v else σ y) n = eval I σ n := by
  intro n
  induction n with
  | cst i k => intro _; rfl
  | var y =>
    intro h
    simp only [sub, List.mem_singleton, Node.var.injEq] at h
    simp only [eval]
    rw [if_neg (fun e => h e.symm)]
  | un i o a ih =>
    intro h
    simp only [sub, List.mem_cons, not_or] at h
    simp only [eval, ih h.2]
  | bin i o a b iha ihb =>
    intro h
    simp only [sub, List.mem_cons, List.mem_append, not_or] at h
    simp only [eval, iha h.2.1, ihb h.2.2]

/-- A statement only changes the variables it mentions. -/
theorem exec_frame (I : Interp V) (fuel : ℕ) : ∀ (s : Stmt) (σ σ' : Store V),
    exec I fuel s σ = .norm σ' → ∀ x, .var x ∉ nodes s → σ' x = σ x := by
  intro s
  induction s with
  | skip => intro σ σ' h x _; cases h; rfl
  | seq s t ihs iht =>
    intro σ σ' h x hx
    simp only [nodes, List.mem_append, not_or] at hx
    obtain ⟨σ1, h1, h2⟩ := andThen_norm h
    exact (iht _ _ h2 x hx.2).trans (ihs _ _ h1 x hx.1)
  | expr e =>
    intro σ σ' h x _
    unfold exec at h
    split at h
    · cases h
    · cases h; rfl
  | assign y e =>
    intro σ σ' h x hx
    unfold exec at h
    split at h
    · cases h
    · cases h
      simp only [nodes, List.mem_cons, Node.var.injEq, not_or] at hx
      exact if_neg hx.1
  | ite c a b iha ihb =>
    intro σ σ' h x hx
    simp only [nodes, List.mem_append, not_or] at hx
    unfold exec at h
    split at h
    · cases h
    · split at h
      · exact iha _ _ h x hx.1.2
      · exact ihb _ _ h x hx.2
  | loop init c body ihi ihb =>
    intro σ σ' h x hx
    simp only [nodes, List.mem_append, not_or] at hx
    obtain ⟨σ1, h1, h2⟩ := andThen_norm h
    have := iter_inv (fun a b : Store V => b x = a x) (fun _ => rfl)
      (fun _ _ _ h1 h2 => h2.trans h1) (fun _ _ h => ihb _ _ h x hx.2) _ _ _ h2
    exact this.trans (ihi _ _ h1 x hx.1.1)
  | ret e =>
    intro σ σ' h
    unfold exec at h
    split at h <;> cases h

/-! ## Visible nodes -/

theorem add_all {M : Vis} {c : Bool} {e n : Node} : n ∈ (M.add c e).all ↔ n ∈ M.all ∨ n ∈ sub e := by
  simp [Vis.add]

theorem add_stored {M : Vis} {c : Bool} {e n : Node} :
    n ∈ (M.add c e).stored ↔ n ∈ M.stored ∨ (n ∈ sub e ∧ n ∉ M.all ∧ kept c n = true) := by
  simp [Vis.add]

theorem after_all : ∀ (s : Stmt) (M : Vis) (n : Node),
    (n ∈ M.all → n ∈ (M.after s).all) ∧ (n ∈ (M.after s).all → n ∈ M.all ∨ n ∈ nodes s) := by
  intro s
  induction s with
  | skip => intro M n; exact ⟨id, .inl⟩
  | seq s t ihs iht =>
    intro M n
    simp only [Vis.after, nodes, List.mem_append]
    refine ⟨fun h => (iht _ n).1 ((ihs M n).1 h), fun h => ?_⟩
    rcases (iht _ n).2 h with h | h
    · rcases (ihs M n).2 h with h | h
      · exact .inl h
      · exact .inr (.inl h)
    · exact .inr (.inr h)
  | expr e => intro M n; simp only [Vis.after, nodes, add_all]; exact ⟨.inl, id⟩
  | assign x e =>
    intro M n
    simp only [Vis.after, nodes, add_all, sub, List.mem_singleton, List.mem_cons]
    exact ⟨fun h => .inl (.inl h), fun h => by tauto⟩
  | ite c a b _ _ =>
    intro M n
    simp only [Vis.after, nodes, add_all, List.mem_append]
    exact ⟨.inl, fun h => by tauto⟩
  | loop init c body ihi ihb =>
    intro M n
    simp only [Vis.after, nodes, List.mem_append]
    refine ⟨fun h => (ihb _ n).1 (add_all.2 (.inl ((ihi M n).1 h))), fun h => ?_⟩
    rcases (ihb _ n).2 h with h | h
    · rcases add_all.1 h with h | h
      · rcases (ihi M n).2 h with h | h
        · exact .inl h
        · exact .inr (.inl (.inl h))
      · exact .inr (.inl (.inr h))
    · exact .inr (.inr h)
  | ret e => intro M n; simp only [Vis.after, nodes, add_all]; exact ⟨.inl, id⟩

/-- Whether a visible node is kept does not change. -/
theorem after_stored : ∀ (s : Stmt) (M : Vis) (n : Node), n ∈ M.all →
    (n ∈ (M.after s).stored ↔ n ∈ M.stored) := by
  have key : ∀ (M : Vis) (c : Bool) (e n : Node), n ∈ M.all →
      (n ∈ (M.add c e).stored ↔ n ∈ M.stored) := by
    intro M c e n h
    rw [add_stored]
    constructor
    · rintro (h' | h')
      · exact h'
      · exact absurd h h'.2.1
    · exact .inl
  intro s
  induction s with
  | skip => intro M n _; exact Iff.rfl
  | seq s t ihs iht =>
    intro M n h
    exact (iht _ n ((after_all s M n).1 h)).trans (ihs M n h)
  | expr e => intro M n h; exact key _ _ _ _ h
  | assign x e =>
    intro M n h
    exact (key _ _ _ _ (add_all.2 (.inl h))).trans (key _ _ _ _ h)
  | ite c a b _ _ => intro M n h; exact key _ _ _ _ h
  | loop init c body ihi ihb =>
    intro M n h
    have h1 := (after_all init M n).1 h
    exact (ihb _ n (add_all.2 (.inl h1))).trans ((key _ _ _ _ h1).trans (ihi M n h))
  | ret e => intro M n h; exact key _ _ _ _ h

end Verif.CGen
