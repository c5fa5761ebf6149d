import Verif.FnGroup.Model

namespace Verif.FnGroup

variable {σ : Type}

/-- Going through a list which the body does not change. -/
theorem loop_fixed (body : Fct → World σ → World σ) (l : ℕ) (ws : List Fct) :
    ∀ (fuel i : ℕ) (w : World σ), ws.length < fuel + i → i ≤ ws.length → w.lists l = ws →
      (∀ f w, w.lists l = ws → (body f w).lists l = ws) →
      loop body l fuel i w = some ((ws.drop i).foldl (fun w f => body f w) w)
  | 0, i, w, h, hi, _, _ => absurd h (by omega)
  | fuel + 1, i, w, h, hi, hw, hb => by
    unfold loop
    rw [hw]
    by_cases hlt : i < ws.length
    · rw [List.getElem?_eq_getElem hlt]
      simp only []
      rw [loop_fixed body l ws fuel (i + 1) _ (by omega) hlt (hb _ _ hw) hb,
        List.drop_eq_getElem_cons hlt]
      rfl
    · rw [List.getElem?_eq_none (by omega), List.drop_eq_nil_of_le (by omega)]
      rfl

theorem foldl_guarded (r : Fct → World σ → World σ) (ext : Bool) : ∀ (l : List Fct) (w : World σ),
    l.foldl (fun w f => guarded r ext f w) w =
      (l.filter fun f => ext || !f.external).foldl (fun w f => r f w) w
  | [], _ => rfl
  | f :: l, w => by
    simp only [List.foldl_cons, List.filter_cons]
    cases h : (ext || !f.external) with
    | true => simp only [guarded, h, if_true, List.foldl_cons]; exact foldl_guarded r ext l _
    | false => simp only [guarded, h]; exact foldl_guarded r ext l _

theorem quiet_foldl {r : Fct → World σ → World σ} (hr : Quiet r) : ∀ (l : List Fct) (w : World σ),
    (l.foldl (fun w f => r f w) w).lists = w.lists
  | [], _ => rfl
  | f :: l, w => by rw [List.foldl_cons, quiet_foldl hr l, hr]

theorem quiet_guarded {r : Fct → World σ → World σ} (hr : Quiet r) (ext : Bool) :
    Quiet (guarded r ext) := by
  intro f w
  unfold guarded
  split
  · exact hr f w
  · rfl

/-- **C137**: a routine which changes no group is applied to each function of the group,
external functions excepted unless they are asked for, the sub-functions first. -/
theorem C137_applied (r : Fct → World σ → World σ) (hr : Quiet r) (ext : Bool) (fuel : ℕ)
    (g : Group) (w : World σ) (h1 : (w.lists g.sub).length < fuel)
    (h2 : (w.lists g.core).length < fuel) :
    applyAll r ext fuel g w = some ((w.todo g ext).foldl (fun w f => r f w) w) := by
  have hq := quiet_guarded hr ext
  unfold applyAll applySub applyCore
  rw [loop_fixed _ g.sub (w.lists g.sub) fuel 0 w (by omega) (by omega) rfl
    (fun f w' h => by rw [hq f w']; exact h)]
  simp only [List.drop_zero]
  rw [foldl_guarded]
  rw [loop_fixed _ g.core (w.lists g.core) fuel 0 _ (by omega) (by omega)
    (by rw [quiet_foldl hr]) (fun f w' h => by rw [hq f w']; exact h)]
  rw [List.drop_zero, foldl_guarded, World.todo, List.filter_append, List.foldl_append]

/-- Going through a list which grows: at the end all of it has been seen. -/
theorem loop_growing (r : Fct → World (List Fct) → World (List Fct)) (hr : Growing r)
    (ext : Bool) (l : ℕ) : ∀ (fuel i : ℕ) (w w' : World (List Fct)), i ≤ (w.lists l).length →
      loop (guarded r ext) l fuel i w = some w' →
      w'.out = w.out ++ ((w'.lists l).drop i).filter (fun f => ext || !f.external) ∧
        ∀ k, w.lists k <+: w'.lists k
  | 0, _, _, _, _, h => by cases h
  | fuel + 1, i, w, w', hi, h => by
    unfold loop at h
    by_cases hlt : i < (w.lists l).length
    · rw [List.getElem?_eq_getElem hlt] at h
      simp only [] at h
      have hg : ∀ k, w.lists k <+: (guarded r ext (w.lists l)[i] w).lists k := by
        intro k
        unfold guarded
        split
        · exact (hr _ _).2 k
        · exact List.prefix_refl _
      have hlen := (hg l).length_le
      obtain ⟨h1, h2⟩ := loop_growing r hr ext l fuel (i + 1) _ w' (by omega) h
      refine ⟨?_, fun k => (hg k).trans (h2 k)⟩
      have hp := (hg l).trans (h2 l)
      have hlt' : i < (w'.lists l).length := Nat.lt_of_lt_of_le hlt hp.length_le
      have hget : (w'.lists l)[i] = (w.lists l)[i] := (hp.getElem hlt).symm
      rw [h1, List.drop_eq_getElem_cons hlt', List.filter_cons, hget]
      unfold guarded
      cases hc : (ext || !(w.lists l)[i].external) with
      | true => simp [(hr _ _).1]
      | false => simp
    · rw [List.getElem?_eq_none (by omega)] at h
      simp only [Option.some.injEq] at h
      subst h
      exact ⟨by rw [List.drop_eq_nil_of_le (by omega)]; simp, fun k => List.prefix_refl _⟩

/-- **C137**: a routine may add functions to the list being gone through; when the loop
ends, the routine has been applied once to each function the list has in the end, in
order, and no function was lost. -/
theorem C137_growing (r : Fct → World (List Fct) → World (List Fct)) (hr : Growing r)
    (ext : Bool) (fuel : ℕ) (g : Group) (w w' : World (List Fct)) :
    (applySub r ext fuel g w = some w' →
      w'.out = w.out ++ ((w'.lists g.sub).filter fun f => ext || !f.external) ∧
        ∀ k, w.lists k <+: w'.lists k) ∧
    (applyCore r ext fuel g w = some w' →
      w'.out = w.out ++ ((w'.lists g.core).filter fun f => ext || !f.external) ∧
        ∀ k, w.lists k <+: w'.lists k) := by
  refine ⟨fun h => ?_, fun h => ?_⟩
  · simpa using loop_growing r hr ext g.sub fuel 0 w w' (by omega) h
  · simpa using loop_growing r hr ext g.core fuel 0 w w' (by omega) h

def f0 : Fct := ⟨0, 0, false⟩
def f1 : Fct := ⟨1, 1, false⟩

/-- A pass which makes a new sub-function out of the function 0. -/
def outlining (f : Fct) (w : World (List Fct)) : World (List Fct) :=
  let w' : World (List Fct) := { w with out := w.out ++ [f] }
  if f = f0 then add 1 f1 w' else w'

theorem outlining_growing : Growing outlining := by
  intro f w
  unfold outlining
  by_cases h : f = f0
  · simp only [h, if_true]
    refine ⟨rfl, fun l => ?_⟩
    unfold add
    simp only []
    split
    · exact List.prefix_append _ _
    · exact List.prefix_refl _
  · simp only [h, if_false]
    exact ⟨trivial, fun l => List.prefix_refl _⟩

/-- A sub-function added while the core functions are gone through is in the group in the
end, and the routine was not applied to it. -/
theorem C137_added_wrong : ∃ (r : Fct → World (List Fct) → World (List Fct)) (g : Group)
    (w w' : World (List Fct)) (fuel : ℕ), Growing r ∧ g.core ≠ g.sub ∧
    applyAll r false fuel g w = some w' ∧ w.out = [] ∧
    f1 ∈ w'.todo g false ∧ f1 ∉ w'.out :=
  ⟨outlining, ⟨0, 1⟩, ⟨fun k => if k = 0 then [f0] else [], []⟩, _, 3, outlining_growing,
    by decide, rfl, rfl, by decide, by decide⟩

/-! ### Merging -/

theorem foldl_add (l : ℕ) : ∀ (fs : List Fct) (w : World σ),
    fs.foldl (fun w f => add l f w) w =
      { w with lists := fun k => if k = l then w.lists k ++ fs else w.lists k }
  | [], w => by simp
  | f :: fs, w => by
    rw [List.foldl_cons, foldl_add l fs]
    simp only [add]
    congr 1
    funext k
    split <;> simp

theorem loop_add (a l fuel : ℕ) (w : World σ) (h : a ≠ l) (hf : (w.lists l).length < fuel) :
    loop (add a) l fuel 0 w =
      some { w with lists := fun k => if k = a then w.lists k ++ w.lists l else w.lists k } := by
  rw [loop_fixed (add a) l (w.lists l) fuel 0 w (by omega) (by omega) rfl
    (fun f w' h' => by simp [add, Ne.symm h, h'])]
  rw [List.drop_zero, foldl_add]

/-- **C137**: merging a group into another adds its functions after those already there,
all as sub-functions or each with its kind, and leaves the merged group, and any other,
as it was. -/
theorem C137_merge_partial (demote : Bool) (fuel : ℕ) (g h : Group) (w : World σ)
    (hg : g.core ≠ g.sub) (h1 : h.sub ≠ g.sub) (h2 : h.sub ≠ g.core) (h3 : h.core ≠ g.sub)
    (h4 : h.core ≠ g.core) (hs : (w.lists h.sub).length < fuel)
    (hc : (w.lists h.core).length < fuel) :
    ∃ w', merge demote fuel g h w = some w' ∧ w'.out = w.out ∧
      w'.lists g.sub = w.lists g.sub ++ w.lists h.sub ++ (if demote then w.lists h.core else []) ∧
      w'.lists g.core = w.lists g.core ++ (if demote then [] else w.lists h.core) ∧
      ∀ k, k ≠ g.sub → k ≠ g.core → w'.lists k = w.lists k := by
  unfold merge
  rw [loop_add g.sub h.sub fuel w (Ne.symm h1) hs]
  simp only []
  have hcl : (if h.core = g.sub then w.lists h.core ++ w.lists h.sub else w.lists h.core) =
      w.lists h.core := if_neg h3
  have hne : (if demote then g.sub else g.core) ≠ h.core := by
    cases demote
    · exact Ne.symm h4
    · exact Ne.symm h3
  rw [loop_add _ h.core fuel _ hne (by simp only []; rw [hcl]; exact hc)]
  refine ⟨_, rfl, rfl, ?_, ?_, ?_⟩
  · cases demote <;> simp [hcl, Ne.symm hg]
  · cases demote <;> simp [hcl, hg]
  · intro k hk hk'
    cases demote <;> simp [hk, hk']

theorem loop_add_self (l : ℕ) : ∀ (fuel i : ℕ) (w : World σ), i < (w.lists l).length →
    loop (add l) l fuel i w = none
  | 0, _, _, _ => rfl
  | fuel + 1, i, w, h => by
    unfold loop
    rw [List.getElem?_eq_getElem h]
    simp only []
    exact loop_add_self l fuel (i + 1) _ (by simp [add]; omega)

/-- Merging a group which holds the same list of sub-functions does not end. -/
theorem C137_merge_same_wrong (demote : Bool) (g h : Group) (w : World σ) (hs : h.sub = g.sub)
    (hne : w.lists g.sub ≠ []) : ∀ fuel, merge demote fuel g h w = none := by
  intro fuel
  unfold merge
  rw [hs, loop_add_self g.sub fuel 0 w (List.length_pos_iff.2 hne)]

/-- **C137**: a function found by its name is a function of the group with that name; if
there is one, one is found, among the core functions if possible. -/
theorem C137_by_name (g : Group) (w : World σ) (n : ℕ) :
    (∀ f, byName g w n = some f → (f ∈ w.lists g.core ∨ f ∈ w.lists g.sub) ∧ f.name = n) ∧
    ((∃ f, (f ∈ w.lists g.core ∨ f ∈ w.lists g.sub) ∧ f.name = n) → ∃ f, byName g w n = some f) ∧
    ((∃ f ∈ w.lists g.core, f.name = n) → ∃ f ∈ w.lists g.core, byName g w n = some f) := by
  refine ⟨fun f h => ?_, ?_, ?_⟩
  · have h1 := List.mem_of_find?_eq_some h
    have h2 := List.find?_some h
    exact ⟨List.mem_append.1 h1, by simpa using h2⟩
  · rintro ⟨f, hm, hn⟩
    have : (byName g w n).isSome := by
      unfold byName
      rw [List.find?_isSome]
      exact ⟨f, List.mem_append.2 hm, by simpa using hn⟩
    exact Option.isSome_iff_exists.1 this
  · rintro ⟨f, hm, hn⟩
    have : ((w.lists g.core).find? fun f => f.name = n).isSome := by
      rw [List.find?_isSome]
      exact ⟨f, hm, by simpa using hn⟩
    obtain ⟨f', h'⟩ := Option.isSome_iff_exists.1 this
    refine ⟨f', List.mem_of_find?_eq_some h', ?_⟩
    unfold byName
    rw [List.find?_append, h']
    rfl

/-- **C137**: after a merge which demotes, every name known before names the same
function, and every name known in the merged group names one of its functions. -/
theorem C137_merge_names (fuel : ℕ) (g h : Group) (w : World σ)
    (hg : g.core ≠ g.sub) (h1 : h.sub ≠ g.sub) (h2 : h.sub ≠ g.core) (h3 : h.core ≠ g.sub)
    (h4 : h.core ≠ g.core) (hs : (w.lists h.sub).length < fuel)
    (hc : (w.lists h.core).length < fuel) :
    ∃ w', merge true fuel g h w = some w' ∧
      (∀ n f, byName g w n = some f → byName g w' n = some f) ∧
      (∀ n, byName g w n = none → byName h w n ≠ none → ∃ f, byName g w' n = some f ∧
        f.name = n ∧ (f ∈ w.lists h.core ∨ f ∈ w.lists h.sub)) := by
  obtain ⟨w', hw, _, e1, e2, _⟩ := C137_merge_partial true fuel g h w hg h1 h2 h3 h4 hs hc
  simp only [if_true, List.append_nil] at e1 e2
  have key : ∀ n, byName g w' n = (byName g w n).or
      ((w.lists h.sub ++ w.lists h.core).find? fun f => f.name = n) := by
    intro n
    unfold byName
    rw [e1, e2, ← List.find?_append]
    simp
  refine ⟨w', hw, fun n f hf => by rw [key, hf]; rfl, fun n hn hf => ?_⟩
  obtain ⟨f, hf⟩ := Option.ne_none_iff_exists'.1 hf
  have : ((w.lists h.sub ++ w.lists h.core).find? fun f => f.name = n).isSome := by
    rw [List.find?_isSome]
    obtain ⟨hm, hnm⟩ := (C137_by_name h w n).1 f hf
    exact ⟨f, List.mem_append.2 hm.symm, by simpa using hnm⟩
  obtain ⟨f', h'⟩ := Option.isSome_iff_exists.1 this
  exact ⟨f', by rw [key, hn, h']; rfl, by simpa using List.find?_some h',
    (List.mem_append.1 (List.mem_of_find?_eq_some h')).symm⟩

/-- A core function of the merged group which shares its name with a sub-function of that
group is no longer the one found by that name. -/
theorem C137_merge_names_wrong : ∃ (g h : Group) (w w' : World Unit) (f f' : Fct),
    merge true 3 g h w = some w' ∧ byName g w 0 = none ∧ byName h w 0 = some f ∧
    byName g w' 0 = some f' ∧ f ≠ f' :=
  ⟨⟨0, 1⟩, ⟨2, 3⟩, ⟨fun k => if k = 2 then [⟨5, 0, false⟩] else if k = 3 then [⟨6, 0, false⟩] else [], ()⟩,
    _, ⟨5, 0, false⟩, ⟨6, 0, false⟩, rfl, by decide, by decide, rfl, by decide⟩

/-! ### The generated file -/

/-- **C137**: the generated file declares the functions of the group which are not
external, then defines the same functions in the same order: each is declared before any
definition, and defined as many times as it is in the group. -/
theorem C137_file (fuel : ℕ) (g : Group) (w : World (List Line))
    (h1 : (w.lists g.sub).length < fuel) (h2 : (w.lists g.core).length < fuel) :
    ∃ w', generateC fuel g w = some w' ∧ w'.lists = w.lists ∧
      w'.out = w.out ++ (w.todo g false).map .decl ++ (w.todo g false).map .definition := by
  have hq1 : Quiet (fun f (w : World (List Line)) => { w with out := w.out ++ [.decl f] }) :=
    fun _ _ => rfl
  have hq2 : Quiet (fun f (w : World (List Line)) => { w with out := w.out ++ [.definition f] }) :=
    fun _ _ => rfl
  have hout : ∀ (c : Fct → Line) (l : List Fct) (w : World (List Line)),
      (l.foldl (fun w f => { w with out := w.out ++ [c f] }) w).out = w.out ++ l.map c := by
    intro c l
    induction l with
    | nil => simp
    | cons f l ih => intro w; rw [List.foldl_cons, ih]; simp
  unfold generateC
  rw [C137_applied _ hq1 false fuel g w h1 h2]
  simp only []
  have hl := quiet_foldl hq1 (w.todo g false) w
  rw [C137_applied _ hq2 false fuel g _ (by rw [hl]; exact h1) (by rw [hl]; exact h2)]
  have ht : World.todo ((w.todo g false).foldl
      (fun w f => { w with out := w.out ++ [Line.decl f] }) w) g false = w.todo g false := by
    unfold World.todo at hl ⊢; rw [hl]
  refine ⟨_, rfl, ?_, ?_⟩
  · rw [quiet_foldl hq2, hl]
  · rw [ht, hout, hout]

/-! ### The main function -/

theorem runChecks_zero (fails : Fct → Bool) : ∀ l : List Fct,
    (runChecks fails l = 0 ↔ ∀ f ∈ l, fails f = false) ∧ runChecks fails l ≤ 1
  | [] => by simp [runChecks]
  | f :: l => by
    have := runChecks_zero fails l
    unfold runChecks
    cases h : fails f with
    | true => simp [h]
    | false => simpa [h] using this

theorem addCall_foldl (check : Bool) : ∀ (l : List Fct) (w : World Main),
    l.foldl (fun w f => addCall check f w) w =
      { w with out := ⟨w.out.pre ++ l, w.out.checks ++ (if check then l else [])⟩ }
  | [], w => by simp
  | f :: l, w => by
    rw [List.foldl_cons, addCall_foldl check l]
    cases check <;> simp [addCall]

/-- The functions called for the groups `hs`. -/
def calls (w : World Main) (hs : List (Group × Bool)) : List Fct :=
  hs.flatMap fun p => w.todo p.1 false

/-- The functions checked for the groups `hs`. -/
def checked (w : World Main) (hs : List (Group × Bool)) : List Fct :=
  hs.flatMap fun p => if p.2 then w.todo p.1 false else []

theorem instrument_ok (fuel : ℕ) (g : Group) (hg : g.core ≠ g.sub) :
    ∀ (hs : List (Group × Bool)) (w : World Main),
      (∀ p ∈ hs, p.1.sub ≠ g.sub ∧ p.1.sub ≠ g.core ∧ p.1.core ≠ g.sub ∧ p.1.core ≠ g.core ∧
        (w.lists p.1.sub).length < fuel ∧ (w.lists p.1.core).length < fuel) →
      ∃ w', instrument fuel g hs w = some w' ∧
        w'.out.pre = w.out.pre ++ calls w hs ∧ w'.out.checks = w.out.checks ++ checked w hs ∧
        w'.lists g.core = w.lists g.core ∧
        (∀ f, f ∈ w'.lists g.sub ↔
          f ∈ w.lists g.sub ∨ ∃ p ∈ hs, f ∈ w.lists p.1.sub ∨ f ∈ w.lists p.1.core)
  | [], w, _ => ⟨w, rfl, by simp [calls], by simp [checked], rfl, by simp⟩
  | (h, check) :: hs, w, hh => by
    obtain ⟨a1, a2, a3, a4, a5, a6⟩ := hh (h, check) (by simp)
    simp only [] at a1 a2 a3 a4 a5 a6
    have hq : Quiet (addCall check) := fun _ _ => rfl
    unfold instrument
    rw [C137_applied _ hq false fuel h w a5 a6, addCall_foldl]
    simp only []
    obtain ⟨w1, e1, o1, s1, c1, r1⟩ := C137_merge_partial true fuel g h
      { w with out := (⟨w.out.pre ++ w.todo h false,
        w.out.checks ++ (if check then w.todo h false else [])⟩ : Main) } hg a1 a2 a3 a4 a5 a6
    rw [e1]
    simp only []
    have hkeep : ∀ p ∈ hs, w1.lists p.1.sub = w.lists p.1.sub ∧
        w1.lists p.1.core = w.lists p.1.core := by
      intro p hp
      obtain ⟨b1, b2, b3, b4, _, _⟩ := hh p (List.mem_cons_of_mem _ hp)
      exact ⟨r1 _ b1 b2, r1 _ b3 b4⟩
    have htodo : ∀ p ∈ hs, w1.todo p.1 false = w.todo p.1 false := by
      intro p hp
      unfold World.todo
      rw [(hkeep p hp).1, (hkeep p hp).2]
    obtain ⟨w2, e2, p2, k2, c2, m2⟩ := instrument_ok fuel g hg hs w1 (by
      intro p hp
      obtain ⟨b1, b2, b3, b4, b5, b6⟩ := hh p (List.mem_cons_of_mem _ hp)
      exact ⟨b1, b2, b3, b4, by rw [(hkeep p hp).1]; exact b5, by rw [(hkeep p hp).2]; exact b6⟩)
    have hcalls : calls w1 hs = calls w hs := by
      unfold calls
      rw [List.flatMap_congr htodo]
    have hchecked : checked w1 hs = checked w hs := by
      unfold checked
      exact List.flatMap_congr (fun p hp => by rw [htodo p hp])
    refine ⟨w2, e2, ?_, ?_, ?_, ?_⟩
    · rw [p2, o1, hcalls]; simp [calls]
    · rw [k2, o1, hchecked]; simp [checked]
    · rw [c2, c1]; simp
    · intro f
      rw [m2, s1]
      constructor
      · rintro (h | ⟨p, hp, h⟩)
        · simp only [if_true, List.mem_append] at h
          rcases h with (h | h) | h
          · exact Or.inl h
          · exact Or.inr ⟨(_, check), by simp, Or.inl h⟩
          · exact Or.inr ⟨(_, check), by simp, Or.inr h⟩
        · rw [(hkeep p hp).1, (hkeep p hp).2] at h
          exact Or.inr ⟨p, List.mem_cons_of_mem _ hp, h⟩
      · rintro (h | ⟨p, hp, h⟩)
        · exact Or.inl (by simp [h])
        · rcases List.mem_cons.1 hp with rfl | hp
          · refine Or.inl ?_
            simp only [if_true, List.mem_append]
            rcases h with h | h
            · exact Or.inl (Or.inr h)
            · exact Or.inr h
          · exact Or.inr ⟨p, hp, by rw [(hkeep p hp).1, (hkeep p hp).2]; exact h⟩

/-- **C137**: the main function calls every test and benchmark wrapper once, in order,
whatever they return; it returns 0 if no check fails and 1 otherwise.  All the wrappers
are in the group which is generated. -/
theorem C137_main (fuel : ℕ) (g : Group) (hs : List (Group × Bool)) (w : World Main)
    (hg : g.core ≠ g.sub) (hw : w.out = ⟨[], []⟩)
    (hh : ∀ p ∈ hs, p.1.sub ≠ g.sub ∧ p.1.sub ≠ g.core ∧ p.1.core ≠ g.sub ∧ p.1.core ≠ g.core ∧
        (w.lists p.1.sub).length < fuel ∧ (w.lists p.1.core).length < fuel)
    (fails : Fct → Bool) :
    ∃ w', instrument fuel g hs w = some w' ∧
      (runMain fails w'.out).called = hs.flatMap (fun p => w.todo p.1 false) ∧
      ((runMain fails w'.out).code = 0 ↔
        ∀ p ∈ hs, p.2 = true → ∀ f ∈ w.todo p.1 false, fails f = false) ∧
      (runMain fails w'.out).code ≤ 1 ∧
      ∀ p ∈ hs, ∀ f ∈ w.todo p.1 false, f ∈ w'.lists g.sub := by
  obtain ⟨w', e, p, k, _, m⟩ := instrument_ok fuel g hg hs w hh
  rw [hw] at p k
  refine ⟨w', e, by simpa [runMain, calls] using p, ?_, (runChecks_zero fails _).2, ?_⟩
  · unfold runMain
    rw [(runChecks_zero fails _).1, k]
    simp only [List.nil_append, checked, List.mem_flatMap]
    constructor
    · intro h q hq hc f hf
      exact h f ⟨q, hq, by rw [hc]; simpa using hf⟩
    · rintro h f ⟨q, hq, hf⟩
      cases hc : q.2 with
      | true => rw [hc] at hf; exact h q hq hc f (by simpa using hf)
      | false => rw [hc] at hf; cases hf
  · intro q hq f hf
    rw [m]
    refine Or.inr ⟨q, hq, ?_⟩
    exact List.mem_append.1 (List.mem_of_mem_filter hf)

/-! ### Cases -/

def demoWorld : World (List Fct) :=
  ⟨fun k => if k = 0 then [f0] else if k = 1 then [f1, ⟨2, 2, true⟩] else if k = 2 then [⟨3, 0, false⟩]
    else [], []⟩
example : demoWorld.todo ⟨0, 1⟩ false = [f1, f0] ∧ demoWorld.todo ⟨0, 1⟩ true = [f1, ⟨2, 2, true⟩, f0] := by
  decide
example : ((applyAll (fun f w => { w with out := w.out ++ [f] }) false 3 ⟨0, 1⟩ demoWorld).map
    fun w => w.out) = some [f1, f0] := by decide
example : ((applySub outlining false 5 ⟨0, 1⟩ ⟨fun k => if k = 1 then [f0] else [], []⟩).map
    fun w => w.out) = some [f0, f1] := by decide
example : ((merge true 3 ⟨0, 1⟩ ⟨2, 3⟩ demoWorld).map fun w => w.lists 1) =
    some [f1, ⟨2, 2, true⟩, ⟨3, 0, false⟩] := by decide
example : byName ⟨0, 1⟩ demoWorld 0 = some f0 := by decide
example : (runMain (fun f => f.id = 3)
    (((instrument 3 ⟨0, 1⟩ [(⟨2, 3⟩, true)] ⟨demoWorld.lists, ⟨[], []⟩⟩).map fun w => w.out).getD
      ⟨[], []⟩)).code = 1 := by decide

end Verif.FnGroup
