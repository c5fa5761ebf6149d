import Verif.Names.Lemmas

/-!
# C20, C21: generated names
-/

namespace Verif.Names

/-- **C20, one request.**  For every state of the tables, every scope and every prefix, asking for
a free name terminates, and the name returned starts with the prefix and is declared neither in the
tables of the scope nor in those of its enclosing scopes.  No declared name is forgotten. -/
theorem C20_free_name (w : World) (s : Scope) (p : Name) :
    ∃ N n w', (∀ fuel, N ≤ fuel → getFreeName fuel w s p = some (n, w')) ∧
      Fresh w.decl s n ∧ p <+: n ∧ w'.decl = w.decl := by
  by_cases hf : isFree w s p = true
  · refine ⟨0, p, { w with sidx := upd w.sidx s.id (upd (w.sidx s.id) p (some 0)) },
      fun fuel _ => ?_, (isFree_iff w s p).1 hf, List.prefix_rfl, ?_⟩
    · unfold getFreeName; rw [if_pos hf]
    · rfl
  · obtain ⟨K, hK⟩ := eventually_fresh w s p
    obtain ⟨j, hj, -⟩ := search_terminates hK (K + 1) (startIndex (w.sidx s.id p))
      (by omega) (by omega)
    refine ⟨K + 1, indexed p j,
      { w with sidx := upd w.sidx s.id (upd (w.sidx s.id) p (some j)) }, fun fuel hfu => ?_, (isFree_iff w s _).1 (search_some hj).2,
      List.prefix_append _ _, ?_⟩
    · unfold getFreeName
      rw [if_neg hf, search_mono hj fuel hfu]
    · rfl

/-- **C20, histories.**  Take any sequence of calls (requests over any scopes, constants, requests
that do not declare, declarations of names chosen by the caller).  Every allocated name was new for
its scope when the history started, and a later allocation never returns a name which an earlier
one put in a table the later one's scope can see. -/
theorem C20_history {fuel : ℕ} {w w' : World} {ops : List Op} {as : List Alloc}
    (h : run fuel w ops = some (as, w')) :
    (∀ a ∈ as, Fresh w.decl a.scope a.name) ∧
    as.Pairwise (fun a b => Visible a.table b.scope → a.name ≠ b.name) :=
  run_spec h

/-- **C20, one scope.**  When all the names of a history are allocated for one scope and declared in
tables of that scope, they are pairwise distinct. -/
theorem C20_distinct_partial {fuel : ℕ} {w w' : World} {ops : List Op} {as : List Alloc} {s : Scope}
    (h : run fuel w ops = some (as, w')) (hs : ∀ a ∈ as, a.scope = s ∧ Visible a.table s) :
    (as.map Alloc.name).Nodup := by
  rw [List.Nodup, List.pairwise_map]
  refine (run_spec h).2.imp_of_mem ?_
  intro a b ha hb hab
  exact hab (by rw [(hs b hb).1]; exact (hs a ha).2)

/-- Nothing declared: no table has an entry, no counter is set. -/
def emptyWorld : World := ⟨fun _ => ⟨[], fun _ => none, []⟩, fun _ _ => none⟩

/-- A function scope (constant table 0, variable table 1) inside a file scope (tables 2 and 3). -/
def inner : Scope := .mk 0 0 [1] [.mk 1 2 [3] []]

/-- The hypotheses of `C20_history` and `C20_distinct_partial` hold for a history with repeated prefixes, a
declaration in the enclosing scope and an interfering declaration of `x0`. -/
example : (run 5 emptyWorld [.declare 3 ['x'], .request inner ['x'] 1, .declare 1 ['x', '1'],
      .requestCst inner ['c'], .request inner ['x'] 1, .request inner ['c'] 1]).map
      (fun r => r.1.map Alloc.name) =
    some [['x', '0'], ['c'], ['x', '2'], ['c', '0']] := by decide +kernel

/-- **C20, the limit of the claim.**  A request that does not declare its result does not reserve
it: asked twice in any state where the prefix is free, the allocator returns the prefix twice. -/
theorem C20_undeclared_repeats (fuel : ℕ) (w : World) (s : Scope) (p : Name)
    (hf : Fresh w.decl s p) :
    ∃ w', getFreeName fuel w s p = some (p, w') ∧
      ∃ w'', getFreeName fuel w' s p = some (p, w'') := by
  have h1 := (isFree_iff w s p).2 hf
  refine ⟨_, by unfold getFreeName; rw [if_pos h1], ?_⟩
  have h2 : isFree { w with sidx := upd w.sidx s.id (upd (w.sidx s.id) p (some 0)) } s p = true :=
    (isFree_iff _ s p).2 hf
  exact ⟨_, by unfold getFreeName; rw [if_pos h2]⟩

example : Fresh emptyWorld.decl inner ['x'] := by
  intro t _ h
  simp [World.decl, emptyWorld] at h

/-- **C21, the part that holds.**  Asking for a constant name terminates with a name which is free
in the scope and its enclosing scopes, provided the (uniquified) prefix is either free everywhere or
already used *in the constant table*.
Missing for the full claim: a prefix which is free in the constant table but used in another table;
there the allocator never returns (`C21_hangs`). -/
theorem C21_cst_name_partial (w : World) (s : Scope) (p : Name)
    (h : Fresh w.decl s ((w.tabs s.cst).uniq ++ p) ∨
      (w.tabs s.cst).uniq ++ p ∈ w.decl s.cst) :
    ∃ N, ∀ fuel, N ≤ fuel → ∃ n w', getFreeCstName fuel w s p = some (n, w') ∧
      Fresh w.decl s n ∧ w'.decl = w.decl := by
  rcases h with h | h
  · refine ⟨1, fun fuel hf => ?_⟩
    obtain ⟨f, rfl⟩ : ∃ f, fuel = f + 1 := ⟨fuel - 1, by omega⟩
    have hc : (w.tabs s.cst).isFree ((w.tabs s.cst).uniq ++ p) = true := by
      unfold SymTab.isFree
      exact decide_eq_true (h s.cst (by cases s; exact .cst))
    have hr : ∃ r, getFreeCstName (f + 1) w s p = some r := by
      unfold getFreeCstName cstLoop SymTab.getFreeName
      dsimp only
      rw [if_pos hc]
      dsimp only
      have hd : World.decl { w with tabs := upd w.tabs s.cst { w.tabs s.cst with
          index := upd (w.tabs s.cst).index ((w.tabs s.cst).uniq ++ p) (some 0) } } = w.decl :=
        decl_upd rfl
      rw [isFree_congr hd, if_pos ((isFree_iff w s _).2 h)]
      exact ⟨_, rfl⟩
    obtain ⟨⟨n, w'⟩, hr⟩ := hr
    exact ⟨n, w', hr, cstLoop_spec hr⟩
  · obtain ⟨K, hK⟩ := eventually_fresh w s ((w.tabs s.cst).uniq ++ p)
    refine ⟨K + 1, fun fuel hf => ?_⟩
    obtain ⟨⟨n, w'⟩, hr⟩ := cstLoop_terminates (inner := fuel) fuel w h hK (by omega) (by omega)
      (by omega)
    exact ⟨n, w', hr, cstLoop_spec hr⟩

/-- The hypothesis of `C21_cst_name_partial` (second case) is met, with a collision in another
table: `c0` is a variable, so the constant allocator asks twice. -/
example : (getFreeCstName 5 (declare (declare emptyWorld 0 ['c']) 1 ['c', '0']) inner ['c']).map
    Prod.fst = some ['c', '1'] := by decide +kernel

/-- **C21, violation.**  Whenever the prefix is free in the constant table but declared in another
table the scope sees (a variable, a function, an enclosing scope's constant, …), the request never
returns: no amount of fuel is enough. -/
theorem C21_hangs (w : World) (s : Scope) (p : Name)
    (hfree : (w.tabs s.cst).uniq ++ p ∉ w.decl s.cst)
    (hused : ¬ Fresh w.decl s ((w.tabs s.cst).uniq ++ p)) (fuel : ℕ) :
    getFreeCstName fuel w s p = none := by
  suffices ∀ inner, cstLoop inner s p fuel w = none from this fuel
  intro inner
  induction fuel generalizing w with
  | zero => rfl
  | succ f ih =>
    unfold cstLoop SymTab.getFreeName
    dsimp only
    have hc : (w.tabs s.cst).isFree ((w.tabs s.cst).uniq ++ p) = true := by
      unfold SymTab.isFree
      exact decide_eq_true hfree
    rw [if_pos hc]
    dsimp only
    have hd : World.decl { w with tabs := upd w.tabs s.cst { w.tabs s.cst with
        index := upd (w.tabs s.cst).index ((w.tabs s.cst).uniq ++ p) (some 0) } } = w.decl :=
      decl_upd rfl
    rw [isFree_congr hd, if_neg (fun e => hused ((isFree_iff w s _).1 e))]
    apply ih
    · rw [hd]
      simpa [upd] using hfree
    · rw [hd]
      simpa [upd] using hused

/-- A state meeting the hypotheses of `C21_hangs`: a *variable* is already called `c`. -/
example : ['c'] ∉ (declare emptyWorld 1 ['c']).decl inner.cst ∧
    ¬ Fresh (declare emptyWorld 1 ['c']).decl inner ['c'] := by
  refine ⟨by decide, fun h => h 1 (.other (by simp)) (by decide)⟩

end Verif.Names
