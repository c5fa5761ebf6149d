import Verif.Promo.Model
import Mathlib.Data.List.Basic

namespace Verif.Promo

variable {T K V : Type}

theorem getConv_has (G : Target T K) (f : T) (h : G.Has f) : getConv G f = .ok (G.up f) := by
  unfold getConv Target.up
  split
  · rfl
  · rename_i ht
    rcases h with h | h
    · exact absurd h ht
    · obtain ⟨g, hg⟩ := Option.isSome_iff_exists.1 h
      rw [hg]; rfl

theorem isConvertible_iff (G : Target T K) (f : T) : isConvertible G f = true ↔ G.Has f := by
  unfold isConvertible Target.Has
  split
  · simp [*]
  · simp [*]

theorem mapM_getConv (G : Target T K) (fs : List T) (h : ∀ f ∈ fs, G.Has f) : fs.mapM (getConv G) = .ok (fs.map G.up) := by
  induction fs with
  | nil => rfl
  | cons a l ih =>
    rw [List.mapM_cons, getConv_has G a (h a (by simp)), ih (fun f hf => h f (by simp [hf]))]
    rfl

open Classical in
theorem supported_eq [DecidableEq K] (G : Target T K) (c : Option (Cls K)) (f : T) (fs : List T) :
    supported G c f fs = .ok (decide (G.Promotable (c, f, fs))) := by
  unfold supported
  have hc := isConvertible_iff G f
  have ha : fs.all (isConvertible G) = true ↔ ∀ f ∈ fs, G.Has f := by
    rw [List.all_eq_true]; simp only [isConvertible_iff]
  by_cases h1 : G.Has f
  · rw [if_neg (by simp [hc.2 h1])]
    by_cases h2 : c = some .elementSelection ∨ c = some .call
    · rw [if_pos h2, decide_eq_false]
      rintro ⟨p, q, -⟩
      exact h2.elim p q
    · rw [if_neg h2]
      by_cases h3 : ∀ f ∈ fs, G.Has f
      · rw [if_neg (by simp [ha.2 h3])]
        unfold promotedKey
        rw [getConv_has G f h1, mapM_getConv G fs h3]
        show Except.ok _ = Except.ok _
        congr 1
        rw [Bool.eq_iff_iff, decide_eq_true_iff]
        unfold Target.Promotable
        push_neg at h2
        constructor
        · intro h; exact ⟨h2.1, h2.2, h1, h3, h⟩
        · intro h; exact h.2.2.2.2
      · rw [if_pos (by rw [Bool.not_eq_true', ← Bool.not_eq_true]; exact fun h => h3 (ha.1 h)), decide_eq_false]
        rintro ⟨-, -, -, p, -⟩
        exact h3 p
  · rw [if_pos (by simpa using fun h => h1 (hc.1 h)), decide_eq_false]
    rintro ⟨-, -, p, -⟩
    exact h1 p

/-- the operation is one the specification allows -/
def Ok (G : Target T K) (e : Expr T K V) (u : Use T K) : Prop :=
  (∃ w ∈ e.uses, (G.Promotable w ∧ u = (w.1, G.up w.2.1, w.2.2.map G.up)) ∨ (¬ G.Promotable w ∧ u = w)) ∨
    ∃ f ∈ e.fmts, G.Has f ∧ (u = (some .conversion, G.up f, [f]) ∨ u = (some .conversion, f, [G.up f]))

/-- like `Refines`, for a chosen format of the result -/
structure R (G : Target T K) (S : Sem T K V) (e : Expr T K V) (x : T) (e' : Expr T K V) : Prop where
  fmt : e'.fmt = x
  value : ∀ env, e'.den S env = e.den S env
  uses : ∀ u ∈ e'.uses, Ok G e u

theorem fmt_mem (e : Expr T K V) : e.fmt ∈ e.fmts := by
  cases e <;> simp [Expr.fmt, Expr.fmts]

theorem den_op (S : Sem T K V) (env : ℕ → V) (c : Cls K) (f : T) (l : List (Expr T K V)) :
    (Expr.op c f l).den S env = S.op c f (l.map Expr.fmt) (l.map fun a => a.den S env) := by
  rw [Expr.den]; simp

theorem uses_op (c : Cls K) (f : T) (l : List (Expr T K V)) :
    (Expr.op c f l).uses = (some c, f, l.map Expr.fmt) :: l.flatMap Expr.uses := by
  rw [Expr.uses]; simp [List.flatMap_subtype]

theorem fmts_op (c : Cls K) (f : T) (l : List (Expr T K V)) :
    (Expr.op c f l).fmts = f :: l.flatMap Expr.fmts := by
  rw [Expr.fmts]; simp [List.flatMap_subtype]

/-- the conversion to the expected format -/
theorem insert_R [DecidableEq T] (G : Target T K) (S : Sem T K V) (hF : G.Faithful S) (e e' : Expr T K V) (x : T)
    (hx : x = e.fmt ∨ (G.Has e.fmt ∧ x = G.up e.fmt)) (h : e'.fmt = e.fmt ∨ (G.Has e.fmt ∧ e'.fmt = G.up e.fmt))
    (hv : ∀ env, e'.den S env = e.den S env) (hu : ∀ u ∈ e'.uses, Ok G e u) : R G S e x (insertConversion e' x) := by
  unfold insertConversion
  split
  · rename_i hne
    have hk : ∀ u, u = (some Cls.conversion, x, [e'.fmt]) → Ok G e u := by
      rintro u rfl
      refine Or.inr ⟨e.fmt, fmt_mem e, ?_⟩
      rcases hx with hx | ⟨hx1, hx2⟩ <;> rcases h with h | ⟨h1, h2⟩
      · exact absurd (h.trans hx.symm) hne
      · exact ⟨h1, Or.inr (by rw [hx, h2])⟩
      · exact ⟨hx1, Or.inl (by rw [hx2, h])⟩
      · exact absurd (h2.trans hx2.symm) hne
    refine ⟨rfl, fun env => ?_, ?_⟩
    · rw [den_op]
      simp only [List.map_cons, List.map_nil]
      rw [hv env]
      rcases hx with hx | ⟨hx1, hx2⟩ <;> rcases h with h | ⟨h1, h2⟩
      · exact absurd (h.trans hx.symm) hne
      · rw [hx, h2]; exact hF.back _ _ h1
      · rw [hx2, h]; exact hF.promote _ _ hx1
      · exact absurd (h2.trans hx2.symm) hne
    · intro u hu'
      rw [uses_op] at hu'
      simp only [List.map_cons, List.map_nil, List.flatMap_cons, List.flatMap_nil, List.append_nil, List.mem_cons] at hu'
      rcases hu' with h | h
      · exact hk u h
      · exact hu u h
  · rename_i he
    exact ⟨by simpa using he, hv, hu⟩

/-- the promoted operands -/
structure RL (G : Target T K) (S : Sem T K V) (up : Bool) (l l' : List (Expr T K V)) : Prop where
  fmt : l'.map Expr.fmt = if up then (l.map Expr.fmt).map G.up else l.map Expr.fmt
  value : ∀ env, l'.map (fun a => a.den S env) = l.map (fun a => a.den S env)
  uses : ∀ u ∈ l'.flatMap Expr.uses, ∃ a ∈ l, Ok G a u

theorem Ok_arg (G : Target T K) (c : Cls K) (f : T) (l : List (Expr T K V)) (a : Expr T K V) (ha : a ∈ l) (u : Use T K) (h : Ok G a u) :
    Ok G (.op c f l) u := by
  rcases h with ⟨w, hw, h⟩ | ⟨g, hg, h⟩
  · refine Or.inl ⟨w, ?_, h⟩
    rw [uses_op]
    exact List.mem_cons_of_mem _ (List.mem_flatMap.2 ⟨a, ha, hw⟩)
  · refine Or.inr ⟨g, ?_, h⟩
    rw [fmts_op]
    exact List.mem_cons_of_mem _ (List.mem_flatMap.2 ⟨a, ha, hg⟩)

mutual
theorem promote_R [DecidableEq T] [DecidableEq K] (G : Target T K) (S : Sem T K V) (hF : G.Faithful S) :
    ∀ (e : Expr T K V) (x : T), e.Wf G → (x = e.fmt ∨ (G.Has e.fmt ∧ x = G.up e.fmt)) → ∃ e', promote G e x = .ok e' ∧ R G S e x e'
  | .table n f, x, hw, hx => by
    refine ⟨_, by rw [promote], ?_, fun _ => rfl, by simp [Expr.uses]⟩
    have hf : G.isTable f = true := by rw [Expr.Wf] at hw; exact hw
    have : G.up f = f := by unfold Target.up; rw [if_pos hf]
    simp only [Expr.fmt] at hx ⊢
    rcases hx with h | ⟨-, h⟩
    · exact h.symm
    · rw [h, this]
  | .var n f, x, hw, hx => by
    rw [promote]
    split
    · rename_i h
      exact ⟨_, rfl, h.symm, fun _ => rfl, by simp [Expr.uses]⟩
    · rename_i hne
      simp only [Expr.fmt] at hx
      rcases hx with h | ⟨h1, h2⟩
      · exact absurd h hne
      · have ht : (G.trans f).isSome = true := by
          rcases h1 with h1 | h1
          · exfalso
            apply hne
            rw [h2]; unfold Target.up; rw [if_pos h1]
          · exact h1
        rw [if_pos ht]
        exact ⟨_, rfl, insert_R G S hF (.var n f) (.var n f) x (Or.inr ⟨h1, h2⟩) (Or.inl rfl) (fun _ => rfl) (by simp [Expr.uses])⟩
  | .const v f, x, hw, hx => by
    rw [promote, supported_eq]
    by_cases hp : G.Promotable (none, f, [])
    · have hc := getConv_has G f hp.2.2.1
      refine ⟨insertConversion (.const v (G.up f)) x, ?_, insert_R G S hF _ _ x hx (Or.inr ⟨hp.2.2.1, rfl⟩) ?_ ?_⟩
      · simp [hp, hc, bind, Except.bind, pure, Except.pure]
      · intro env
        rw [Expr.den, Expr.den]; exact hF.const f v hp
      · intro u hu
        rw [Expr.uses, List.mem_singleton] at hu
        exact Or.inl ⟨(none, f, []), by simp [Expr.uses], Or.inl ⟨hp, hu⟩⟩
    · refine ⟨insertConversion (.const v f) x, ?_, insert_R G S hF _ _ x hx (Or.inl rfl) (fun _ => rfl) ?_⟩
      · simp [hp, bind, Except.bind, pure, Except.pure]
      · intro u hu
        rw [Expr.uses, List.mem_singleton] at hu
        exact Or.inl ⟨(none, f, []), by simp [Expr.uses], Or.inr ⟨hu ▸ hp, hu⟩⟩
  | .op c f l, x, hw, hx => by
    have hw' : ∀ a ∈ l, a.Wf G := by
      rw [Expr.Wf] at hw
      exact hw
    rw [promote, supported_eq]
    by_cases hp : G.Promotable (some c, f, l.map Expr.fmt)
    · obtain ⟨l', h1, h2⟩ := promoteArgs_R G S hF l true hw' (fun _ a ha => hp.2.2.2.1 _ (List.mem_map_of_mem ha))
      have hc := getConv_has G f hp.2.2.1
      refine ⟨insertConversion (.op c (G.up f) l') x, ?_, insert_R G S hF _ _ x hx (Or.inr ⟨hp.2.2.1, rfl⟩) ?_ ?_⟩
      · simp [hp, hc, h1, bind, Except.bind, pure, Except.pure]
      · intro env
        rw [den_op, den_op, h2.value env, h2.fmt]
        exact hF.op c f _ _ hp
      · intro u hu
        rw [uses_op, List.mem_cons] at hu
        rcases hu with hu | hu
        · refine Or.inl ⟨(some c, f, l.map Expr.fmt), by rw [uses_op]; simp, Or.inl ⟨hp, ?_⟩⟩
          rw [hu, h2.fmt]; rfl
        · obtain ⟨a, ha, h⟩ := h2.uses u hu
          exact Ok_arg G c f l a ha u h
    · obtain ⟨l', h1, h2⟩ := promoteArgs_R G S hF l false hw' (by simp)
      refine ⟨insertConversion (.op c f l') x, ?_, insert_R G S hF _ _ x hx (Or.inl rfl) ?_ ?_⟩
      · simp [hp, h1, bind, Except.bind, pure, Except.pure]
      · intro env
        rw [den_op, den_op, h2.value env, h2.fmt]; rfl
      · intro u hu
        rw [uses_op, List.mem_cons] at hu
        rcases hu with hu | hu
        · refine Or.inl ⟨(some c, f, l.map Expr.fmt), by rw [uses_op]; simp, Or.inr ⟨hp, ?_⟩⟩
          rw [hu, h2.fmt]; rfl
        · obtain ⟨a, ha, h⟩ := h2.uses u hu
          exact Ok_arg G c f l a ha u h

theorem promoteArgs_R [DecidableEq T] [DecidableEq K] (G : Target T K) (S : Sem T K V) (hF : G.Faithful S) :
    ∀ (l : List (Expr T K V)) (up : Bool), (∀ a ∈ l, a.Wf G) → (up = true → ∀ a ∈ l, G.Has a.fmt) →
      ∃ l', promoteArgs G up l = .ok l' ∧ RL G S up l l'
  | [], up, _, _ => ⟨[], by rw [promoteArgs], by cases up <;> rfl, fun _ => rfl, by simp⟩
  | a :: l, up, hw, hu => by
    obtain ⟨l', h1, h2⟩ := promoteArgs_R G S hF l up (fun b hb => hw b (by simp [hb])) (fun h b hb => hu h b (by simp [hb]))
    obtain ⟨a', h3, h4⟩ := promote_R G S hF a (if up then G.up a.fmt else a.fmt) (hw a (by simp))
      (by cases up
          · exact Or.inl rfl
          · exact Or.inr ⟨hu rfl a (by simp), rfl⟩)
    refine ⟨a' :: l', ?_, ?_, ?_, ?_⟩
    · rw [promoteArgs]
      cases up
      · simp only [Bool.false_eq_true, if_false] at h3 ⊢
        simp [h3, h1, bind, Except.bind, pure, Except.pure]
      · simp only [if_true] at h3 ⊢
        simp [getConv_has G _ (hu rfl a (by simp)), h3, h1, bind, Except.bind, pure, Except.pure]
    · rw [List.map_cons, h4.fmt, h2.fmt]
      cases up <;> rfl
    · intro env
      rw [List.map_cons, List.map_cons, h4.value, h2.value]
    · intro u hu'
      rw [List.flatMap_cons, List.mem_append] at hu'
      rcases hu' with h | h
      · exact ⟨a, by simp, h4.uses u h⟩
      · obtain ⟨b, hb, h⟩ := h2.uses u h
        exact ⟨b, by simp [hb], h⟩
end

/-- **C126** (expressions). For every target whose promoted formats mean what the generic ones mean, and every expression, the pass ends without error; the new expression has the same format and the same values; its operations are those of the initial expression, promoted exactly when the target implements them on the promoted formats, and conversions between a format and its promoted format. -/
theorem C126_expression [DecidableEq T] [DecidableEq K] (G : Target T K) (S : Sem T K V) (hF : G.Faithful S) (e : Expr T K V) (hw : e.Wf G) :
    ∃ e', promote G e e.fmt = .ok e' ∧ Refines G S e e' := by
  obtain ⟨e', h1, h2⟩ := promote_R G S hF e e.fmt hw (Or.inl rfl)
  exact ⟨e', h1, h2.fmt, h2.value, h2.uses⟩

mutual
theorem promoteS_R [DecidableEq T] [DecidableEq K] (G : Target T K) (S : Sem T K V) (hF : G.Faithful S) :
    ∀ (s : Stmt T K V), WfS G s → ∃ s', promoteS G s = .ok s' ∧ RefinesS G S s s'
  | .ret e, h => by
    cases h with
    | ret h =>
      obtain ⟨e', h1, h2⟩ := C126_expression G S hF e h
      exact ⟨_, by rw [promoteS, h1]; rfl, .ret h2⟩
  | .assign x f e, h => by
    cases h with
    | assign h =>
      obtain ⟨e', h1, h2⟩ := C126_expression G S hF e h
      exact ⟨_, by rw [promoteS, h1]; rfl, .assign h2⟩
  | .block l, h => by
    cases h with
    | block h =>
      obtain ⟨l', h1, h2⟩ := promoteL_R G S hF l h
      exact ⟨_, by rw [promoteS, h1]; rfl, h2⟩
  | .cond c l, h => by
    cases h with
    | cond hc h =>
      obtain ⟨l', h1, h2⟩ := promoteL_R G S hF l h
      obtain ⟨c', h3, h4⟩ := C126_expression G S hF c hc
      exact ⟨_, by rw [promoteS, h3, h1]; rfl, .cond h4 h2⟩
  | .loop i c b, h => by
    cases h with
    | loop hi hc hb =>
      obtain ⟨i', h1, h2⟩ := promoteS_R G S hF i hi
      obtain ⟨b', h5, h6⟩ := promoteS_R G S hF b hb
      obtain ⟨c', h3, h4⟩ := C126_expression G S hF c hc
      exact ⟨_, by rw [promoteS, h1, h3, h5]; rfl, .loop h2 h4 h6⟩

theorem promoteL_R [DecidableEq T] [DecidableEq K] (G : Target T K) (S : Sem T K V) (hF : G.Faithful S) :
    ∀ (l : List (Stmt T K V)), (∀ s ∈ l, WfS G s) → ∃ l', promoteL G l = .ok l' ∧ RefinesS G S (.block l) (.block l')
  | [], _ => ⟨[], by rw [promoteL], .nil⟩
  | s :: l, h => by
    obtain ⟨s', h1, h2⟩ := promoteS_R G S hF s (h s (by simp))
    obtain ⟨l', h3, h4⟩ := promoteL_R G S hF l (fun t ht => h t (by simp [ht]))
    exact ⟨_, by rw [promoteL, h1, h3]; rfl, .cons h2 h4⟩
end

/-- **C126** (functions). The pass ends without error on every statement, and gives the same statement on expressions with the same formats and values. -/
theorem C126_statement [DecidableEq T] [DecidableEq K] (G : Target T K) (S : Sem T K V) (hF : G.Faithful S) (s : Stmt T K V) (hw : WfS G s) :
    ∃ s', promoteS G s = .ok s' ∧ RefinesS G S s s' := promoteS_R G S hF s hw

/-! A target with one vector register format, and a graph it promotes in part -/

/-- a generic vector format, the register format, a table, a scalar -/
inductive F4 where
  | v4 | m4 | tab | s
  deriving DecidableEq

/-- `v4` has the register format `m4`; the target adds (key 0) registers, and loads (key 1) no table -/
def mini : Target F4 ℕ where
  trans := fun f => if f = .v4 then some .m4 else none
  isTable := fun f => f = .tab
  supports := fun u => u = (some (.other 0), .m4, [.m4, .m4])

/-- operations that do not depend on the formats -/
def miniSem : Sem F4 ℕ Int where
  op := fun c _ _ vs => match c with
    | .conversion => vs.headD 0
    | .other _ => vs.sum
    | _ => 0
  const := fun _ v => v

theorem mini_faithful : mini.Faithful miniSem := ⟨fun _ _ _ _ _ => rfl, fun _ _ _ => rfl, fun _ _ _ => rfl, fun _ _ _ => rfl⟩

/-- `(x + table[3]) + x` -/
def graph : Expr F4 ℕ Int :=
  .op (.other 0) .v4 [.op (.other 0) .v4 [.var 0 .v4, .op (.other 1) .v4 [.table 1 .tab, .const 3 .s]], .var 0 .v4]

example : graph.Wf mini := by simp [graph, Expr.Wf, mini]

-- the additions are promoted, the load is not
example : promote mini graph .v4 = .ok (.op .conversion .v4 [.op (.other 0) .m4
    [.op (.other 0) .m4 [.op .conversion .m4 [.var 0 .v4], .op .conversion .m4 [.op (.other 1) .v4 [.table 1 .tab, .const 3 .s]]],
     .op .conversion .m4 [.var 0 .v4]]]) := by
  simp [promote, promoteArgs, graph, supported, isConvertible, promotedKey, getConv, mini, insertConversion, Expr.fmt, bind, Except.bind, pure, Except.pure]

-- asked for a format that is not its own nor a promotion of it, a variable stops the pass
example : promote mini (.var 0 .s : Expr F4 ℕ Int) .m4 = .error .notImplemented := by
  simp [promote, mini]

example : WfS mini (.cond (.var 0 .s) [.ret graph, .block []] : Stmt F4 ℕ Int) := by
  refine .cond (by simp [Expr.Wf]) ?_
  intro s hs
  simp at hs
  rcases hs with rfl | rfl
  · exact .ret (by simp [graph, Expr.Wf, mini])
  · exact .block (by simp)

end Verif.Promo
