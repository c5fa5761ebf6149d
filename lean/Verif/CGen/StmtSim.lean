import Verif.CGen.Expr

namespace Verif.CGen

open Verif.Names (Name)

variable {V : Type}

theorem wf_branch {P k st M N} (h : Wf P k st M N) : Wf P (k.branch st) {} M N := by
  have ho : opened (k.branch st) {} = opened k st := rfl
  have hf : ∀ n, find (k.branch st) {} n = find k st n := fun n => rfl
  refine ⟨?_, h.closed, h.ssub, ?_, ?_, ?_, ?_, ?_, ?_, ?_, h.nleaf⟩
  · exact h.dom
  · exact h.cst
  · exact h.inp
  · exact h.shape
  · exact h.un
  · exact h.bin
  · exact h.inj
  · exact h.args

theorem wf_body {P k st M N} (h : Wf P k st M N) : Wf P (k.body st) ⟨st.memo, {}⟩ M N :=
  ⟨h.dom, h.closed, h.ssub, h.cst, h.inp, h.shape, h.un, h.bin, h.inj, h.args, h.nleaf⟩

/-- What is used after a statement and visible before it. -/
theorem filter_mem {M : Vis} {L : List Node} {n : Node} :
    n ∈ L.filter (· ∈ M.all) ↔ n ∈ L ∧ n ∈ M.all := by simp

/-- Facts about the generator state at the head of a loop and after the loop. -/
structure LoopFacts (P : List Name) (k : Ctx) (st : St) (M : Vis) (L : List Node) (init : Stmt)
    (c : Node) (body : Stmt) : Prop where
  wi : Wf P k (gen k init st).2 (M.after init) (fun n => n ∈ sub c ++ nodes body ++ L)
  xi : Ext k st (gen k init st).2
  wc : Wf P k (genE k true c (gen k init st).2).2.2 ((M.after init).add true c)
    (fun n => n ∈ sub c ++ nodes body ++ L)
  fc : find k (genE k true c (gen k init st).2).2.2 c = some (genE k true c (gen k init st).2).1
  xc : Ext k (gen k init st).2 (genE k true c (gen k init st).2).2.2
  xb : Ext (k.body (genE k true c (gen k init st).2).2.2)
    ⟨(genE k true c (gen k init st).2).2.2.memo, {}⟩
    (gen (k.body (genE k true c (gen k init st).2).2.2) body
      ⟨(genE k true c (gen k init st).2).2.2.memo, {}⟩).2

theorem gen_good {P : List Name} : ∀ (s : Stmt) (k : Ctx) (st : St) (M : Vis) (L : List Node),
    Wf P k st M (fun n => n ∈ nodes s ∨ n ∈ L) → Safe M L s → (∀ n ∈ nodes s, Clean P n) →
    Wf P k (gen k s st).2 (M.after s) (fun n => n ∈ L) ∧ Ext k st (gen k s st).2 ∧
    (∀ init c body, s = .loop init c body → LoopFacts P k st M L init c body) := by
  intro s
  induction s with
  | skip =>
    intro k st M L hw _ _
    exact ⟨hw.weaken fun n hn => .inr hn, Ext.refl k st, fun _ _ _ h => by cases h⟩
  | seq s t ihs iht =>
    intro k st M L hw hs hcl
    obtain ⟨w1, x1, _⟩ := ihs k st M (nodes t ++ L)
      (hw.weaken fun n hn => by simp only [nodes, List.mem_append] at hn ⊢; tauto) hs.1
      (fun n hn => hcl n (by simp [nodes, hn]))
    obtain ⟨w2, x2, _⟩ := iht k _ _ L (w1.weaken fun n hn => by
      simp only [List.mem_append]; exact hn) hs.2 (fun n hn => hcl n (by simp [nodes, hn]))
    exact ⟨w2, x1.trans x2, fun _ _ _ h => by cases h⟩
  | expr e =>
    intro k st M L hw _ hcl
    obtain ⟨w, _, x⟩ := genE_good false e st M hw hcl
    exact ⟨w.weaken fun n hn => .inr hn, x, fun _ _ _ h => by cases h⟩
  | assign x e =>
    intro k st M L hw _ hcl
    obtain ⟨w1, _, x1⟩ := genE_good false (.var x) st M hw (fun m hm => hcl m (by
      simp only [sub, List.mem_singleton] at hm; simp [nodes, hm]))
    obtain ⟨w2, _, x2⟩ := genE_good false e _ _ w1 (fun m hm => hcl m (by simp [nodes, hm]))
    exact ⟨w2.weaken fun n hn => .inr hn, x1.trans x2, fun _ _ _ h => by cases h⟩
  | ite c a b _ _ =>
    intro k st M L hw _ hcl
    obtain ⟨w, _, x⟩ := genE_good false c st M hw (fun m hm => hcl m (by simp [nodes, hm]))
    exact ⟨w.weaken fun n hn => .inr hn, x, fun _ _ _ h => by cases h⟩
  | ret e =>
    intro k st M L hw _ hcl
    obtain ⟨w, _, x⟩ := genE_good false e st M hw hcl
    exact ⟨w.weaken fun n hn => .inr hn, x, fun _ _ _ h => by cases h⟩
  | loop init c body ihi ihb =>
    intro k st M L hw hs hcl
    obtain ⟨hs1, hs2, hs3, hs4⟩ := hs
    obtain ⟨wi, xi, _⟩ := ihi k st M (sub c ++ nodes body ++ L)
      (hw.weaken fun n hn => by simp only [nodes, List.mem_append] at hn ⊢; tauto) hs1
      (fun n hn => hcl n (by simp [nodes, hn]))
    obtain ⟨wc, fc, xc⟩ := genE_good true c _ _ wi (fun n hn => hcl n (by simp [nodes, hn]))
    obtain ⟨wb, xb, _⟩ := ihb (k.body (genE k true c (gen k init st).2).2.2)
      ⟨(genE k true c (gen k init st).2).2.2.memo, {}⟩ _ _
      ((wf_body wc).weaken fun n hn => by
        rw [filter_mem] at hn
        simp only [List.mem_append] at hn ⊢; tauto) hs2 (fun n hn => hcl n (by simp [nodes, hn]))
    have hx : Ext k st (gen k (.loop init c body) st).2 :=
      ⟨fun n e he => xb.find n e (xc.find n e (xi.find n e he)),
        fun t ht => xc.names t (xi.names t ht)⟩
    refine ⟨?_, hx, ?_⟩
    · -- kept nodes and local variables used after the loop are visible before its body
      have key : ∀ n, n ∈ L → slot (M.after (.loop init c body)) n →
          ∀ e, find k (gen k (.loop init c body) st).2 n = some e →
          slot ((M.after init).add true c) n ∧
          find k (genE k true c (gen k init st).2).2.2 n = some e := by
        intro n hn hsl e he
        have hall : n ∈ ((M.after init).add true c).all := by
          have h2 : n ∈ (M.after (.loop init c body)).all := (wb.dom n).1 (by
            show (find k (gen k (.loop init c body) st).2 n).isSome = true
            rw [he]; rfl)
          rcases (after_all body _ n).2 h2 with h | h
          · exact h
          · rcases hs4 n h hn with h' | h'
            · exact h'
            · exfalso
              rcases hsl with h3 | h3
              · cases n with
                | var x => cases x with
                  | input t => cases h3
                  | loc i t => cases h'
                | cst i k => cases h3
                | un i o a => cases h3
                | bin i o a b => cases h3
              · rw [(wb.nleaf n h3).1] at h'; cases h'
        refine ⟨hsl.imp id (after_stored body _ n hall).1, ?_⟩
        have := (wc.dom n).2 hall
        obtain ⟨e', he'⟩ := Option.isSome_iff_exists.1 this
        have := xb.find n e' he'
        have he2 : find (k.body (genE k true c (gen k init st).2).2.2) (gen (k.body (genE k true c (gen k init st).2).2.2) body
      ⟨(genE k true c (gen k init st).2).2.2.memo, {}⟩).2 n = some e := he
        rw [he2] at this
        rw [he', this]
      refine ⟨wb.dom, wb.closed, wb.ssub, wb.cst, wb.inp, ?_, wb.un, wb.bin, ?_, wc.args, wb.nleaf⟩
      · intro n hn hsl e he
        obtain ⟨h1, h2⟩ := key n hn hsl e he
        exact wc.shape n (by simp [hn]) h1 e h2
      · intro n m t hn hm hsn hsm h1 h2
        obtain ⟨a1, a2⟩ := key n hn hsn _ h1
        obtain ⟨b1, b2⟩ := key m hm hsm _ h2
        exact wc.inj n m t (by simp [hn]) (by simp [hm]) a1 b1 a2 b2
    · intro init' c' body' h
      cases h
      exact ⟨wi, xi, wc, fc, xc, xb⟩

/-! ## Execution -/

/-- The C program ends like the description. -/
def Match (Q : Store V → Env V → Prop) : Res (Store V) V → Res (Env V) V → Prop
  | .norm σ, r => ∃ ρ, r = .norm ρ ∧ Q σ ρ
  | .ret v, r => r = .ret v
  | .out, r => r = .out
  | .err, _ => True

theorem Match.imp {Q Q' : Store V → Env V → Prop} {r r'} (h : Match Q r r')
    (hQ : ∀ σ ρ, r = .norm σ → r' = .norm ρ → Q σ ρ → Q' σ ρ) : Match Q' r r' := by
  cases r with
  | norm σ =>
    obtain ⟨ρ, h1, h2⟩ := h
    exact ⟨ρ, h1, hQ σ ρ rfl h1 h2⟩
  | ret v => exact h
  | out => exact h
  | err => exact h

theorem Match.bind {Q Q' : Store V → Env V → Prop} {r r'} {f : Store V → Res (Store V) V}
    {f' : Env V → Res (Env V) V} (h : Match Q r r')
    (hf : ∀ σ ρ, r = .norm σ → r' = .norm ρ → Q σ ρ → Match Q' (f σ) (f' ρ)) :
    Match Q' (r.andThen f) (r'.andThen f') := by
  cases r with
  | norm σ =>
    obtain ⟨ρ, rfl, h2⟩ := h
    exact hf σ ρ rfl rfl h2
  | ret v => rw [h]; rfl
  | out => rw [h]; rfl
  | err => trivial

theorem match_iter {Q : Store V → Env V → Prop} {c : Store V → Option Bool} {c' : Env V → Option Bool}
    {b : Store V → Res (Store V) V} {b' : Env V → Res (Env V) V}
    (hc : ∀ σ ρ x, Q σ ρ → c σ = some x → c' ρ = some x)
    (hb : ∀ σ ρ, Q σ ρ → Match Q (b σ) (b' ρ)) :
    ∀ n σ ρ, Q σ ρ → Match Q (iter c b n σ) (iter c' b' n ρ) := by
  intro n
  induction n with
  | zero =>
    intro σ ρ h
    unfold iter
    cases hx : c σ with
    | none => trivial
    | some x =>
      rw [hc σ ρ x h hx]
      cases x with
      | false => exact ⟨ρ, rfl, h⟩
      | true => rfl
  | succ n ih =>
    intro σ ρ h
    unfold iter
    cases hx : c σ with
    | none => trivial
    | some x =>
      rw [hc σ ρ x h hx]
      cases x with
      | false => exact ⟨ρ, rfl, h⟩
      | true =>
        have := hb σ ρ h
        revert this
        cases b σ with
        | norm σ' =>
          rintro ⟨ρ', h1, h2⟩
          simp only [h1]
          exact ih σ' ρ' h2
        | ret v => intro h1; have h1 : b' ρ = .ret v := h1; simp only [h1]; rfl
        | out => intro h1; have h1 : b' ρ = .out := h1; simp only [h1]; rfl
        | err => intro _; trivial

theorem match_leave {Q Q' : Store V → Env V → Prop} {r r'} (h : Match Q r r')
    (hQ : ∀ σ ρ, r = .norm σ → r' = .norm ρ → Q σ ρ → Q' σ ρ.tail) : Match Q' r (leave r') := by
  cases r with
  | norm σ =>
    obtain ⟨ρ, rfl, h2⟩ := h
    exact ⟨ρ.tail, rfl, hQ σ ρ rfl rfl h2⟩
  | ret v => have h : r' = .ret v := h; rw [h]; rfl
  | out => have h : r' = .out := h; rw [h]; rfl
  | err => trivial

/-- Names of a block opened inside are not names of the blocks around it. -/
theorem opened_disjoint : ∀ (s : Stmt) (k : Ctx) (st : St),
    (∀ t ∈ st.scope.names, t ∉ k.scopes.flatMap (·.names)) →
    ∀ t ∈ (gen k s st).2.scope.names, t ∉ k.scopes.flatMap (·.names) := by
  have hdecl : ∀ (k : Ctx) (st : St) (p : Name),
      (∀ t ∈ st.scope.names, t ∉ k.scopes.flatMap (·.names)) →
      ∀ t ∈ (declare k st p).2.scope.names, t ∉ k.scopes.flatMap (·.names) := by
    intro k st p h t ht
    rcases List.mem_cons.1 ht with rfl | ht
    · intro h'
      exact declare_fresh k st p (List.mem_append_right _ h')
    · exact h t ht
  have hasm : ∀ (k : Ctx) (c : Bool) (i : Info) (n : Node) (e : CExpr) (st : St),
      (∀ t ∈ st.scope.names, t ∉ k.scopes.flatMap (·.names)) →
      ∀ t ∈ (assemble k c i n e st).2.2.scope.names, t ∉ k.scopes.flatMap (·.names) := by
    intro k c i n e st h
    unfold assemble
    split
    · exact hdecl k st _ h
    · exact h
  have hE : ∀ (k : Ctx) (c : Bool) (e : Node) (st : St),
      (∀ t ∈ st.scope.names, t ∉ k.scopes.flatMap (·.names)) →
      ∀ t ∈ (genE k c e st).2.2.scope.names, t ∉ k.scopes.flatMap (·.names) := by
    intro k c e
    induction e with
    | cst i v => intro st h; unfold genE; split <;> exact h
    | var x =>
      intro st h
      cases x with
      | input t => unfold genE; split <;> exact h
      | loc i t =>
        unfold genE
        split
        · exact h
        · exact hdecl k st _ h
    | un i o a ih =>
      intro st h
      unfold genE
      split
      · exact h
      · exact hasm _ _ _ _ _ _ (ih st h)
    | bin i o a b iha ihb =>
      intro st h
      unfold genE
      split
      · exact h
      · split
        · exact hasm _ _ _ _ _ _ (iha _ (ihb st h))
        · exact hasm _ _ _ _ _ _ (ihb _ (iha st h))
  intro s
  induction s with
  | skip => intro k st h; exact h
  | seq s t ihs iht => intro k st h; exact iht k _ (ihs k st h)
  | expr e => intro k st h; exact hE k _ e st h
  | assign x e => intro k st h; exact hE k _ e _ (hE k _ (.var x) st h)
  | ite c a b _ _ => intro k st h; exact hE k _ c st h
  | loop init c body ihi _ => intro k st h; exact hE k _ c _ (ihi k st h)
  | ret e => intro k st h; exact hE k _ e st h

/-- Entering a block does not hide the variables in use. -/
theorem sim_enter {I : Interp V} {P k st M N σ ρ} {d : List Name} (hw : Wf P k st M N)
    (hs : Sim I P k st M N σ ρ) (hd : ∀ t ∈ d, t ∉ opened k st) (hP : ∀ t ∈ d, t ∉ P) :
    Sim I P k st M N σ (enter d ρ) := by
  refine ⟨fun p hp => ?_, fun i t hn v hv => ?_, fun n hn hst c hc => ?_⟩
  · rw [look_enter (fun h => hP p h hp), hs.inp p hp]
  · obtain ⟨c, h1, h2⟩ := hs.loc i t hn v hv
    obtain ⟨t', ht', e⟩ := hw.shape _ hn (.inl rfl) _ h1
    cases e
    exact ⟨c, h1, by rw [look_enter (fun h => hd c h ht'), h2]⟩
  · obtain ⟨v, h1, h2⟩ := hs.val n hn hst c hc
    obtain ⟨t', ht', e⟩ := hw.shape _ hn (.inr hst) _ hc
    cases e
    exact ⟨v, h1, by rw [look_enter (fun h => hd c h ht'), h2]⟩

/-- Nor does leaving it. -/
theorem sim_leave {I : Interp V} {P k st M N σ} {ρ ρ0 : Env V} {d : List Name} (hw : Wf P k st M N)
    (hs : Sim I P k st M N σ ρ) (hdom : doms ρ = doms (enter d ρ0)) (hd : ∀ t ∈ d, t ∉ opened k st)
    (hP : ∀ t ∈ d, t ∉ P) : Sim I P k st M N σ ρ.tail := by
  refine ⟨fun p hp => ?_, fun i t hn v hv => ?_, fun n hn hst c hc => ?_⟩
  · rw [look_leave hdom (fun h => hP p h hp), hs.inp p hp]
  · obtain ⟨c, h1, h2⟩ := hs.loc i t hn v hv
    obtain ⟨t', ht', e⟩ := hw.shape _ hn (.inl rfl) _ h1
    cases e
    exact ⟨c, h1, by rw [look_leave hdom (fun h => hd c h ht'), h2]⟩
  · obtain ⟨v, h1, h2⟩ := hs.val n hn hst c hc
    obtain ⟨t', ht', e⟩ := hw.shape _ hn (.inr hst) _ hc
    cases e
    exact ⟨v, h1, by rw [look_leave hdom (fun h => hd c h ht'), h2]⟩

theorem doms_tail {d : List Name} {ρ ρ0 : Env V} (h : doms ρ = doms (enter d ρ0)) :
    doms ρ.tail = doms ρ0 := by
  simp only [doms, enter, List.map_cons] at h ⊢
  rw [List.map_tail, h]
  rfl

theorem look_enter_bound {d : List Name} {ρ : Env V} {t : Name}
    (h : t ∈ d ∨ (look ρ t).isSome = true) : (look (enter d ρ) t).isSome = true := by
  rw [look_isSome]
  have : doms (enter d ρ) = d :: doms ρ := by
    simp only [doms, enter, List.map_cons, List.map_map]
    congr 1
    exact List.map_id d
  rw [this]
  rcases h with h | h
  · exact ⟨d, List.mem_cons_self, h⟩
  · obtain ⟨d', h1, h2⟩ := (look_isSome ρ t).1 h
    exact ⟨d', List.mem_cons_of_mem _ h1, h2⟩

theorem gen_sim {I : Interp V} {P : List Name} (fuel : ℕ) : ∀ (s : Stmt) (k : Ctx) (st : St) (M : Vis)
    (L : List Node) (σ : Store V) (ρ : Env V),
    Wf P k st M (fun n => n ∈ nodes s ∨ n ∈ L) →
    Sim I P k st M (fun n => n ∈ nodes s ∨ n ∈ L) σ ρ → Safe M L s → (∀ n ∈ nodes s, Clean P n) →
    (∀ n ∈ L, ∀ m ∈ sub n, m ∈ L) → (∀ t, .var (.input t) ∈ nodes s ∨ .var (.input t) ∈ L → t ∈ P) →
    (∀ t ∈ opened k (gen k s st).2, (look ρ t).isSome = true) →
    Match (Sim I P k (gen k s st).2 (M.after s) (fun n => n ∈ L)) (exec I fuel s σ)
      (execC I fuel (gen k s st).1 ρ) := by
  have closedN : ∀ (s : Stmt) (L : List Node), (∀ n ∈ L, ∀ m ∈ sub n, m ∈ L) →
      ∀ n, (n ∈ nodes s ∨ n ∈ L) → ∀ m ∈ sub n, (m ∈ nodes s ∨ m ∈ L) := by
    intro s L hL n hn m hm
    exact hn.imp (fun h => nodes_closed s n h m hm) (fun h => hL n h m hm)
  intro s
  induction s with
  | skip =>
    intro k st M L σ ρ hw hs _ _ _ _ _
    exact ⟨ρ, rfl, hs.weaken fun n hn => .inr hn⟩
  | seq s t ihs iht =>
    intro k st M L σ ρ hw hs hsafe hcl hL hP hb
    have hcs : ∀ n ∈ nodes s, Clean P n := fun n hn => hcl n (by simp [nodes, hn])
    have hct : ∀ n ∈ nodes t, Clean P n := fun n hn => hcl n (by simp [nodes, hn])
    have hN : ∀ n, (n ∈ nodes s ∨ n ∈ nodes t ++ L) → (n ∈ nodes (.seq s t) ∨ n ∈ L) := by
      intro n hn; simp only [nodes, List.mem_append] at hn ⊢; tauto
    have hw1 := hw.weaken hN
    obtain ⟨w1, x1, _⟩ := gen_good s k st M (nodes t ++ L) hw1 hsafe.1 hcs
    have w1' : Wf P k (gen k s st).2 (M.after s) (fun n => n ∈ nodes t ∨ n ∈ L) :=
      w1.weaken fun n hn => by simp only [List.mem_append]; exact hn
    obtain ⟨w2, x2, _⟩ := gen_good t k _ _ L w1' hsafe.2 hct
    have hL1 : ∀ n ∈ nodes t ++ L, ∀ m ∈ sub n, m ∈ nodes t ++ L := by
      intro n hn m hm
      simp only [List.mem_append] at hn ⊢
      exact closedN t L hL n hn m hm
    have m1 := ihs k st M (nodes t ++ L) σ ρ hw1 (hs.weaken hN) hsafe.1 hcs hL1
      (fun t' ht => hP t' (by simp only [nodes, List.mem_append] at ht ⊢; tauto))
      (fun t' ht => hb t' (x2.opened t' ht))
    refine Match.bind m1 ?_
    intro σ1 ρ1 e1 e2 hsim
    exact iht k _ _ L σ1 ρ1 w1' (hsim.weaken fun n hn => by simp only [List.mem_append]; exact hn)
      hsafe.2 hct hL (fun t' ht => hP t' (by simp only [nodes, List.mem_append] at ht ⊢; tauto))
      (fun t' ht => bound_doms (doms_exec I fuel _ _ _ e2) (hb t' ht))
  | expr e =>
    intro k st M L σ ρ hw hs hsafe hcl hL hP hb
    unfold exec
    cases hv : eval I σ e with
    | none => trivial
    | some v =>
      obtain ⟨ρ', h1, h2, _⟩ := genE_sim fuel false (closedN (.expr e) L hL) hP e st M ρ v hw hs
        (.inl (self_mem_sub e)) hcl hv hb
      exact ⟨ρ', h1, h2.weaken fun n hn => .inr hn⟩
  | ret e =>
    intro k st M L σ ρ hw hs hsafe hcl hL hP hb
    unfold exec
    cases hv : eval I σ e with
    | none => trivial
    | some v =>
      obtain ⟨ρ', h1, h2, h3⟩ := genE_sim fuel false (closedN (.ret e) L hL) hP e st M ρ v hw hs
        (.inl (self_mem_sub e)) hcl hv hb
      show execC I fuel (gen k (.ret e) st).1 ρ = _
      simp only [gen, execC, h1, Res.andThen, h3]
  | assign x e =>
    intro k st M L σ ρ hw hs hsafe hcl hL hP hb
    unfold exec
    cases hv : eval I σ e with
    | none => trivial
    | some v =>
      have hcx : ∀ m ∈ sub (.var x), Clean P m := fun m hm => hcl m (by
        simp only [sub, List.mem_singleton] at hm; simp [nodes, hm])
      have hce : ∀ m ∈ sub e, Clean P m := fun m hm => hcl m (by simp [nodes, hm])
      obtain ⟨w1, f1, x1⟩ := genE_good false (.var x) st M hw hcx
      obtain ⟨w2, f2, x2⟩ := genE_good false e _ _ w1 hce
      -- the assigned variable is visible
      have s1 : Sim I P k (genE k false (.var x) st).2.2 (M.add false (.var x))
          (fun n => n ∈ nodes (.assign x e) ∨ n ∈ L) σ ρ := by
        refine ⟨hs.inp, fun i t hn w hw' => ?_, fun n hn hst c hc => ?_⟩
        · obtain ⟨c, h1, h2⟩ := hs.loc i t hn w hw'
          exact ⟨c, x1.find _ _ h1, h2⟩
        · rcases add_stored.1 hst with h | ⟨h, _, h'⟩
          · have := (hw.dom n).2 (hw.ssub n h)
            obtain ⟨c', hc'⟩ := Option.isSome_iff_exists.1 this
            have h3 := x1.find _ _ hc'
            rw [hc] at h3
            cases h3
            exact hs.val n hn h c hc'
          · simp only [sub, List.mem_singleton] at h
            subst h
            cases h'
      obtain ⟨ρ', h1, h2, h3⟩ := genE_sim fuel false (closedN (.assign x e) L hL) hP e _ _ ρ v w1 s1
        (.inl (by simp [nodes, self_mem_sub])) hce hv hb
      have d1 := doms_exec I fuel _ _ _ h1
      have fx := x2.find _ _ f1
      have hxN : (fun n => n ∈ nodes (.assign x e) ∨ n ∈ L) (Node.var x) := .inl (by simp [nodes])
      -- the name of the assigned variable
      obtain ⟨t, ht, hbt⟩ : ∃ t, (genE k false (.var x) st).1 = .var t ∧ (look ρ' t).isSome = true := by
        cases x with
        | input p =>
          refine ⟨p, w2.inp _ _ fx, ?_⟩
          rw [h2.inp p (hP p hxN)]; rfl
        | loc i p =>
          obtain ⟨t, ht, e'⟩ := w2.shape _ hxN (.inl rfl) _ fx
          exact ⟨t, e', bound_doms d1 (hb t ht)⟩
      rw [ht] at fx
      obtain ⟨ρ2, hset⟩ := set_isSome hbt v
      refine ⟨ρ2, ?_, ?_⟩
      · simp only [gen, execC, h1, Res.andThen, ht, lname, h3, hset]
      · refine ⟨fun p hp => ?_, fun i p hn w hσ => ?_, fun n hn hst c hc => ?_⟩
        · rw [look_set hset]
          by_cases hpt : p = t
          · subst hpt
            cases x with
            | input q =>
              have := w2.inp _ _ fx
              cases this
              simp
            | loc i q =>
              obtain ⟨t', ht', e'⟩ := w2.shape _ hxN (.inl rfl) _ fx
              cases e'
              exact absurd hp (w2.args _ ht')
          · rw [if_neg hpt, h2.inp p hp, if_neg]
            rintro rfl
            have := w2.inp _ _ fx
            cases this
            exact hpt rfl
        · by_cases hx : Var.loc i p = x
          · subst hx
            simp only [if_true] at hσ
            cases hσ
            exact ⟨t, fx, by rw [look_set hset, if_pos rfl]⟩
          · rw [if_neg hx] at hσ
            obtain ⟨c, a1, a2⟩ := h2.loc i p (.inr hn) w hσ
            refine ⟨c, a1, ?_⟩
            rw [look_set hset, if_neg, a2]
            rintro rfl
            cases x with
            | input q =>
              have := w2.inp _ _ fx
              cases this
              obtain ⟨t', ht', e'⟩ := w2.shape _ (.inr hn) (.inl rfl) _ a1
              cases e'
              exact w2.args _ ht' (hP _ hxN)
            | loc j q =>
              have := w2.inj _ _ c (.inr hn) hxN (.inl rfl) (.inl rfl) a1 fx
              cases this
              exact hx rfl
        · obtain ⟨w, a1, a2⟩ := h2.val n (.inr hn) hst c hc
          have hr : Node.var x ∉ sub n := fun h => hsafe n hst h hn
          refine ⟨w, by rw [eval_update n hr]; exact a1, ?_⟩
          rw [look_set hset, if_neg, a2]
          rintro rfl
          cases x with
          | input q =>
            have := w2.inp _ _ fx
            cases this
            obtain ⟨t', ht', e'⟩ := w2.shape _ (.inr hn) (.inr hst) _ hc
            cases e'
            exact w2.args _ ht' (hP _ hxN)
          | loc j q =>
            have := w2.inj _ _ c (.inr hn) hxN (.inr hst) (.inl rfl) hc fx
            subst this
            exact hr (self_mem_sub _)
  | ite c a b iha ihb =>
    intro k st M L σ ρ hw hs hsafe hcl hL hP hb
    obtain ⟨hsa, hsb, hloc⟩ := hsafe
    unfold exec
    cases hv : eval I σ c with
    | none => trivial
    | some v =>
      have hcc : ∀ m ∈ sub c, Clean P m := fun m hm => hcl m (by simp [nodes, hm])
      obtain ⟨w1, f1, x1⟩ := genE_good false c st M hw hcc
      obtain ⟨ρ', h1, h2, h3⟩ := genE_sim fuel false (closedN (.ite c a b) L hL) hP c st M ρ v hw hs
        (.inl (by simp [nodes, self_mem_sub])) hcc hv hb
      have d1 := doms_exec I fuel _ _ _ h1
      set g := (genE k false c st).2.2 with hg
      -- one branch
      have branch : ∀ (s : Stmt), (∀ n ∈ nodes s, n ∈ nodes (.ite c a b)) →
          (∀ n ∈ nodes s, n.isLocal → n ∈ L → n ∈ (M.add false c).all) →
          Safe (M.add false c) (L.filter (· ∈ (M.add false c).all)) s →
          (∀ (k : Ctx) (st : St) (M : Vis) (L : List Node) (σ : Store V) (ρ : Env V),
            Wf P k st M (fun n => n ∈ nodes s ∨ n ∈ L) →
            Sim I P k st M (fun n => n ∈ nodes s ∨ n ∈ L) σ ρ → Safe M L s →
            (∀ n ∈ nodes s, Clean P n) → (∀ n ∈ L, ∀ m ∈ sub n, m ∈ L) →
            (∀ t, .var (.input t) ∈ nodes s ∨ .var (.input t) ∈ L → t ∈ P) →
            (∀ t ∈ opened k (gen k s st).2, (look ρ t).isSome = true) →
            Match (Sim I P k (gen k s st).2 (M.after s) (fun n => n ∈ L)) (exec I fuel s σ)
              (execC I fuel (gen k s st).1 ρ)) →
          Match (Sim I P k g (M.add false c) (fun n => n ∈ L)) (exec I fuel s σ)
            (leave (execC I fuel (gen (k.branch g) s {}).1
              (enter (gen (k.branch g) s {}).2.scope.names ρ'))) := by
        intro s hns hlocs hss ih
        have hcs : ∀ n ∈ nodes s, Clean P n := fun n hn => hcl n (hns n hn)
        have hN : ∀ n, (n ∈ nodes s ∨ n ∈ L.filter (· ∈ (M.add false c).all)) →
            (n ∈ nodes (.ite c a b) ∨ n ∈ L) := by
          intro n hn
          exact hn.imp (hns n) (fun h => (filter_mem.1 h).1)
        have wB : Wf P (k.branch g) {} (M.add false c)
            (fun n => n ∈ nodes s ∨ n ∈ L.filter (· ∈ (M.add false c).all)) :=
          wf_branch (w1.weaken hN)
        obtain ⟨w2, x2, _⟩ := gen_good s (k.branch g) {} _ _ wB hss hcs
        have hdis : ∀ t ∈ (gen (k.branch g) s {}).2.scope.names, t ∉ opened k g :=
          opened_disjoint s (k.branch g) {} (by intro t ht; cases ht)
        have hdP : ∀ t ∈ (gen (k.branch g) s {}).2.scope.names, t ∉ P := fun t ht =>
          w2.args t (List.mem_append_left _ ht)
        have sE := sim_enter w1 h2 hdis hdP
        have m := ih (k.branch g) {} (M.add false c) (L.filter (· ∈ (M.add false c).all)) σ
          (enter (gen (k.branch g) s {}).2.scope.names ρ') wB
          ⟨(sE.weaken hN).inp, (sE.weaken hN).loc, (sE.weaken hN).val⟩ hss hcs
          (fun n hn m hm => by
            rw [filter_mem] at hn ⊢
            exact ⟨hL n hn.1 m hm, w1.closed n hn.2 m hm⟩)
          (fun t ht => hP t (hN _ ht))
          (fun t ht => look_enter_bound (by
            simp only [opened, List.mem_append] at ht
            rcases ht with ht | ht
            · exact .inl ht
            · exact .inr (bound_doms d1 (hb t ht))))
        refine match_leave m ?_
        intro σ' ρ2 e1 e2 hsim
        have hdom := doms_exec I fuel _ _ _ e2
        -- back to the state before the branch
        have hfind : ∀ n e, find k g n = some e → find (k.branch g) (gen (k.branch g) s {}).2 n = some e :=
          fun n e he => x2.find n e he
        have sB : Sim I P k g (M.add false c) (fun n => n ∈ L) σ' ρ2 := by
          refine ⟨hsim.inp, fun i t hn v' hv' => ?_, fun n hn hst x hx => ?_⟩
          · by_cases hmem : Node.var (.loc i t) ∈ nodes s
            · have hall := hlocs _ hmem rfl hn
              obtain ⟨y, b1, b2⟩ := hsim.loc i t (filter_mem.2 ⟨hn, hall⟩) v' hv'
              obtain ⟨e', he'⟩ := Option.isSome_iff_exists.1 ((w1.dom _).2 hall)
              have := hfind _ _ he'
              rw [b1] at this
              cases this
              exact ⟨y, he', b2⟩
            · have hσ := exec_frame I fuel s σ σ' e1 (.loc i t) hmem
              rw [hσ] at hv'
              obtain ⟨y, b1, b2⟩ := h2.loc i t (.inr hn) v' hv'
              have hall : Node.var (.loc i t) ∈ (M.add false c).all := (w1.dom _).1 (by rw [b1]; rfl)
              obtain ⟨z, c1, c2⟩ := hsim.loc i t (filter_mem.2 ⟨hn, hall⟩) v' (by rw [hσ]; exact hv')
              have := hfind _ _ b1
              rw [c1] at this
              cases this
              exact ⟨y, b1, c2⟩
          · have hall := w1.ssub n hst
            exact hsim.val n (filter_mem.2 ⟨hn, hall⟩) ((after_stored s _ n hall).2 hst) x (hfind _ _ hx)
        exact sim_leave (w1.weaken fun n hn => .inr hn) sB hdom hdis hdP
      have hex : execC I fuel (gen k (.ite c a b) st).1 ρ =
          if I.truth v then leave (execC I fuel (gen (k.branch g) a {}).1
              (enter (gen (k.branch g) a {}).2.scope.names ρ'))
          else leave (execC I fuel (gen (k.branch g) b {}).1
              (enter (gen (k.branch g) b {}).2.scope.names ρ')) := by
        simp only [gen, execC, h1, Res.andThen, h3]
        rfl
      rw [hex]
      simp only
      split
      · exact branch a (fun n hn => by simp [nodes, hn]) (fun n hn => hloc n (by simp [hn])) hsa iha
      · exact branch b (fun n hn => by simp [nodes, hn]) (fun n hn => hloc n (by simp [hn])) hsb ihb
  | loop init c body ihi ihb =>
    intro k st M L σ ρ hw hs hsafe hcl hL hP hb
    obtain ⟨_, hxx, hfacts⟩ := gen_good (.loop init c body) k st M L hw hsafe hcl
    obtain ⟨wi, xi, wc, fc, xc, xb⟩ := hfacts init c body rfl
    obtain ⟨hs1, hs2, hs3, hs4⟩ := hsafe
    have hci : ∀ n ∈ nodes init, Clean P n := fun n hn => hcl n (by simp [nodes, hn])
    have hcc : ∀ n ∈ sub c, Clean P n := fun n hn => hcl n (by simp [nodes, hn])
    have hcb : ∀ n ∈ nodes body, Clean P n := fun n hn => hcl n (by simp [nodes, hn])
    have hLi : ∀ n ∈ sub c ++ nodes body ++ L, ∀ m ∈ sub n, m ∈ sub c ++ nodes body ++ L := by
      intro n hn m hm
      simp only [List.mem_append] at hn ⊢
      rcases hn with (hn | hn) | hn
      · exact .inl (.inl (sub_trans c n m hn hm))
      · exact .inl (.inr (nodes_closed body n hn m hm))
      · exact .inr (hL n hn m hm)
    have hPi : ∀ t, Node.var (.input t) ∈ sub c ++ nodes body ++ L → t ∈ P := fun t ht =>
      hP t (by simp only [nodes, List.mem_append] at ht ⊢; tauto)
    have hNi : ∀ n, (n ∈ nodes init ∨ n ∈ sub c ++ nodes body ++ L) →
        (n ∈ nodes (.loop init c body) ∨ n ∈ L) := by
      intro n hn; simp only [nodes, List.mem_append] at hn ⊢; tauto
    have m1 := ihi k st M _ σ ρ (hw.weaken hNi) (hs.weaken hNi) hs1 hci hLi
      (fun t ht => hP t (hNi _ ht)) (fun t ht => hb t (xc.opened t ht))
    have hex : execC I fuel (gen k (.loop init c body) st).1 ρ =
        (execC I fuel (gen k init st).1 ρ).andThen (fun ρ =>
          (execC I fuel (genE k true c (gen k init st).2).2.1 ρ).andThen
          (execC I fuel (.loop (genE k true c (gen k init st).2).1
            (gen (k.body (genE k true c (gen k init st).2).2.2) body
              ⟨(genE k true c (gen k init st).2).2.2.memo, {}⟩).2.scope.names
            (gen (k.body (genE k true c (gen k init st).2).2.2) body
              ⟨(genE k true c (gen k init st).2).2.2.memo, {}⟩).1))) := by
      simp only [gen, execC]
      cases execC I fuel (gen k init st).1 ρ <;> rfl
    rw [hex]
    refine Match.bind m1 ?_
    intro σ1 ρ1 _ e1 s1
    have d1 := doms_exec I fuel _ _ _ e1
    set g0 := (gen k init st).2 with hg0
    set g := (genE k true c g0).2.2 with hg
    set rb := gen (k.body g) body ⟨g.memo, {}⟩ with hrb
    set M1 := (M.after init).add true c with hM1
    have hfind : ∀ n e, find k g n = some e → find (k.body g) rb.2 n = some e :=
      fun n e he => xb.find n e he
    cases hcv : eval I σ1 c with
    | none =>
      cases fuel with
      | zero => unfold iter; simp [hcv, Match]
      | succ n => unfold iter; simp [hcv, Match]
    | some v0 =>
      obtain ⟨ρ2, e2, s2, _⟩ := genE_sim fuel true (N := fun n => n ∈ sub c ++ nodes body ++ L) hLi hPi c
        g0 _ ρ1 v0 wi s1 (by simp [self_mem_sub]) hcc hcv (fun t ht => bound_doms d1 (hb t ht))
      have d2 := (doms_exec I fuel _ _ _ e2).trans d1
      rw [e2]
      show Match _ _ (execC I fuel (.loop (genE k true c g0).1 rb.2.scope.names rb.1) ρ2)
      simp only [execC]
      have wB : Wf P (k.body g) ⟨g.memo, {}⟩ M1
          (fun n => n ∈ nodes body ∨ n ∈ (sub c ++ nodes body ++ L).filter (· ∈ M1.all)) :=
        (wf_body wc).weaken fun n hn => by
          rw [filter_mem] at hn
          simp only [List.mem_append] at hn ⊢; tauto
      obtain ⟨w3, _, _⟩ := gen_good body (k.body g) ⟨g.memo, {}⟩ M1 _ wB hs2 hcb
      have hdis : ∀ t ∈ rb.2.scope.names, t ∉ opened k g :=
        opened_disjoint body (k.body g) ⟨g.memo, {}⟩ (by intro t ht; cases ht)
      have hdP : ∀ t ∈ rb.2.scope.names, t ∉ P := fun t ht => w3.args t (List.mem_append_left _ ht)
      have hloop := match_iter (V := V)
        (Q := fun σ ρ => Sim I P k g M1 (fun n => n ∈ sub c ++ nodes body ++ L) σ ρ ∧ doms ρ = doms ρ2)
        (c := fun σ => (eval I σ c).map I.truth)
        (c' := fun ρ => (evalC I ρ (genE k true c g0).1).map I.truth)
        (b := exec I fuel body)
        (b' := fun ρ => leave (execC I fuel rb.1 (enter rb.2.scope.names ρ)))
        (by
          rintro σ' ρ' x ⟨hq, _⟩ hx
          simp only [Option.map_eq_some_iff] at hx ⊢
          obtain ⟨v, hv, rfl⟩ := hx
          exact ⟨v, value wc hq hLi hPi c (by simp [self_mem_sub]) _ fc v hv, rfl⟩)
        (by
          rintro σ' ρ' ⟨hq, hd⟩
          have sE := (sim_enter wc hq hdis hdP).weaken
            (N' := fun n => n ∈ nodes body ∨ n ∈ (sub c ++ nodes body ++ L).filter (· ∈ M1.all))
            (fun n hn => by
              rw [filter_mem] at hn
              simp only [List.mem_append] at hn ⊢; tauto)
          have m := ihb (k.body g) ⟨g.memo, {}⟩ M1 ((sub c ++ nodes body ++ L).filter (· ∈ M1.all)) σ'
            (enter rb.2.scope.names ρ') wB ⟨sE.inp, sE.loc, sE.val⟩ hs2 hcb
            (fun n hn m hm => by
              rw [filter_mem] at hn ⊢
              exact ⟨hLi n hn.1 m hm, wc.closed n hn.2 m hm⟩)
            (fun t ht => hPi t (by
              rw [filter_mem] at ht
              simp only [List.mem_append] at ht ⊢; tauto))
            (fun t ht => look_enter_bound (by
              simp only [opened, List.mem_append] at ht
              rcases ht with ht | ht
              · exact .inl ht
              · exact .inr (bound_doms (hd.trans d2) (hb t ht))))
          refine match_leave m ?_
          intro σ3 ρ3 e3 e4 hsim
          have hdom := doms_exec I fuel _ _ _ e4
          refine ⟨?_, (doms_tail hdom).trans hd⟩
          have sB : Sim I P k g M1 (fun n => n ∈ sub c ++ nodes body ++ L) σ3 ρ3 := by
            refine ⟨hsim.inp, fun i t hn v' hv' => ?_, fun n hn hst x hx => ?_⟩
            · by_cases hmem : Node.var (.loc i t) ∈ nodes body
              · have hall := hs3 _ hmem rfl
                obtain ⟨y, b1, b2⟩ := hsim.loc i t (filter_mem.2 ⟨hn, hall⟩) v' hv'
                obtain ⟨e', he'⟩ := Option.isSome_iff_exists.1 ((wc.dom _).2 hall)
                have := hfind _ _ he'
                rw [b1] at this
                cases this
                exact ⟨y, he', b2⟩
              · have hσ := exec_frame I fuel body σ' σ3 e3 (.loc i t) hmem
                rw [hσ] at hv'
                obtain ⟨y, b1, b2⟩ := hq.loc i t hn v' hv'
                have hall : Node.var (.loc i t) ∈ M1.all := (wc.dom _).1 (by rw [b1]; rfl)
                obtain ⟨z, c1, c2⟩ := hsim.loc i t (filter_mem.2 ⟨hn, hall⟩) v' (by rw [hσ]; exact hv')
                have := hfind _ _ b1
                rw [c1] at this
                cases this
                exact ⟨y, b1, c2⟩
            · have hall := wc.ssub n hst
              exact hsim.val n (filter_mem.2 ⟨hn, hall⟩) ((after_stored body _ n hall).2 hst) x
                (hfind _ _ hx)
          exact sim_leave wc sB hdom hdis hdP)
        fuel σ1 ρ2 ⟨s2, rfl⟩
      refine hloop.imp ?_
      rintro σ' ρ' _ _ ⟨hq, _⟩
      refine ⟨hq.inp, fun i t hn v hv => ?_, fun n hn hst x hx => ?_⟩
      · obtain ⟨y, b1, b2⟩ := hq.loc i t (by simp [hn]) v hv
        exact ⟨y, hfind _ _ b1, b2⟩
      · have hall : n ∈ M1.all := by
          rcases (after_all body M1 n).2 (w3.ssub n hst) with h | h
          · exact h
          · rcases hs4 n h hn with h' | h'
            · exact h'
            · rw [(w3.nleaf n hst).1] at h'; cases h'
        obtain ⟨e', he'⟩ := Option.isSome_iff_exists.1 ((wc.dom n).2 hall)
        have h5 := hfind _ _ he'
        have hx' : find (k.body g) rb.2 n = some (.var x) := hx
        rw [hx'] at h5
        cases h5
        exact hq.val n (by simp [hn]) ((after_stored body _ n hall).1 hst) x he'

end Verif.CGen
