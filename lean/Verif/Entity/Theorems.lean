import Verif.Entity.Model
import Mathlib.Data.List.Nodup

namespace Verif.Entity

/-- Invariants of histories. -/
theorem run_inv (Inv : World → List Op → Prop)
    (hstep : ∀ w ops op w', Inv w ops → step w op = some w' → Inv w' (ops ++ [op])) :
    ∀ (l : List Op) (w w' : World) (ops : List Op), Inv w ops → run l w = some w' → Inv w' (ops ++ l)
  | [], w, w', ops, h, hr => by cases hr; simpa using h
  | op :: l, w, w', ops, h, hr => by
    unfold run at hr
    cases hs : step w op with
    | none => rw [hs] at hr; cases hr
    | some w1 =>
      rw [hs] at hr
      have := run_inv Inv hstep l w1 w' (ops ++ [op]) (hstep w ops op w1 h hs) hr
      simpa using this

/-- Reading an entity, or an entity as it is made. -/
def ent (w : World) (e : ℕ) : Ent := w.ents[e]?.getD ⟨some 0, [], [], []⟩

theorem ent_upd {e : ℕ} {f : Ent → Option Ent} {w w' : World} (h : upd e f w = some w') :
    ∃ y, f (ent w e) = some y ∧ e < w.ents.length ∧ w'.ents.length = w.ents.length ∧
      w'.dyn = w.dyn ∧ w'.defaults = w.defaults ∧ w'.nodes = w.nodes ∧
      ∀ e', ent w' e' = if e' = e then y else ent w e' := by
  unfold upd at h
  cases hx : w.ents[e]? with
  | none => rw [hx] at h; cases h
  | some x =>
    rw [hx] at h
    simp only [] at h
    cases hy : f x with
    | none => rw [hy] at h; cases h
    | some y =>
      rw [hy] at h
      simp only [Option.some.injEq] at h
      have hlt : e < w.ents.length := by
        have := List.getElem?_eq_some_iff.1 hx
        exact this.1
      subst h
      refine ⟨y, by simp [ent, hx, hy], hlt, by simp, rfl, rfl, rfl, ?_⟩
      intro e'
      unfold ent
      by_cases he : e' = e
      · subst he; simp [hlt]
      · simp [he, List.getElem?_set_ne (Ne.symm he)]

/-- What a step does, entity by entity. -/
inductive Eff (w w' : World) : Op → Prop
  | entity : w'.ents.length = w.ents.length + 1 → w'.dyn = some w.ents.length →
      (∀ a, w'.defaults a = if a = w.ents.length then some 0 else w.defaults a) →
      w'.nodes = w.nodes → (∀ e, ent w' e = ent w e) → Eff w w' .entity
  | resume {e} : e < w.ents.length → w'.ents.length = w.ents.length → w'.dyn = some e →
      (∀ a, w'.defaults a = if a = e then (ent w e).stage else w.defaults a) →
      w'.nodes = w.nodes → (∀ e', ent w' e' = ent w e') → Eff w w' (.resume e)
  | start {e k} : e < w.ents.length → (ent w e).stage = some k → w'.ents.length = w.ents.length →
      w'.dyn = w.dyn → (∀ a, w'.defaults a = if a = e then some (k + 1) else w.defaults a) →
      w'.nodes = w.nodes →
      (∀ e', ent w' e' = if e' = e then { ent w e with stage := some (k + 1) } else ent w e') →
      Eff w w' (.start e)
  | setStage {e k} : e < w.ents.length → w'.ents.length = w.ents.length →
      w'.dyn = w.dyn → (∀ a, w'.defaults a = if a = e then k else w.defaults a) →
      w'.nodes = w.nodes →
      (∀ e', ent w' e' = if e' = e then { ent w e with stage := k } else ent w e') →
      Eff w w' (.setStage e k)
  | other {op} (e : ℕ) (y : Ent) : w'.ents.length = w.ents.length → w'.dyn = w.dyn →
      w'.defaults = w.defaults → w.nodes <+: w'.nodes → y.stage = (ent w e).stage →
      (∀ e', ent w' e' = if e' = e then y else ent w e') →
      (match op with
        | .node st => y = ent w e ∧ w'.nodes = w.nodes ++ [w.dyn.map fun a => st.getD (w.defaults a)]
        | .input e' n => e' = e ∧ y = { ent w e with args := (ent w e).args ++ [(n, w.nodes.length)],
                                                     argMap := put (ent w e).argMap n w.nodes.length }
        | .register e' n v => e' = e ∧ y = { ent w e with args := (ent w e).args ++ [(n, v)] }
        | .clear e' => e' = e ∧ y = { ent w e with args := [] }
        | .output e' n v => e' = e ∧ n ∉ (ent w e).outs.map Prod.fst ∧
            y = { ent w e with outs := put (ent w e).outs n v }
        | .setOutput e' n v => e' = e ∧ n ∈ (ent w e).outs.map Prod.fst ∧
            y = { ent w e with outs := put (ent w e).outs n v }
        | _ => False) → Eff w w' op

theorem setStage_eff {e : ℕ} {k : Option ℕ} {w w' : World} (h : setStage e k w = some w') :
    e < w.ents.length ∧ w'.ents.length = w.ents.length ∧
      w'.dyn = w.dyn ∧ (∀ a, w'.defaults a = if a = e then k else w.defaults a) ∧
      w'.nodes = w.nodes ∧
      (∀ e', ent w' e' = if e' = e then { ent w e with stage := k } else ent w e') := by
  unfold setStage at h
  cases hu : upd e (fun x => some { x with stage := k }) w with
  | none => rw [hu] at h; cases h
  | some w1 =>
    rw [hu] at h
    simp only [Option.some.injEq] at h
    obtain ⟨y, hy, h1, h2, h3, h4, h5, h6⟩ := ent_upd hu
    simp only [Option.some.injEq] at hy
    subst h
    refine ⟨h1, h2, h3, ?_, h5, ?_⟩
    · intro a; simp [h4]
    · intro e'; rw [hy]; exact h6 e'

theorem ent_addNode (st : Option (Option ℕ)) (w : World) (e : ℕ) : ent (addNode st w) e = ent w e := rfl

theorem step_eff {w w' : World} {op : Op} (h : step w op = some w') : Eff w w' op := by
  cases op with
  | entity =>
    simp only [step, Option.some.injEq] at h
    subst h
    refine .entity (by simp) rfl (fun _ => rfl) rfl ?_
    intro e
    unfold ent
    simp only []
    rcases Nat.lt_trichotomy e w.ents.length with hlt | heq | hgt
    · rw [List.getElem?_append_left hlt]
    · subst heq; simp
    · rw [List.getElem?_eq_none (by simp; omega), List.getElem?_eq_none (by omega)]
  | resume e =>
    simp only [step] at h
    cases hx : w.ents[e]? with
    | none => rw [hx] at h; cases h
    | some x =>
      rw [hx] at h
      simp only [Option.some.injEq] at h
      subst h
      exact .resume (List.getElem?_eq_some_iff.1 hx).1 rfl rfl (fun a => by simp [ent, hx]) rfl
        (fun _ => rfl)
  | start e =>
    simp only [step] at h
    cases hx : w.ents[e]? with
    | none => rw [hx] at h; cases h
    | some x =>
      rw [hx] at h
      simp only [] at h
      cases hk : x.stage with
      | none => rw [hk] at h; cases h
      | some k =>
        rw [hk] at h
        simp only [] at h
        obtain ⟨h1, h2, h3, h4, h5, h6⟩ := setStage_eff h
        exact .start h1 (by simp [ent, hx, hk]) h2 h3 h4 h5 h6
  | setStage e k =>
    obtain ⟨h1, h2, h3, h4, h5, h6⟩ := setStage_eff h
    exact .setStage h1 h2 h3 h4 h5 h6
  | node st =>
    simp only [step, Option.some.injEq] at h
    subst h
    refine .other 0 (ent w 0) rfl rfl rfl (List.prefix_append _ _) rfl ?_ ⟨rfl, rfl⟩
    intro e'
    rw [ent_addNode]
    by_cases he : e' = 0 <;> simp [he]
  | input e n =>
    simp only [step] at h
    obtain ⟨y, hy, h1, h2, h3, h4, h5, h6⟩ := ent_upd h
    simp only [ent_addNode, Option.some.injEq] at hy h6
    exact .other e y h2 h3 h4 (by rw [h5]; exact List.prefix_append _ _) (by rw [← hy]) h6 ⟨rfl, hy.symm⟩
  | register e n v =>
    simp only [step] at h
    obtain ⟨y, hy, h1, h2, h3, h4, h5, h6⟩ := ent_upd h
    simp only [Option.some.injEq] at hy h6
    exact .other e y h2 h3 h4 (by rw [h5]; exact List.prefix_refl _) (by rw [← hy]) h6 ⟨rfl, hy.symm⟩
  | clear e =>
    simp only [step] at h
    obtain ⟨y, hy, h1, h2, h3, h4, h5, h6⟩ := ent_upd h
    simp only [Option.some.injEq] at hy h6
    exact .other e y h2 h3 h4 (by rw [h5]; exact List.prefix_refl _) (by rw [← hy]) h6 ⟨rfl, hy.symm⟩
  | output e n v =>
    simp only [step] at h
    obtain ⟨y, hy, h1, h2, h3, h4, h5, h6⟩ := ent_upd h
    have hy : (if n ∈ (ent w e).outs.map Prod.fst then none
        else some { ent w e with outs := put (ent w e).outs n v }) = some y := hy
    simp only [ent_addNode] at h6
    by_cases hn : n ∈ (ent w e).outs.map Prod.fst
    · rw [if_pos hn] at hy; cases hy
    · rw [if_neg hn] at hy
      simp only [Option.some.injEq] at hy
      refine .other e y h2 h3 h4 ?_ (by rw [← hy]) h6 ⟨rfl, hn, hy.symm⟩
      rw [h5]
      simp only [addNode, List.append_assoc]
      exact List.prefix_append _ _
  | setOutput e n v =>
    simp only [step] at h
    obtain ⟨y, hy, h1, h2, h3, h4, h5, h6⟩ := ent_upd h
    by_cases hn : n ∈ (ent w e).outs.map Prod.fst
    · rw [if_pos hn] at hy
      simp only [Option.some.injEq] at hy
      exact .other e y h2 h3 h4 (by rw [h5]; exact List.prefix_refl _) (by rw [← hy]) h6 ⟨rfl, hn, hy.symm⟩
    · rw [if_neg hn] at hy; cases hy

/-- The fold of `active`. -/
def activeFold (ops : List Op) : ℕ × Option ℕ :=
  ops.foldl (fun (s : ℕ × Option ℕ) op => match op with
    | .entity => (s.1 + 1, some s.1)
    | .resume e => (s.1, some e)
    | _ => s) (0, none)

theorem activeFold_snoc (ops : List Op) (op : Op) : activeFold (ops ++ [op]) =
    match op with
    | .entity => ((activeFold ops).1 + 1, some (activeFold ops).1)
    | .resume e => ((activeFold ops).1, some e)
    | _ => activeFold ops := by
  simp only [activeFold, List.foldl_append, List.foldl_cons, List.foldl_nil]

/-- The invariant on stages. -/
theorem stages_inv (ops : List Op) (w : World) (h : run ops World.init = some w) :
    w.ents.length = entities ops ∧ (∀ e, (ent w e).stage = stageOf e ops) ∧
      (∀ e, e < w.ents.length → w.defaults e = (ent w e).stage) ∧
      (w.ents.length, w.dyn) = activeFold ops ∧ ∀ a, w.dyn = some a → a < w.ents.length := by
  have := run_inv (fun w ops => w.ents.length = entities ops ∧ (∀ e, (ent w e).stage = stageOf e ops) ∧
      (∀ e, e < w.ents.length → w.defaults e = (ent w e).stage) ∧
      (w.ents.length, w.dyn) = activeFold ops ∧ ∀ a, w.dyn = some a → a < w.ents.length) ?_ ops _ w []
    ⟨rfl, fun e => rfl, fun e he => absurd he (by simp [World.init]), rfl, fun a ha => by cases ha⟩ h
  · simpa using this
  · rintro w ops op w' ⟨i1, i2, i3, i4, i5⟩ hs
    have i1' : w.ents.length = ops.count .entity := i1
    cases step_eff hs with
    | entity h1 h2 h3 h4 h5 =>
      refine ⟨by simp [entities, h1, i1'], ?_, ?_,
        by rw [activeFold_snoc, ← i4, h1, h2], fun a ha => by rw [h2] at ha; cases ha; omega⟩
      · intro e; rw [h5, i2]; simp [stageOf]
      · intro e he
        rw [h3, h5]
        by_cases heq : e = w.ents.length
        · rw [if_pos heq]; subst heq; simp [ent]
        · rw [if_neg heq]; exact i3 e (by omega)
    | @resume e h0 h1 h2 h3 h4 h5 =>
      refine ⟨by simp [entities, h1, i1'], ?_, ?_,
        by rw [activeFold_snoc, ← i4, h1, h2], fun a ha => by rw [h2] at ha; cases ha; omega⟩
      · intro e'; rw [h5, i2]; simp [stageOf]
      · intro e' he'
        rw [h3, h5]
        by_cases he : e' = e
        · rw [if_pos he, he]
        · rw [if_neg he]; exact i3 e' (by omega)
    | @start e k h0 hk h1 h2 h3 h4 h5 =>
      refine ⟨by simp [entities, h1, i1'], ?_, ?_,
        by rw [activeFold_snoc, h1, h2]; exact i4, by rw [h1, h2]; exact i5⟩
      · intro e'
        rw [h5]
        simp only [stageOf, List.foldl_append, List.foldl_cons, List.foldl_nil]
        by_cases he : e' = e
        · subst he
          rw [if_pos rfl, if_pos rfl]
          have := i2 e'
          rw [hk] at this
          unfold stageOf at this
          rw [← this]; rfl
        · rw [if_neg he, if_neg (Ne.symm he)]; exact i2 e'
      · intro e' he'
        rw [h3, h5]
        by_cases he : e' = e
        · rw [if_pos he, if_pos he]
        · rw [if_neg he, if_neg he]; exact i3 e' (by omega)
    | @setStage e k h0 h1 h2 h3 h4 h5 =>
      refine ⟨by simp [entities, h1, i1'], ?_, ?_,
        by rw [activeFold_snoc, h1, h2]; exact i4, by rw [h1, h2]; exact i5⟩
      · intro e'
        rw [h5]
        simp only [stageOf, List.foldl_append, List.foldl_cons, List.foldl_nil]
        by_cases he : e' = e
        · subst he
          rw [if_pos rfl, if_pos rfl]
        · rw [if_neg he, if_neg (Ne.symm he)]; exact i2 e'
      · intro e' he'
        rw [h3, h5]
        by_cases he : e' = e
        · rw [if_pos he, if_pos he]
        · rw [if_neg he, if_neg he]; exact i3 e' (by omega)
    | other e y h1 h2 h3 h4 h5 h6 h7 =>
      have hst : ∀ e', (ent w' e').stage = (ent w e').stage := by
        intro e'
        rw [h6]
        by_cases he : e' = e
        · rw [if_pos he, h5, he]
        · rw [if_neg he]
      have hcount : entities (ops ++ [op]) = entities ops := by
        cases op <;> simp [entities] at h7 ⊢
      have hact : activeFold (ops ++ [op]) = activeFold ops := by
        rw [activeFold_snoc]
        cases op <;> simp at h7 ⊢
      have hstage : ∀ e', stageOf e' (ops ++ [op]) = stageOf e' ops := by
        intro e'
        cases op <;> simp [stageOf] at h7 ⊢
      exact ⟨by rw [h1, hcount]; exact i1, fun e' => by rw [hst, i2, hstage],
        fun e' he' => by rw [h3, hst]; exact i3 e' (by omega),
        by rw [h1, h2, hact]; exact i4, by rw [h1, h2]; exact i5⟩

theorem run_append : ∀ (l : List Op) (op : Op) (w0 w1 : World), run l w0 = some w1 →
    run (l ++ [op]) w0 = step w1 op
  | [], op, w0, w1, hr => by
    cases hr
    simp only [List.nil_append, run]
    cases step w0 op <;> rfl
  | op' :: l, op, w0, w1, hr => by
    simp only [run, List.cons_append] at hr ⊢
    cases hs : step w0 op' with
    | none => rw [hs] at hr; cases hr
    | some w2 => rw [hs] at hr; exact run_append l op w2 w1 hr

/-- **C138**: a node gets the current stage of the entity which was made, or has resumed,
last: the number of stages this entity has started since its stage was last set.  A stage
which is given is taken. -/
theorem C138_stage (ops : List Op) (given : Option (Option ℕ)) (w : World) (e : ℕ)
    (h : run ops World.init = some w) (he : active ops = some e) :
    ∃ w', run (ops ++ [.node given]) World.init = some w' ∧
      w'.nodes = w.nodes ++ [some (given.getD (stageOf e ops))] := by
  obtain ⟨i1, i2, i3, i4, i5⟩ := stages_inv ops w h
  have hd : w.dyn = some e := by
    have : (activeFold ops).2 = some e := he
    rw [← i4] at this; exact this
  refine ⟨addNode given w, run_append ops _ _ w h, ?_⟩
  unfold addNode
  simp only [hd, Option.map_some]
  rw [i3 e (i5 e hd), i2]

/-- **C138**: with a single entity, and no stage set, a node is in the stage whose number
is the number of stages started before it. -/
theorem C138_single (l : List Op) (w : World) (h : run (.entity :: l) World.init = some w)
    (hl : ∀ op ∈ l, op ≠ .entity ∧ ∀ e k, op ≠ .setStage e k) :
    ∃ w', run (.entity :: l ++ [.node none]) World.init = some w' ∧
      w'.nodes = w.nodes ++ [some (some (l.count (.start 0)))] := by
  have hlen : entities (.entity :: l) = 1 := by
    unfold entities
    rw [List.count_cons, List.count_eq_zero.2 (fun hm => (hl _ hm).1 rfl)]
    simp
  have hst : ∀ (l : List Op), (∀ op ∈ l, op ≠ .entity ∧ ∀ e k, op ≠ .setStage e k) → ∀ s : ℕ,
      l.foldl (fun s op => match op with
        | .start e' => if e' = 0 then s.map (· + 1) else s
        | .setStage e' k => if e' = 0 then k else s
        | _ => s) (some s) = some (s + l.count (.start 0)) := by
    intro l
    induction l with
    | nil => intro _ s; rfl
    | cons op l ih =>
      intro hl s
      have ih' := ih (fun o ho => hl o (List.mem_cons_of_mem _ ho))
      rw [List.foldl_cons, List.count_cons]
      cases op with
      | setStage e k => exact absurd rfl ((hl _ (by simp)).2 e k)
      | start e =>
        by_cases he : e = 0
        · subst he
          simp only [if_true, Option.map_some]
          rw [ih']; simp; omega
        · simp only [if_neg he]
          rw [ih']; simp [he]
      | _ => simp only []; rw [ih']; simp
  obtain ⟨i1, i2, i3, i4, i5⟩ := stages_inv _ w h
  have hact : active (.entity :: l) = some 0 := by
    have hne : ∀ (l : List Op) (c : ℕ), (l.foldl (fun (s : ℕ × Option ℕ) op => match op with
      | .entity => (s.1 + 1, some s.1)
      | .resume e => (s.1, some e)
      | _ => s) (c, some 0)).2 ≠ none := by
      intro l
      suffices ∀ (s : ℕ × Option ℕ), s.2 ≠ none → (l.foldl (fun (s : ℕ × Option ℕ) op => match op with
          | .entity => (s.1 + 1, some s.1)
          | .resume e => (s.1, some e)
          | _ => s) s).2 ≠ none from fun c => this (c, some 0) (by simp)
      induction l with
      | nil => intro s hs; exact hs
      | cons op l ih =>
        intro s hs
        rw [List.foldl_cons]
        apply ih
        cases op <;> simp [hs]
    cases ha : active (.entity :: l) with
    | none => exact absurd ha (hne l 1)
    | some a =>
      have hd : w.dyn = some a := by
        have : (activeFold (.entity :: l)).2 = some a := ha
        rw [← i4] at this; exact this
      have := i5 a hd
      rw [i1, hlen] at this
      rw [show a = 0 by omega]
  obtain ⟨w', h1, h2⟩ := C138_stage _ none w 0 h hact
  refine ⟨w', h1, ?_⟩
  rw [h2]
  have := hst l hl 0
  have h0 : stageOf 0 (.entity :: l) = some (l.count (.start 0)) := by
    rw [Nat.zero_add] at this
    exact this
  simp [h0]

/-- **C138**: the stage of a node never changes afterwards, whatever the entities do. -/
theorem C138_stage_kept (ops more : List Op) (w w' : World) (h : run ops World.init = some w)
    (h' : run more w = some w') : w.nodes <+: w'.nodes := by
  have := run_inv (fun v _ => w.nodes <+: v.nodes) ?_ more w w' [] (List.prefix_refl _) h'
  · exact this
  · intro v _ op v' hi hs
    cases step_eff hs with
    | entity _ _ _ h4 _ => rw [h4]; exact hi
    | resume _ _ _ _ h4 _ => rw [h4]; exact hi
    | start _ _ _ _ _ h4 _ => rw [h4]; exact hi
    | setStage _ _ _ _ h4 _ => rw [h4]; exact hi
    | other _ _ _ _ _ h4 _ _ _ => exact hi.trans h4

/-- After a second entity is made, starting a stage of the first has no effect on the
nodes made next: the node is in stage 0 although the first entity is in stage 2. -/
theorem C138_stage_wrong : ∃ (ops : List Op) (w : World),
    run (ops ++ [.node none]) World.init = some w ∧ stageOf 0 ops = some 2 ∧
    w.nodes.getLast? = some (some (some 0)) :=
  ⟨[.entity, .start 0, .entity, .start 0], _, rfl, by decide, rfl⟩

/-- A node made before the first entity has no stage at all. -/
theorem C138_no_stage_wrong : ∃ (ops : List Op) (w : World),
    run ops World.init = some w ∧ 0 < entities ops ∧ none ∈ w.nodes :=
  ⟨[.node (some (some 1)), .entity], _, rfl, by decide, by decide⟩

/-! ### Ports -/

theorem put_keys (l : List (ℕ × ℕ)) (n v : ℕ) :
    (put l n v).map Prod.fst = if n ∈ l.map Prod.fst then l.map Prod.fst else l.map Prod.fst ++ [n] := by
  unfold put
  split
  · rw [List.map_map]
    apply List.map_congr_left
    intro p _
    simp only [Function.comp]
    split
    · rename_i h; exact h.symm
    · rfl
  · simp

theorem get_put (l : List (ℕ × ℕ)) (n v m : ℕ) :
    get (put l n v) m = if n = m then some v else get l m := by
  unfold put
  split
  · rename_i hn
    induction l with
    | nil => cases hn
    | cons p l ih =>
      simp only [List.map_cons, get, List.find?_cons]
      by_cases hp : p.1 = n
      · simp only [hp, if_true]
        by_cases hm : n = m
        · simp [hm]
        · simp only [hm, if_false, decide_false]
          by_cases hn' : n ∈ l.map Prod.fst
          · have := ih hn'
            rw [if_neg hm] at this
            exact this
          · have : l.map (fun p => if p.1 = n then (n, v) else p) = l := by
              conv => rhs; rw [← List.map_id l]
              apply List.map_congr_left
              intro q hq
              rw [if_neg]
              · rfl
              · intro h; exact hn' (h ▸ List.mem_map_of_mem hq)
            rw [this]
      · have hn' : n ∈ l.map Prod.fst := by
          rcases List.mem_cons.1 hn with h | h
          · exact absurd h.symm hp
          · exact h
        simp only [hp, if_false]
        by_cases hm : p.1 = m
        · have : ¬ n = m := fun h => hp (hm.trans h.symm)
          simp [hm, this]
        · simp only [hm, decide_false]
          exact ih hn'
  · rename_i hn
    unfold get
    rw [List.find?_append]
    by_cases hm : n = m
    · subst hm
      have : (l.find? fun p => decide (p.1 = n)) = none := by
        rw [List.find?_eq_none]
        intro p hp h
        exact hn ((of_decide_eq_true h) ▸ List.mem_map_of_mem hp)
      simp [this]
    · simp [hm]

theorem ports_inv (ops : List Op) (w : World) (h : run ops World.init = some w) :
    ∀ e, (ent w e).args.map Prod.fst = inNames e ops ∧
      (ent w e).outs.map Prod.fst = outNames e ops ∧ (outNames e ops).Nodup ∧
      ∀ n, get (ent w e).outs n = valueOf e n ops := by
  have := run_inv (fun w ops => ∀ e, (ent w e).args.map Prod.fst = inNames e ops ∧
      (ent w e).outs.map Prod.fst = outNames e ops ∧ (outNames e ops).Nodup ∧
      ∀ n, get (ent w e).outs n = valueOf e n ops) ?_ ops _ w []
    (fun e => ⟨rfl, rfl, List.nodup_nil, fun _ => rfl⟩) h
  · simpa using this
  · intro w ops op w' hi hs e'
    obtain ⟨i1, i2, i3, i4⟩ := hi e'
    cases step_eff hs with
    | entity h1 h2 h3 h4 h5 =>
      rw [h5]
      simpa [inNames, outNames, valueOf] using ⟨i1, i2, i3, i4⟩
    | resume h0 h1 h2 h3 h4 h5 =>
      rw [h5]
      simpa [inNames, outNames, valueOf] using ⟨i1, i2, i3, i4⟩
    | @start e k h0 hk h1 h2 h3 h4 h5 =>
      rw [h5]
      by_cases he : e' = e
      · subst he; rw [if_pos rfl]; simpa [inNames, outNames, valueOf] using ⟨i1, i2, i3, i4⟩
      · rw [if_neg he]; simpa [inNames, outNames, valueOf] using ⟨i1, i2, i3, i4⟩
    | @setStage e k h0 h1 h2 h3 h4 h5 =>
      rw [h5]
      by_cases he : e' = e
      · subst he; rw [if_pos rfl]; simpa [inNames, outNames, valueOf] using ⟨i1, i2, i3, i4⟩
      · rw [if_neg he]; simpa [inNames, outNames, valueOf] using ⟨i1, i2, i3, i4⟩
    | other e y h1 h2 h3 h4 h5 h6 h7 =>
      rw [h6]
      unfold inNames at i1 ⊢
      unfold outNames at i2 i3 ⊢
      unfold valueOf at i4 ⊢
      simp only [List.foldl_append, List.foldl_cons, List.foldl_nil]
      cases op with
      | entity => exact h7.elim
      | start _ => exact h7.elim
      | resume _ => exact h7.elim
      | setStage _ _ => exact h7.elim
      | node st =>
        by_cases he : e' = e
        · subst he; rw [if_pos rfl, h7.1]; exact ⟨i1, i2, i3, i4⟩
        · rw [if_neg he]; exact ⟨i1, i2, i3, i4⟩
      | input a n =>
        obtain ⟨rfl, rfl⟩ := h7
        by_cases he : e' = a
        · subst he; simp only [if_true]; exact ⟨by simp [i1], i2, i3, i4⟩
        · simp only [if_neg he, if_neg (Ne.symm he)]; exact ⟨i1, i2, i3, i4⟩
      | register a n v =>
        obtain ⟨rfl, rfl⟩ := h7
        by_cases he : e' = a
        · subst he; simp only [if_true]; exact ⟨by simp [i1], i2, i3, i4⟩
        · simp only [if_neg he, if_neg (Ne.symm he)]; exact ⟨i1, i2, i3, i4⟩
      | clear a =>
        obtain ⟨rfl, rfl⟩ := h7
        by_cases he : e' = a
        · subst he; simp only [if_true]; exact ⟨rfl, i2, i3, i4⟩
        · simp only [if_neg he, if_neg (Ne.symm he)]; exact ⟨i1, i2, i3, i4⟩
      | output a n v =>
        obtain ⟨rfl, hn, rfl⟩ := h7
        by_cases he : e' = a
        · subst he
          simp only [if_true]
          refine ⟨i1, by rw [put_keys, if_neg hn, i2], ?_, fun m => ?_⟩
          · rw [← i2] at i3 ⊢
            exact List.nodup_append.2 ⟨i3, by simp, by
              intro a ha b hb hab
              simp at hb
              exact hn (by rw [← hb, ← hab]; exact ha)⟩
          · rw [get_put, i4]; simp
        · simp only [if_neg he, if_neg (Ne.symm he)]
          exact ⟨i1, i2, i3, fun m => by simp [Ne.symm he, i4]⟩
      | setOutput a n v =>
        obtain ⟨rfl, hn, rfl⟩ := h7
        by_cases he : e' = a
        · subst he
          simp only [if_true]
          refine ⟨i1, by rw [put_keys, if_pos hn, i2], i3, fun m => ?_⟩
          rw [get_put, i4]; simp
        · simp only [if_neg he, if_neg (Ne.symm he)]
          exact ⟨i1, i2, i3, fun m => by simp [Ne.symm he, i4]⟩

theorem ent_of {w : World} {e : ℕ} {x : Ent} (h : w.ents[e]? = some x) : ent w e = x := by
  simp [ent, h]

/-- **C138**: the declaration of an entity lists its inputs, then its outputs, in the
order in which they were added; an output has the value last given to it; the names of
the outputs are distinct. -/
theorem C138_ports (ops : List Op) (w : World) (h : run ops World.init = some w) (e : ℕ) (x : Ent)
    (hx : w.ents[e]? = some x) :
    ports x = inNames e ops ++ outNames e ops ∧ (outNames e ops).Nodup ∧
      ∀ n, get x.outs n = valueOf e n ops := by
  obtain ⟨h1, h2, h3, h4⟩ := ports_inv ops w h e
  rw [ent_of hx] at h1 h2 h4
  exact ⟨by rw [ports, h1, h2], h3, h4⟩

/-- **C138**: no two ports have the same name when the inputs are given distinct names,
different from those of the outputs.
What is missing: C138_same_name_wrong. -/
theorem C138_names_partial (ops : List Op) (w : World) (h : run ops World.init = some w) (e : ℕ)
    (x : Ent) (hx : w.ents[e]? = some x) (hin : (inNames e ops).Nodup)
    (hio : ∀ n ∈ inNames e ops, n ∉ outNames e ops) : (ports x).Nodup := by
  obtain ⟨h1, h2, _⟩ := C138_ports ops w h e x hx
  rw [h1]
  exact List.nodup_append.2 ⟨hin, h2, fun a ha b hb hab => hio a ha (hab ▸ hb)⟩

/-- Two inputs, or an input and an output, can be given the same name: the declaration
then has two ports of the same name. -/
theorem C138_same_name_wrong : ∃ (ops ops' : List Op) (w w' : World) (x x' : Ent),
    run ops World.init = some w ∧ w.ents[0]? = some x ∧ ports x = [7, 7] ∧
    run ops' World.init = some w' ∧ w'.ents[0]? = some x' ∧ ports x' = [7, 7] ∧
    outNames 0 ops = [] ∧ outNames 0 ops' = [7] :=
  ⟨[.entity, .input 0 7, .input 0 7], [.entity, .input 0 7, .output 0 7 0], _, _, _, _, rfl, rfl, rfl,
    rfl, rfl, rfl, rfl, rfl⟩

/-- **C138**: every port name is reserved, so that no internal signal is given it, as long
as inputs are made by the entity itself.
What is missing: C138_reserved_wrong. -/
theorem C138_reserved_partial (ops : List Op) (w : World) (h : run ops World.init = some w) (e : ℕ)
    (x : Ent) (hx : w.ents[e]? = some x) (hreg : ∀ n v, Op.register e n v ∉ ops) :
    ∀ n ∈ ports x, n ∈ reserved x := by
  have := run_inv (fun w ops => (∀ n v, Op.register e n v ∉ ops) →
    ∀ n ∈ (ent w e).args.map Prod.fst, n ∈ (ent w e).argMap.map Prod.fst) ?_ ops _ w []
    (fun _ n hn => by cases hn) h (by simpa using hreg)
  · rw [ent_of hx] at this
    intro n hn
    rcases List.mem_append.1 hn with hn | hn
    · exact List.mem_append.2 (Or.inl (this n hn))
    · exact List.mem_append.2 (Or.inr hn)
  · intro w ops op w' hi hs hr
    have hi' := hi (fun n v hm => hr n v (List.mem_append.2 (Or.inl hm)))
    cases step_eff hs with
    | entity h1 h2 h3 h4 h5 => rw [h5]; exact hi'
    | resume h0 h1 h2 h3 h4 h5 => rw [h5]; exact hi'
    | @start a k h0 hk h1 h2 h3 h4 h5 =>
      rw [h5]
      by_cases he : e = a
      · subst he; rw [if_pos rfl]; exact hi'
      · rw [if_neg he]; exact hi'
    | @setStage a k h0 h1 h2 h3 h4 h5 =>
      rw [h5]
      by_cases he : e = a
      · subst he; rw [if_pos rfl]; exact hi'
      · rw [if_neg he]; exact hi'
    | other a y h1 h2 h3 h4 h5 h6 h7 =>
      rw [h6]
      by_cases he : e = a
      · subst he
        rw [if_pos rfl]
        cases op with
        | entity => exact h7.elim
        | start _ => exact h7.elim
        | resume _ => exact h7.elim
        | setStage _ _ => exact h7.elim
        | node st => rw [h7.1]; exact hi'
        | input b n =>
          obtain ⟨_, rfl⟩ := h7
          intro m hm
          simp only [List.map_append, List.mem_append] at hm
          simp only []
          rw [put_keys]
          rcases hm with hm | hm
          · split
            · exact hi' m hm
            · exact List.mem_append.2 (Or.inl (hi' m hm))
          · simp at hm
            subst hm
            split
            · assumption
            · simp
        | register b n v =>
          obtain ⟨rfl, rfl⟩ := h7
          exact absurd (List.mem_append.2 (Or.inr (by simp))) (hr n v)
        | clear b => obtain ⟨_, rfl⟩ := h7; intro m hm; cases hm
        | output b n v => obtain ⟨_, _, rfl⟩ := h7; exact hi'
        | setOutput b n v => obtain ⟨_, _, rfl⟩ := h7; exact hi'
      · rw [if_neg he]; exact hi'

/-- The name of an input registered from outside is not reserved. -/
theorem C138_reserved_wrong : ∃ (ops : List Op) (w : World) (x : Ent),
    run ops World.init = some w ∧ w.ents[0]? = some x ∧ 7 ∈ ports x ∧ 7 ∉ reserved x :=
  ⟨[.entity, .node none, .register 0 7 0], _, _, rfl, rfl, by decide, by decide⟩

/-! ### Cases -/

def demo : List Op := [.entity, .input 0 1, .input 0 2, .start 0, .node none, .output 0 3 2,
  .start 0, .node none, .setOutput 0 3 5]
example : (run demo World.init).map (fun w => w.nodes) = some [some (some 0), some (some 0),
    some (some 1), some (some 1), some (some 1), some (some 2)] := by decide
example : entities demo = 1 ∧ stageOf 0 demo = some 2 ∧ inNames 0 demo = [1, 2] ∧
    outNames 0 demo = [3] ∧ valueOf 0 3 demo = some 5 := by decide
example : active [.entity, .start 0, .entity, .start 1, .resume 0, .start 0] = some 0 ∧
    stageOf 0 [.entity, .start 0, .entity, .start 1, .resume 0, .start 0] = some 2 := by decide
example : (run (demo ++ [.output 0 3 1]) World.init).isNone := by decide
example : ∀ n v, Op.register 0 n v ∉ demo := by intro n v h; simp [demo] at h

end Verif.Entity
