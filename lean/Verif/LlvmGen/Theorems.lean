import Verif.LlvmGen.Sim
import Verif.Llvm.Theorems

/-! # Theorems about the LLVM-IR code generator (property C114) -/

namespace Verif.LlvmGen

open Verif.Lin (E Reg Opnd eval_congr)

variable {V : Type}

theorem progOps_closed (P : Prog V) : Closed (progOps P) := by
  intro a ha c hc
  simp only [progOps, List.mem_flatMap, Block.ops, List.mem_append] at ha ⊢
  obtain ⟨p, hp, ha⟩ := ha
  refine ⟨p, hp, ?_⟩
  rcases ha with ha | ha
  · exact Or.inl (bodyOps_closed _ a ha c hc)
  · exact Or.inr (ops_trans.2 _ a ha c hc)

theorem init_free : St.init.Free := ⟨(by intro i k h; cases h), (by intro i j k h; cases h)⟩

theorem sim (truth : V → Bool) (addz : V → V) (ok : V → Prop) (hz : ∀ c, ok c → addz c = c) (P : Prog V) (A : ℕ → E V → Prop)
    (hC : Consistent P) (hS : SSA P) (hA : Available P A) (hR : Reused P A) (hF : Fresh P ok) :
    ∀ (n pred b : ℕ) (env : ℕ → V) (σ : Reg → V), (∀ x, σ (.v x) = env x) → Inv (· ∈ progOps P) (genP addz P St.init).1.memo (A b) env σ →
      runT truth (generate addz P) n pred b σ = (run truth P n pred b env).map Out.text := by
  obtain ⟨M, hMdef⟩ : ∃ M, M = (genP addz P St.init).1.memo := ⟨_, rfl⟩
  rw [← hMdef]
  have hU : ∀ a b : E V, a ∈ progOps P → b ∈ progOps P → a.idOf = b.idOf → a = b := fun a b ha hb => hC a ha b hb
  have hMt : ∀ i j k, M i = some (.t k) → M j = some (.t k) → i = j := by rw [hMdef]; exact (genP_free addz P _ init_free).2
  have hMv : ∀ i x, M i = some (.v x) → ∃ p ∈ P, ∃ f args, (x, E.op i f args) ∈ p.2.body := by
    rw [hMdef]
    exact genP_vars addz (fun x i => ∃ p ∈ P, ∃ f args, (x, E.op i f args) ∈ p.2.body) P St.init (fun i x h => by cases h)
      (fun p hp x i f args h => ⟨p, hp, f, args, h⟩)
  intro n
  induction n with
  | zero => intro pred b env σ _ _; rfl
  | succ n ih =>
    intro pred b env σ hv hI
    cases hb : blockOf P b with
    | none =>
      have hq : (generate addz P).find? (fun x => x.1 == b) = none := by
        rw [List.find?_eq_none]
        intro x hx
        have : x.1 ∈ P.map Prod.fst := by rw [← genP_labels addz P St.init]; exact List.mem_map.mpr ⟨x, hx, rfl⟩
        obtain ⟨y, hy, hxy⟩ := List.mem_map.mp this
        simp only [blockOf, Option.map_eq_none_iff, List.find?_eq_none] at hb
        rw [← hxy]
        exact hb y hy
      simp only [runT, run, hb, hq, Option.map_none, Option.map_some, Out.text]
    | some B =>
      simp only [blockOf, Option.map_eq_some_iff] at hb
      obtain ⟨⟨b', B'⟩, hf, rfl⟩ := hb
      have hf0 := hf
      rw [List.find?_eq_some_iff_append] at hf
      obtain ⟨hbb, before, later, hP, hne⟩ := hf
      have hbb' : b' = b := by simpa using hbb
      subst hbb'
      have hmem : (b', B') ∈ P := by rw [hP]; simp
      -- the text of the block
      obtain ⟨S, hSd⟩ : ∃ S, S = (genP addz before St.init).1 := ⟨_, rfl⟩
      have hgen : genP addz P St.init = ((genP addz later (genB addz B' S).1).1,
          (genP addz before St.init).2 ++ (b', (genB addz B' S).2) :: (genP addz later (genB addz B' S).1).2) := by
        rw [hP, genP_append, genP_cons, hSd]
      have hq : (generate addz P).find? (fun x => x.1 == b') = some (b', (genB addz B' S).2) := by
        unfold generate
        rw [hgen, List.find?_append, List.find?_eq_none.mpr]
        · simp
        · intro x hx
          have : x.1 ∈ before.map Prod.fst := by rw [← genP_labels addz before St.init]; exact List.mem_map.mpr ⟨x, hx, rfl⟩
          obtain ⟨y, hy, hxy⟩ := List.mem_map.mp this
          rw [← hxy]
          simpa using hne y hy
      have hMB : ∀ i r, (genB addz B' S).1.memo i = some r → M i = some r := by
        intro i r hi
        rw [hMdef, hgen]
        exact (genP_grow addz later _).keep i r hi
      have hK : Knows S (progOps before) := by
        intro i r hi
        rw [hSd] at hi
        rcases (genP_grow addz before St.init).new i r hi with h | h
        · cases h
        · exact h
      have hUb : ∀ a ∈ progOps before, a ∈ progOps P := by
        intro a ha
        rw [hP]; simp only [progOps, List.flatMap_append, List.mem_append] at ha ⊢
        exact Or.inl ha
      have hUB : ∀ a ∈ B'.ops, a ∈ progOps P := by
        intro a ha
        exact List.mem_flatMap.mpr ⟨_, hmem, ha⟩
      obtain ⟨hR1, hR2⟩ := hR before b' B' later hP
      have hF1 := hF before b' B' later hP
      have hrun : blockOf P b' = some B' := by simp [blockOf, hf0]
      simp only [runT, run, hrun, hq, Option.map_some]
      have hphi := exPhis_sound pred env σ hv B'.phis env σ hv
      rw [genB_eq]
      simp only
      cases hp : runPhis pred env B'.phis env with
      | error x =>
        rw [hp] at hphi
        simp only at hphi
        rw [hphi]
        rfl
      | ok env1 =>
        rw [hp] at hphi
        simp only at hphi
        obtain ⟨σ1, h1, h2, h3, h4⟩ := hphi
        rw [h1]
        simp only
        -- after the phi nodes
        have hI1 : Inv (· ∈ progOps P) M (availPhis (A b') B'.phis) env1 σ1 := by
          intro i f args hUi hW
          obtain ⟨r, hr, hvr⟩ := hI i f args hUi hW.1
          refine ⟨r, hr, ?_⟩
          rw [(eval_congr env1 env).1 (.op i f args) (fun y hy => h4 y (by rintro p hp rfl; exact hW.2 p hp hy)), ← hvr]
          cases r with
          | t k => exact h3 k
          | v x =>
            rw [h2, hv, h4]
            rintro p hp rfl
            obtain ⟨q, hq, g, as, hbody⟩ := hMv i _ hr
            have := ssa_unique hS (mem_places_body hq hbody) (mem_places_phi hmem hp)
            cases this
        -- after the body
        have hSx : ∀ x e, (x, e) ∈ B'.body → ∀ i, M i = some (.v x) → e.idOf = some i := by
          intro x e he i hi
          obtain ⟨q, hq, g, as, hbody⟩ := hMv i _ hi
          have := ssa_unique hS (mem_places_body hq hbody) (mem_places_body hmem he)
          injection this with this
          rw [← this]; rfl
        have gT := gen_grow.2 B'.term.exprs (genBody addz B'.body S).1
        have hMb : ∀ i r, (genBody addz B'.body S).1.memo i = some r → M i = some r := by
          intro i r hi
          refine hMB i r ?_
          rw [genB_eq]
          simp only [(genT_eq _ _).1]
          exact gT.keep i r hi
        obtain ⟨k1, k2⟩ := body_sound addz ok hz hU hMt B'.body S (progOps before) (availPhis (A b') B'.phis) env1 σ1
          (fun a ha => hUB a (List.mem_append.mpr (Or.inl ha))) hUb (progOps_closed before) hK hSx hR1 hF1 hI1 h2 hMb
        -- the end
        have hMt' : ∀ i r, (genL B'.term.exprs (genBody addz B'.body S).1).1.memo i = some r → M i = some r := by
          intro i r hi
          refine hMB i r ?_
          rw [genB_eq]
          simp only [(genT_eq _ _).1]
          exact hi
        obtain ⟨l1, l2, l3⟩ := (gen_sound hU hMt).2 B'.term.exprs (genBody addz B'.body S).1 (progOps before ++ bodyOps B'.body)
          (availBody (availPhis (A b') B'.phis) B'.body) (exI (genBody addz B'.body S).2 σ1)
          (fun a ha => hUB a (List.mem_append.mpr (Or.inr ha)))
          (fun a ha => by
            rcases List.mem_append.mp ha with ha | ha
            · exact hUb a ha
            · exact hUB a (List.mem_append.mpr (Or.inl ha)))
          ((progOps_closed before).append (bodyOps_closed _)) (hK.grow (genBody_grow addz B'.body S)) hR2 k1 k2 hMt'
        have hexT : exT truth (exI ((genBody addz B'.body S).2 ++ (genT B'.term (genBody addz B'.body S).1).2.1) σ1) (genT B'.term (genBody addz B'.body S).1).2.2
            = runTerm truth (runBody B'.body env1) B'.term := by
          refine exT_sound truth B'.term _ _ _ ?_
          rw [exI_append, (genT_eq _ _).2]
          exact l3 _ (l1.mono (fun a h => Or.inr h)) l2
        rw [hexT]
        cases ht : runTerm truth (runBody B'.body env1) B'.term with
        | inl v => rfl
        | inr d =>
          simp only
          refine ih b' d _ _ ?_ ?_
          · intro x
            rw [exI_append, (genT_eq _ _).2]
            exact l2 x
          · rw [exI_append, (genT_eq _ _).2]
            refine l1.mono ?_
            intro a ha
            have hd : d ∈ B'.term.succs := by
              generalize B'.term = t at ht
              cases t with
              | br c => simp only [runTerm] at ht; cases ht; simp [Term.succs]
              | cbr c y z =>
                simp only [runTerm] at ht
                cases ht
                by_cases htr : truth (E.eval (runBody B'.body env1) c) = true
                · rw [if_pos htr]; simp [Term.succs]
                · rw [if_neg htr]; simp [Term.succs]
              | ret e => simp [runTerm] at ht
            exact hA.2 (b', B') hmem d hd a ha

/-- **C114**.  The LLVM-IR text of a function in static single assignment form does what its blocks do: for every function whose assigned values are operations met for the first
time in the text (or constants that the addition of zero keeps), and that meets again a node already generated only where the node is available, every run of the text, from the
entry and with the same values of the variables, goes on, ends and returns as the run of the blocks does.  Partial: copies of variables, nodes assigned to two variables, constants
`-0` and nodes shared by blocks that do not follow one another are not covered; the text is wrong there, see below. -/
theorem C114_text_partial (truth : V → Bool) (addz : V → V) (ok : V → Prop) (hz : ∀ c, ok c → addz c = c) (P : Prog V) (A : ℕ → E V → Prop)
    (hC : Consistent P) (hS : SSA P) (hA : Available P A) (hR : Reused P A) (hF : Fresh P ok) (entry : ℕ) (B : Block V) (P' : Prog V) (hP : P = (entry, B) :: P')
    (n pred : ℕ) (env : ℕ → V) (σ : Reg → V) (hσ : ∀ x, σ (.v x) = env x) :
    runT truth (generate addz P) n pred entry σ = (run truth P n pred entry env).map Out.text :=
  sim truth addz ok hz P A hC hS hA hR hF n pred entry env σ hσ (fun i f args _ h => absurd h (hA.1 (entry, B) (by rw [hP]; rfl) _))

/-! ## Single assignment of the text -/

/-- registers defined once, free names from `lo` to `hi`, variables of `T` -/
structure Rng (l : List Reg) (lo hi : ℕ) (T : List ℕ) : Prop where
  nd : l.Nodup
  t : ∀ k, Reg.t k ∈ l → lo ≤ k ∧ k < hi
  v : ∀ x, Reg.v x ∈ l → x ∈ T

theorem Rng.nil (lo hi : ℕ) (T : List ℕ) : Rng [] lo hi T := ⟨List.nodup_nil, (by intro k h; cases h), (by intro k h; cases h)⟩

theorem Rng.append {c d : List Reg} {lo mid hi : ℕ} {T T' : List ℕ} (h : Rng c lo mid T) (h' : Rng d mid hi T') (h1 : lo ≤ mid) (h2 : mid ≤ hi) (hT : T.Disjoint T') :
    Rng (c ++ d) lo hi (T ++ T') := by
  refine ⟨List.nodup_append'.mpr ⟨h.nd, h'.nd, ?_⟩, ?_, ?_⟩
  · intro r hc hd
    cases r with
    | t k => have := h.t k hc; have := h'.t k hd; omega
    | v x => exact hT (h.v x hc) (h'.v x hd)
  · intro k hk
    rcases List.mem_append.mp hk with hk | hk
    · have := h.t k hk; omega
    · have := h'.t k hk; omega
  · intro x hx
    rcases List.mem_append.mp hx with hx | hx
    · exact List.mem_append.mpr (Or.inl (h.v x hx))
    · exact List.mem_append.mpr (Or.inr (h'.v x hx))

theorem Rng.mono {c : List Reg} {lo hi : ℕ} {T T' : List ℕ} (h : Rng c lo hi T) (hT : ∀ x ∈ T, x ∈ T') : Rng c lo hi T' := ⟨h.nd, h.t, fun x hx => hT x (h.v x hx)⟩

theorem gen_rng : (∀ e : E V, ∀ rv S, Rng ((gen e rv S).2.2.map Ins.r) S.next (gen e rv S).1.next rv.toList) ∧
    ∀ es : List (E V), ∀ S, Rng ((genL es S).2.2.map Ins.r) S.next (genL es S).1.next [] := by
  refine Verif.Lin.E.ind ?_ ?_ ?_ ?_ ?_
  · intro x rv S; exact Rng.nil _ _ _
  · intro x rv S; exact Rng.nil _ _ _
  · intro i f args ih rv S
    cases hm : S.memo i with
    | some r => rw [gen_op_some i f args rv S r hm]; exact Rng.nil _ _ _
    | none =>
      rw [gen_op_none i f args rv S hm]
      have h := ih S
      have g := (gen_grow.2 args S).next
      simp only [List.map_append, List.map_cons, List.map_nil]
      refine (Rng.append h (T' := rv.toList) (d := [name rv (genL args S).1.next]) (hi := (genL args S).1.next + 1) ⟨List.nodup_singleton _, ?_, ?_⟩ g (by omega) (by simp)).mono
        (by simp)
      · intro k hk
        cases rv with
        | none => simp only [name, List.mem_singleton, Reg.t.injEq] at hk; omega
        | some x => simp [name] at hk
      · intro x hx
        cases rv with
        | none => simp [name] at hx
        | some y => simp only [name, List.mem_singleton, Reg.v.injEq] at hx; simp [hx]
  · intro S; exact Rng.nil _ _ _
  · intro e es h1 h2 S
    rw [genL_cons]
    simp only [List.map_append]
    exact (Rng.append (h1 none S) (h2 _) (gen_grow.1 e none S).next (gen_grow.2 es _).next (by simp)).mono (by simp)

theorem genBody_rng (addz : V → V) : ∀ (l : List (ℕ × E V)) (S : St), (l.map Prod.fst).Nodup →
    Rng ((genBody addz l S).2.map Ins.r) S.next (genBody addz l S).1.next (l.map Prod.fst) := by
  intro l
  induction l with
  | nil => intro S _; exact Rng.nil _ _ _
  | cons p l ih =>
    intro S hnd
    obtain ⟨x, e⟩ := p
    rw [genBody_cons]
    simp only [List.map_cons, List.nodup_cons] at hnd
    have h1 : Rng ((genA addz x e S).2.map Ins.r) S.next (genA addz x e S).1.next [x] := by
      cases e with
      | cst c => exact ⟨by simp [genA], (by intro k hk; simp [genA] at hk), (by intro k hk; simpa [genA] using hk)⟩
      | var y => rw [genA_var]; exact Rng.nil _ _ _
      | op i f args => rw [genA_op]; exact gen_rng.1 _ (some x) S
    simp only [List.map_append, List.map_cons]
    exact h1.append (ih _ hnd.2) (genA_grow addz x e S).next (genBody_grow addz l _).next (by simpa using hnd.1)

theorem genB_rng (addz : V → V) (B : Block V) (S : St) (hn1 : B.targets.Nodup) :
    Rng ((genB addz B S).2.phis.map Prod.fst ++ (genB addz B S).2.code.map Ins.r) S.next (genB addz B S).1.next B.targets := by
  rw [genB_eq]
  simp only [(genT_eq _ _).1, (genT_eq _ _).2, List.map_map, List.map_append]
  simp only [Block.targets, List.nodup_append'] at hn1
  have hphi : Rng (B.phis.map (Prod.fst ∘ genPhi)) S.next S.next (B.phis.map Prod.fst) := by
    have hm : B.phis.map (Prod.fst ∘ genPhi) = (B.phis.map Prod.fst).map Reg.v := by simp [genPhi, Function.comp_def]
    rw [hm]
    refine ⟨hn1.1.map (fun a b h => Reg.v.inj h), (by intro k hk; simp at hk), (by intro x hx; simpa using hx)⟩
  refine hphi.append ?_ (le_refl _) ?_ hn1.2.2
  · exact (Rng.append (genBody_rng addz B.body S hn1.2.1) (gen_rng.2 _ _) (genBody_grow addz _ _).next (gen_grow.2 _ _).next (by simp)).mono (by simp)
  · exact le_trans (genBody_grow addz B.body S).next (gen_grow.2 _ _).next

theorem genP_rng (addz : V → V) : ∀ (P : Prog V) (S : St), (P.flatMap fun p => p.2.targets).Nodup →
    Rng (defs (genP addz P S).2) S.next (genP addz P S).1.next (P.flatMap fun p => p.2.targets) := by
  intro P
  induction P with
  | nil => intro S _; exact Rng.nil _ _ _
  | cons p P ih =>
    intro S hnd
    rw [genP_cons]
    simp only [defs, List.flatMap_cons]
    rw [List.flatMap_cons, List.nodup_append'] at hnd
    obtain ⟨hn1, hn2, hdis⟩ := hnd
    exact Rng.append (genB_rng addz p.2 S hn1) (ih _ hn2) (genB_grow addz p.2 S).next (genP_grow addz P _).next hdis

/-- **C114**.  The text of every function in static single assignment form defines each register at most once. -/
theorem C114_single_assignment (addz : V → V) (P : Prog V) (hS : SSA P) : (defs (generate addz P)).Nodup := (genP_rng addz P St.init hS).nd

/-! ## Non-vacuity: a loop with a phi node and a node shared by the blocks of the loop -/

/-- the condition is an integer that is not zero -/
def nz (v : ℤ) : Bool := v != 0

/-- node 0: `x2 - 1` -/
def dec : E ℤ := .op 0 (fun l => l.headD 0 - 1) [.var 2]

/-- block 0: `x1 = x0 + 5`, go to 1; block 1: `x2 = phi (x1, 0) (x3, 2)`, to block 2 if `x2 - 1` is not zero, else to block 3; block 2: `x3 = 1 * (x2 - 1)`, back to 1; block 3:
return `x2 - 1`. -/
def loopP : Prog ℤ := [(0, ⟨[], [(1, .op 1 (fun l => l.headD 0 + 5) [.var 0])], .br 1⟩), (1, ⟨[(2, [(1, 0), (3, 2)])], [], .cbr dec 2 3⟩),
  (2, ⟨[], [(3, .op 2 (fun l => l.headD 0) [dec])], .br 1⟩), (3, ⟨[], [], .ret (some dec)⟩)]

/-- `dec` is available in the blocks 2 and 3 -/
def loopA (b : ℕ) (a : E ℤ) : Prop := (b = 2 ∨ b = 3) ∧ a = dec

example : Consistent loopP ∧ SSA loopP ∧ Available loopP loopA ∧ Reused loopP loopA ∧ Fresh loopP (fun _ => True) ∧
    ∀ env : ℕ → ℤ, env 0 = -3 → run nz loopP 5 9 0 env = some (.ret (some 0)) := by
  refine ⟨?_, by unfold SSA; decide, ⟨?_, ?_⟩, ?_, ?_, ?_⟩
  · intro a ha b hb h
    simp only [progOps, loopP, Block.ops, bodyOps, dec, E.ops, E.opsL, Term.exprs, List.flatMap_cons, List.flatMap_nil, List.append_nil, List.nil_append, List.cons_append,
      List.mem_cons, List.not_mem_nil, or_false] at ha hb
    rcases ha with rfl | rfl | rfl | rfl | rfl <;> rcases hb with rfl | rfl | rfl | rfl | rfl <;> simp_all [E.idOf]
  · intro p hp a
    simp only [loopP, List.head?_cons, Option.some.injEq] at hp
    subst hp
    simp [loopA]
  · intro p hp d hd a ha
    obtain ⟨hd', rfl⟩ := ha
    simp only [loopP, List.mem_cons, List.not_mem_nil, or_false] at hp
    rcases hp with rfl | rfl | rfl | rfl
    · simp [Term.succs] at hd; omega
    · refine Or.inr ?_
      simp [Term.exprs, dec, E.ops, E.opsL]
    · simp [Term.succs] at hd; omega
    · simp [Term.succs] at hd
  · intro before b B later h
    rcases before with _ | ⟨p0, _ | ⟨p1, _ | ⟨p2, _ | ⟨p3, before⟩⟩⟩⟩ <;> simp only [loopP, List.nil_append, List.cons_append, List.cons.injEq] at h
    · obtain ⟨h, -⟩ := h
      cases h
      constructor
      · intro done x e rest hl a ha hm
        rcases done with _ | ⟨q, _ | ⟨q', done⟩⟩ <;> simp at hl
        simp [progOps, bodyOps] at hm
      · intro a ha; simp [Term.exprs, E.opsL] at ha
    · obtain ⟨rfl, h, -⟩ := h
      cases h
      constructor
      · intro done x e rest hl; simp at hl
      · intro a ha hm
        simp only [Term.exprs, E.opsL, dec, E.ops, List.append_nil, List.mem_singleton] at ha
        subst ha
        simp [progOps, bodyOps, Block.ops, E.ops, E.opsL, Term.exprs] at hm
    · obtain ⟨rfl, rfl, h, -⟩ := h
      cases h
      constructor
      · intro done x e rest hl a ha hm
        rcases done with _ | ⟨q, _ | ⟨q', done⟩⟩ <;> simp only [List.nil_append, List.cons_append, List.cons.injEq, reduceCtorEq, and_false] at hl
        · obtain ⟨hl, -⟩ := hl
          cases hl
          simp only [E.ops, E.opsL, dec, List.append_nil, List.mem_cons, List.not_mem_nil, or_false] at ha
          rcases ha with rfl | rfl
          · simp [progOps, bodyOps, Block.ops, E.ops, E.opsL, Term.exprs, dec] at hm
          · exact ⟨⟨Or.inl rfl, rfl⟩, by intro p hp; cases hp⟩
      · intro a ha; simp [Term.exprs, E.opsL] at ha
    · obtain ⟨rfl, rfl, rfl, h, -⟩ := h
      cases h
      constructor
      · intro done x e rest hl; simp at hl
      · intro a ha hm
        simp only [Term.exprs, E.opsL, dec, E.ops, List.append_nil, List.mem_singleton] at ha
        subst ha
        exact ⟨⟨Or.inr rfl, rfl⟩, by intro p hp; cases hp⟩
    · simp at h
  · intro before b B later h
    rcases before with _ | ⟨p0, _ | ⟨p1, _ | ⟨p2, _ | ⟨p3, before⟩⟩⟩⟩ <;> simp only [loopP, List.nil_append, List.cons_append, List.cons.injEq] at h
    · obtain ⟨h, -⟩ := h
      cases h
      intro done x e rest hl
      rcases done with _ | ⟨q, _ | ⟨q', done⟩⟩ <;> simp only [List.nil_append, List.cons_append, List.cons.injEq, reduceCtorEq, and_false] at hl
      · obtain ⟨hl, -⟩ := hl
        cases hl
        simp [progOps, bodyOps]
    · obtain ⟨rfl, h, -⟩ := h
      cases h
      intro done x e rest hl; simp at hl
    · obtain ⟨rfl, rfl, h, -⟩ := h
      cases h
      intro done x e rest hl
      rcases done with _ | ⟨q, _ | ⟨q', done⟩⟩ <;> simp only [List.nil_append, List.cons_append, List.cons.injEq, reduceCtorEq, and_false] at hl
      · obtain ⟨hl, -⟩ := hl
        cases hl
        simp [progOps, bodyOps, Block.ops, E.ops, E.opsL, Term.exprs, dec]
    · obtain ⟨rfl, rfl, rfl, h, -⟩ := h
      cases h
      intro done x e rest hl; simp at hl
    · simp at h
  · intro env h0
    simp [run, blockOf, loopP, runPhis, runBody, runTerm, dec, E.eval, E.evalL, nz, h0, Function.update_apply]

/-- non-vacuity: the registers of this loop -/
example : defs (generate id loopP) = [.v 1, .v 2, .t 1, .v 3] := rfl

/-! ## Where the text is wrong -/

theorem genBody_append (addz : V → V) : ∀ (l r : List (ℕ × E V)) (S : St),
    genBody addz (l ++ r) S = ((genBody addz r (genBody addz l S).1).1, (genBody addz l S).2 ++ (genBody addz r (genBody addz l S).1).2) := by
  intro l
  induction l with
  | nil => intro r S; rfl
  | cons p l ih =>
    intro r S
    obtain ⟨x, e⟩ := p
    rw [List.cons_append, genBody_cons, ih, genBody_cons, List.append_assoc]

theorem memo_assigned (addz : V → V) (y i : ℕ) (f : List V → V) (args : List (E V)) : ∀ (l : List (ℕ × E V)) (S : St), (y, E.op i f args) ∈ l →
    ∃ r, (genBody addz l S).1.memo i = some r := by
  intro l
  induction l with
  | nil => intro S h; cases h
  | cons p l ih =>
    intro S h
    obtain ⟨x, e⟩ := p
    rw [genBody_cons]
    rcases List.mem_cons.mp h with h | h
    · cases h
      have : ∃ r, (genA addz y (.op i f args) S).1.memo i = some r := by
        rw [genA_op]
        cases hm : S.memo i with
        | some r => rw [gen_op_some i f args _ S r hm]; exact ⟨r, hm⟩
        | none => rw [gen_op_none i f args _ S hm]; exact ⟨_, by simp; rfl⟩
      obtain ⟨r, hr⟩ := this
      exact ⟨r, (genBody_grow addz l _).keep i r hr⟩
    · exact ih _ h

theorem memo_assigned_prog (addz : V → V) (y i : ℕ) (f : List V → V) (args : List (E V)) : ∀ (P : Prog V) (S : St), (∃ p ∈ P, (y, E.op i f args) ∈ p.2.body) →
    ∃ r, (genP addz P S).1.memo i = some r := by
  intro P
  induction P with
  | nil => rintro S ⟨p, hp, _⟩; cases hp
  | cons p P ih =>
    rintro S ⟨q, hq, h⟩
    rw [genP_cons]
    rcases List.mem_cons.mp hq with rfl | hq
    · obtain ⟨r, hr⟩ := memo_assigned addz y i f args q.2.body S h
      refine ⟨r, (genP_grow addz P _).keep i r ?_⟩
      rw [genB_eq]
      simp only [(genT_eq _ _).1]
      exact (gen_grow.2 _ _).keep i r hr
    · exact ih _ ⟨q, hq, h⟩

/-- **C114**, wrong: a variable that is assigned another variable, or an operation already assigned to another variable before in the text, is never defined: no instruction of the
text gives a value to its register. -/
theorem C114_undefined_wrong (addz : V → V) (P before later : Prog V) (b : ℕ) (B : Block V) (hP : P = before ++ (b, B) :: later) (hS : SSA P)
    (done rest : List (ℕ × E V)) (x : ℕ) (e : E V) (hB : B.body = done ++ (x, e) :: rest)
    (he : (∃ z, e = .var z) ∨ (∃ i f args, e = .op i f args) ∧ ∃ y, (y, e) ∈ done ∨ ∃ p ∈ before, (y, e) ∈ p.2.body) :
    Reg.v x ∉ defs (generate addz P) := by
  obtain ⟨S, hSd⟩ : ∃ S, S = (genP addz before St.init).1 := ⟨_, rfl⟩
  have hgen : (genP addz P St.init).2 = (genP addz before St.init).2 ++ (b, (genB addz B S).2) :: (genP addz later (genB addz B S).1).2 := by
    rw [hP, genP_append, genP_cons, hSd]
  have hnil : (genA addz x e (genBody addz done S).1).2 = [] := by
    rcases he with ⟨z, rfl⟩ | ⟨⟨i, f, args, rfl⟩, y, hy⟩
    · rw [genA_var]
    · have : ∃ r, (genBody addz done S).1.memo i = some r := by
        rcases hy with hy | hy
        · exact memo_assigned addz y i f args done S hy
        · obtain ⟨r, hr⟩ := memo_assigned_prog addz y i f args before St.init hy
          exact ⟨r, (genBody_grow addz done S).keep i r (by rw [hSd]; exact hr)⟩
      obtain ⟨r, hr⟩ := this
      rw [genA_op, gen_op_some i f args _ _ r hr]
  unfold SSA at hS
  rw [hP, List.flatMap_append, List.flatMap_cons, List.nodup_append', List.nodup_append'] at hS
  obtain ⟨n1, ⟨n2, n3, d2⟩, d1⟩ := hS
  have hx : x ∈ B.targets := by simp [Block.targets, hB]
  have hb := n2
  simp only [Block.targets, hB, List.map_append, List.map_cons, List.nodup_append', List.nodup_cons] at hb
  obtain ⟨p1, ⟨q1, ⟨q2, q3⟩, q4⟩, p3⟩ := hb
  intro hmem
  unfold generate at hmem
  rw [hgen] at hmem
  simp only [defs, List.flatMap_append, List.flatMap_cons, List.mem_append] at hmem
  rcases hmem with h | (h | h) | h
  · exact d1 ((genP_rng addz before St.init n1).v x h) (List.mem_append.mpr (Or.inl hx))
  · rw [genB_eq] at h
    simp only [List.map_map, List.mem_map, Function.comp, genPhi, Reg.v.injEq] at h
    obtain ⟨q, hq, rfl⟩ := h
    exact p3 (List.mem_map.mpr ⟨q, hq, rfl⟩) (by simp)
  · rw [genB_eq] at h
    simp only [(genT_eq _ _).2, hB, genBody_append, genBody_cons, hnil, List.nil_append, List.map_append, List.mem_append] at h
    rcases h with (h | h) | h
    · exact q4 ((genBody_rng addz done S q1).v x h) (by simp)
    · exact q2 ((genBody_rng addz rest _ q3).v x h)
    · exact absurd ((gen_rng.2 B.term.exprs _).v x h) (by simp)
  · exact d2 hx ((genP_rng addz later _ n3).v x h)

/-- non-vacuity: `x1 = x0; return x1` returns what register `%x1` held before -/
example (env : ℕ → ℤ) (σ : Reg → ℤ) : SSA [(0, (⟨[], [(1, .var 0)], .ret (some (.var 1))⟩ : Block ℤ))] ∧
    run nz [(0, (⟨[], [(1, .var 0)], .ret (some (.var 1))⟩ : Block ℤ))] 1 9 0 env = some (.ret (some (env 0))) ∧
    runT nz (generate id [(0, (⟨[], [(1, .var 0)], .ret (some (.var 1))⟩ : Block ℤ))]) 1 9 0 σ = some (.ret (some (σ (.v 1)))) := by
  refine ⟨by unfold SSA; decide, by simp [run, blockOf, runPhis, runBody, runTerm, E.eval], ?_⟩
  simp [runT, generate, genP, genB, genBody, genA, gen, genT, exPhis, exI, exT, Opnd.val]

/-- node 0: `x0 + 1` -/
def inc : E ℤ := .op 0 (fun l => l.headD 0 + 1) [.var 0]

/-- the two branches of a test return the same node -/
def sibP : Prog ℤ := [(0, ⟨[], [], .cbr (.var 1) 1 2⟩), (1, ⟨[], [], .ret (some inc)⟩), (2, ⟨[], [], .ret (some inc)⟩)]

/-- **C114**, wrong: a node shared by the two branches of a test is generated in the first one only: the second one returns a register that no instruction of its path defines. -/
theorem C114_siblings_wrong (env : ℕ → ℤ) (σ : Reg → ℤ) (h1 : env 1 = 0) (hσ : ∀ x, σ (.v x) = env x) : SSA sibP ∧ Consistent sibP ∧ Fresh sibP (fun _ => True) ∧
    run nz sibP 2 9 0 env = some (.ret (some (env 0 + 1))) ∧ runT nz (generate id sibP) 2 9 0 σ = some (.ret (some (σ (.t 0)))) := by
  refine ⟨by unfold SSA; decide, ?_, ?_, by simp [run, blockOf, sibP, runPhis, runBody, runTerm, inc, E.eval, E.evalL, nz, h1], ?_⟩
  · intro a ha b hb _
    simp only [progOps, sibP, Block.ops, bodyOps, inc, E.ops, E.opsL, Term.exprs, List.flatMap_cons, List.flatMap_nil, List.append_nil, List.nil_append, List.cons_append,
      List.mem_cons, List.not_mem_nil, or_false] at ha hb
    rcases ha with rfl | rfl <;> rcases hb with rfl | rfl <;> rfl
  · intro before b B later h done x e rest hB
    have hm : (b, B) ∈ sibP := by rw [h]; simp
    simp only [sibP, List.mem_cons, List.not_mem_nil, or_false] at hm
    rcases hm with hm | hm | hm <;> (cases hm; simp at hB)
  · simp [runT, generate, sibP, genP, genB, genBody, gen, genL, genT, inc, name, St.init, exPhis, exI, exT, Opnd.val, nz, hσ, h1]

open Verif.Float (Val)
open Verif.Elem in
/-- **C114**, wrong: a floating-point constant assigned to a variable is added to zero.  The sum is the constant for every number, infinity and NaN but `-0`, which becomes `+0`. -/
theorem C114_constant_wrong (k : Verif.Llvm.FK) (c : Val) (hc : k.fmt.Datum c) : (fadd k.fmt c .plusZero = c ↔ c ≠ .minusZero ∧ c ≠ .sNaN) ∧
    (c = .minusZero → fadd k.fmt c .plusZero = .plusZero) := by
  have z : ∀ s, rnd k.fmt s ((0 + 0 : ℚ) : ℝ) = zeroS s := by intro s; rw [show ((0 + 0 : ℚ) : ℝ) = 0 by norm_num, rnd_zero]
  cases c with
  | plusInf => simp [fadd, isNaN, isInf]
  | minusInf => simp [fadd, isNaN, isInf]
  | qNaN => simp [fadd, isNaN]
  | sNaN => simp [fadd, isNaN]
  | plusZero =>
    have h : fadd k.fmt .plusZero .plusZero = .plusZero := by
      simp only [fadd, isNaN, isInf, Bool.or_self, Bool.false_eq_true, if_false]
      exact z _
    simp [h]
  | minusZero =>
    have h : fadd k.fmt .minusZero .plusZero = .plusZero := by
      simp only [fadd, isNaN, isInf, Bool.or_self, Bool.false_eq_true, if_false]
      exact z _
    simp [h]
  | num v =>
    have h : fadd k.fmt (.num v) .plusZero = .num v := by
      simp only [fadd, isNaN, isInf, Bool.or_self, Bool.false_eq_true, if_false]
      have h : ((Verif.Check.numOf (Val.num v) + Verif.Check.numOf Val.plusZero : ℚ) : ℝ) = ((v : ℚ) : ℝ) := by norm_num [Verif.Check.numOf]
      rw [h]
      exact rnd_exact (Verif.Llvm.fk_e k) _ hc.1 hc.2
    simp [h]

/-- non-vacuity: the text of `x0 = -0; return x0` -/
example (σ : Reg → Val) : runT (fun _ => true) (generate (fun c => Verif.Elem.fadd (Verif.Llvm.FK.single).fmt c .plusZero) [(0, (⟨[], [(0, .cst .minusZero)], .ret (some (.var 0))⟩ : Block Val))]) 1 9 0 σ
    = some (.ret (some .plusZero)) := by
  simp [runT, generate, genP, genB, genBody, genA, gen, genT, exPhis, exI, exT, Opnd.val, (C114_constant_wrong .single .minusZero trivial).2]

end Verif.LlvmGen
