import Verif.LlvmGen.Lemmas

/-! # Lemmas: the code of blocks and of programs -/

namespace Verif.LlvmGen

open Verif.Lin (E Reg Opnd eval_congr)

variable {V : Type}

/-! ## Growth of the memoization -/

theorem genA_op (addz : V → V) (x i : ℕ) (f : List V → V) (args : List (E V)) (S : St) :
    genA addz x (.op i f args) S = ((gen (.op i f args) (some x) S).1, (gen (.op i f args) (some x) S).2.2) := rfl

theorem genA_var (addz : V → V) (x y : ℕ) (S : St) : genA addz x (.var y) S = (S, []) := by
  simp [genA, gen]

theorem genA_grow (addz : V → V) (x : ℕ) (e : E V) (S : St) : Grow S (genA addz x e S).1 e.ops := by
  cases e with
  | cst c => exact Grow.refl _ _
  | var y => rw [genA_var]; exact Grow.refl _ _
  | op i f args => rw [genA_op]; exact gen_grow.1 _ _ S

theorem genA_free (addz : V → V) (x : ℕ) (e : E V) (S : St) (h : S.Free) : (genA addz x e S).1.Free := by
  cases e with
  | cst c => exact h
  | var y => rw [genA_var]; exact h
  | op i f args => rw [genA_op]; exact gen_free.1 _ _ S h

theorem genA_vars (addz : V → V) (D : ℕ → ℕ → Prop) (x : ℕ) (e : E V) (S : St) (h : S.Vars D) (hx : ∀ i f args, e = .op i f args → D x i) : (genA addz x e S).1.Vars D := by
  cases e with
  | cst c => exact h
  | var y => rw [genA_var]; exact h
  | op i f args =>
    rw [genA_op]
    cases hm : S.memo i with
    | some r => rw [gen_op_some i f args _ S r hm]; exact h
    | none =>
      rw [gen_op_none i f args _ S hm]
      intro j y hj
      simp only [Function.update_apply] at hj
      split_ifs at hj with hji
      · simp only [name, Option.some.injEq, Reg.v.injEq] at hj
        rw [← hj, hji]
        exact hx i f args rfl
      · exact (gen_vars D).2 args S h j y hj

theorem genBody_cons (addz : V → V) (x : ℕ) (e : E V) (r : List (ℕ × E V)) (S : St) :
    genBody addz ((x, e) :: r) S = ((genBody addz r (genA addz x e S).1).1, (genA addz x e S).2 ++ (genBody addz r (genA addz x e S).1).2) := by
  simp only [genBody]

theorem genBody_grow (addz : V → V) : ∀ (l : List (ℕ × E V)) (S : St), Grow S (genBody addz l S).1 (bodyOps l) := by
  intro l
  induction l with
  | nil => intro S; exact Grow.refl _ _
  | cons p l ih =>
    intro S
    obtain ⟨x, e⟩ := p
    rw [genBody_cons]
    exact (genA_grow addz x e S).trans (ih _)

theorem genBody_free (addz : V → V) : ∀ (l : List (ℕ × E V)) (S : St), S.Free → (genBody addz l S).1.Free := by
  intro l
  induction l with
  | nil => intro S h; exact h
  | cons p l ih =>
    intro S h
    obtain ⟨x, e⟩ := p
    rw [genBody_cons]
    exact ih _ (genA_free addz x e S h)

theorem genBody_vars (addz : V → V) (D : ℕ → ℕ → Prop) : ∀ (l : List (ℕ × E V)) (S : St), S.Vars D → (∀ x i f args, (x, E.op i f args) ∈ l → D x i) →
    (genBody addz l S).1.Vars D := by
  intro l
  induction l with
  | nil => intro S h _; exact h
  | cons p l ih =>
    intro S h hD
    obtain ⟨x, e⟩ := p
    rw [genBody_cons]
    exact ih _ (genA_vars addz D x e S h (fun i f args he => hD x i f args (by simp [he]))) (fun x i f args h => hD x i f args (by simp [h]))

/-- the code of the end of a block is the code of its expressions -/
theorem genT_eq (t : Term V) (S : St) : (genT t S).1 = (genL t.exprs S).1 ∧ (genT t S).2.1 = (genL t.exprs S).2.2 := by
  cases t with
  | br b => exact ⟨rfl, rfl⟩
  | cbr c y z => simp [genT, Term.exprs, genL]
  | ret e => cases e with
    | none => exact ⟨rfl, rfl⟩
    | some e => simp [genT, Term.exprs, genL]

theorem genB_eq (addz : V → V) (B : Block V) (S : St) : genB addz B S = ((genT B.term (genBody addz B.body S).1).1,
    ⟨B.phis.map genPhi, (genBody addz B.body S).2 ++ (genT B.term (genBody addz B.body S).1).2.1, (genT B.term (genBody addz B.body S).1).2.2⟩) := rfl

theorem genB_grow (addz : V → V) (B : Block V) (S : St) : Grow S (genB addz B S).1 B.ops := by
  rw [genB_eq]
  simp only [(genT_eq _ _).1]
  exact (genBody_grow addz B.body S).trans (gen_grow.2 _ _)

theorem genB_free (addz : V → V) (B : Block V) (S : St) (h : S.Free) : (genB addz B S).1.Free := by
  rw [genB_eq]
  simp only [(genT_eq _ _).1]
  exact gen_free.2 _ _ (genBody_free addz B.body S h)

theorem genB_vars (addz : V → V) (D : ℕ → ℕ → Prop) (B : Block V) (S : St) (h : S.Vars D) (hD : ∀ x i f args, (x, E.op i f args) ∈ B.body → D x i) :
    (genB addz B S).1.Vars D := by
  rw [genB_eq]
  simp only [(genT_eq _ _).1]
  exact (gen_vars D).2 _ _ (genBody_vars addz D B.body S h hD)

theorem genP_cons (addz : V → V) (p : ℕ × Block V) (P : Prog V) (S : St) :
    genP addz (p :: P) S = ((genP addz P (genB addz p.2 S).1).1, (p.1, (genB addz p.2 S).2) :: (genP addz P (genB addz p.2 S).1).2) := rfl

theorem genP_append (addz : V → V) : ∀ (P R : Prog V) (S : St),
    genP addz (P ++ R) S = ((genP addz R (genP addz P S).1).1, (genP addz P S).2 ++ (genP addz R (genP addz P S).1).2) := by
  intro P
  induction P with
  | nil => intro R S; rfl
  | cons p P ih =>
    intro R S
    rw [List.cons_append, genP_cons, ih, genP_cons]
    rfl

theorem genP_grow (addz : V → V) : ∀ (P : Prog V) (S : St), Grow S (genP addz P S).1 (progOps P) := by
  intro P
  induction P with
  | nil => intro S; exact Grow.refl _ _
  | cons p P ih => intro S; rw [genP_cons]; exact (genB_grow addz p.2 S).trans (ih _)

theorem genP_free (addz : V → V) : ∀ (P : Prog V) (S : St), S.Free → (genP addz P S).1.Free := by
  intro P
  induction P with
  | nil => intro S h; exact h
  | cons p P ih => intro S h; rw [genP_cons]; exact ih _ (genB_free addz p.2 S h)

theorem genP_vars (addz : V → V) (D : ℕ → ℕ → Prop) : ∀ (P : Prog V) (S : St), S.Vars D → (∀ p ∈ P, ∀ x i f args, (x, E.op i f args) ∈ p.2.body → D x i) →
    (genP addz P S).1.Vars D := by
  intro P
  induction P with
  | nil => intro S h _; exact h
  | cons p P ih =>
    intro S h hD
    rw [genP_cons]
    exact ih _ (genB_vars addz D p.2 S h (hD p (by simp))) (fun q hq => hD q (by simp [hq]))

theorem genP_labels (addz : V → V) : ∀ (P : Prog V) (S : St), (genP addz P S).2.map Prod.fst = P.map Prod.fst := by
  intro P
  induction P with
  | nil => intro S; rfl
  | cons p P ih => intro S; rw [genP_cons]; simp [ih]

/-! ## Static single assignment -/

/-- what gives a value to the variables -/
def places (P : Prog V) : List (ℕ × Option (E V)) := P.flatMap fun p => p.2.phis.map (fun q => (q.1, none)) ++ p.2.body.map (fun q => (q.1, some q.2))

theorem places_fst (P : Prog V) : (places P).map Prod.fst = P.flatMap fun p => p.2.targets := by
  simp only [places, List.map_flatMap, Block.targets, List.map_append, List.map_map]
  rfl

theorem ssa_unique {P : Prog V} (h : SSA P) {x : ℕ} {a b : Option (E V)} (ha : (x, a) ∈ places P) (hb : (x, b) ∈ places P) : a = b := by
  unfold SSA at h
  rw [← places_fst] at h
  have := List.inj_on_of_nodup_map h ha hb rfl
  exact (Prod.mk.inj this).2

theorem mem_places_body {P : Prog V} {p : ℕ × Block V} (hp : p ∈ P) {x : ℕ} {e : E V} (h : (x, e) ∈ p.2.body) : (x, some e) ∈ places P := by
  simp only [places, List.mem_flatMap]
  refine ⟨p, hp, List.mem_append.mpr (Or.inr (List.mem_map.mpr ⟨(x, e), h, rfl⟩))⟩

theorem mem_places_phi {P : Prog V} {p : ℕ × Block V} (hp : p ∈ P) {q : ℕ × List (ℕ × ℕ)} (h : q ∈ p.2.phis) : (q.1, none) ∈ places P := by
  simp only [places, List.mem_flatMap]
  refine ⟨p, hp, List.mem_append.mpr (Or.inl (List.mem_map.mpr ⟨q, h, rfl⟩))⟩

/-! ## Phi nodes -/

theorem find_map (src : List (ℕ × ℕ)) (pred : ℕ) : (src.map fun q => ((Reg.v q.1, q.2) : Reg × ℕ)).find? (fun p => p.2 == pred)
    = (src.find? (fun p => p.2 == pred)).map fun q => (Reg.v q.1, q.2) := by
  induction src with
  | nil => rfl
  | cons q src ih =>
    simp only [List.map_cons, List.find?_cons]
    cases q.2 == pred <;> simp [ih]

theorem exPhis_sound (pred : ℕ) (env : ℕ → V) (σ : Reg → V) (hv : ∀ x, σ (.v x) = env x) : ∀ (phis : List (ℕ × List (ℕ × ℕ))) (acc : ℕ → V) (τ : Reg → V),
    (∀ x, τ (.v x) = acc x) →
    match runPhis pred env phis acc with
    | .error x => exPhis pred σ (phis.map genPhi) τ = .error (.v x)
    | .ok acc' => ∃ τ', exPhis pred σ (phis.map genPhi) τ = .ok τ' ∧ (∀ x, τ' (.v x) = acc' x) ∧ (∀ k, τ' (.t k) = τ (.t k)) ∧
        ∀ x, (∀ p ∈ phis, p.1 ≠ x) → acc' x = acc x := by
  intro phis
  induction phis with
  | nil => intro acc τ h; exact ⟨τ, rfl, h, fun _ => rfl, fun _ _ => rfl⟩
  | cons p phis ih =>
    intro acc τ h
    obtain ⟨x, src⟩ := p
    simp only [runPhis, List.map_cons, genPhi, exPhis, find_map]
    cases hf : src.find? (fun p => p.2 == pred) with
    | none => simp
    | some q =>
      simp only [Option.map_some]
      have h' : ∀ y, Function.update τ (Reg.v x) (σ (.v q.1)) (.v y) = Function.update acc x (env q.1) y := by
        intro y
        by_cases hy : y = x
        · subst hy; rw [Function.update_self, Function.update_self, hv]
        · rw [Function.update_of_ne (by simpa using hy), Function.update_of_ne hy, h]
      have := ih (Function.update acc x (env q.1)) (Function.update τ (Reg.v x) (σ (.v q.1))) h'
      generalize runPhis pred env phis (Function.update acc x (env q.1)) = res at this
      cases res with
      | error y => exact this
      | ok acc' =>
        obtain ⟨τ', h1, h2, h3, h4⟩ := this
        refine ⟨τ', h1, h2, fun k => ?_, fun y hy => ?_⟩
        · rw [h3, Function.update_of_ne (by simp)]
        · rw [h4 y (fun p hp => hy p (by simp [hp])), Function.update_of_ne]
          exact fun h => hy (x, src) (by simp) h.symm

/-! ## The body of a block -/

variable {U : E V → Prop} {M : ℕ → Option Reg}

theorem bodyOps_closed (l : List (ℕ × E V)) : Closed (bodyOps l) := by
  intro a ha c hc
  simp only [bodyOps, List.mem_flatMap] at ha ⊢
  obtain ⟨p, hp, ha⟩ := ha
  exact ⟨p, hp, ops_trans.1 p.2 a ha c hc⟩

theorem body_sound (addz : V → V) (ok : V → Prop) (hz : ∀ c, ok c → addz c = c)
    (hU : ∀ a b : E V, U a → U b → a.idOf = b.idOf → a = b) (hM : ∀ i j k, M i = some (.t k) → M j = some (.t k) → i = j) :
    ∀ (l : List (ℕ × E V)) (S : St) (L : List (E V)) (W : E V → Prop) (env : ℕ → V) (σ : Reg → V), (∀ a ∈ bodyOps l, U a) → (∀ a ∈ L, U a) → Closed L → Knows S L →
      (∀ x e, (x, e) ∈ l → ∀ i, M i = some (.v x) → e.idOf = some i) →
      (∀ done x e rest, l = done ++ (x, e) :: rest → ∀ a ∈ e.ops, a ∈ L ++ bodyOps done → availBody W done a) →
      (∀ done x e rest, l = done ++ (x, e) :: rest →
        match e with
        | .var _ => False
        | .cst c => ok c
        | .op i f args => E.op i f args ∉ L ++ bodyOps done) →
      Inv U M W env σ → (∀ x, σ (.v x) = env x) → (∀ i r, (genBody addz l S).1.memo i = some r → M i = some r) →
      Inv U M (availBody W l) (runBody l env) (exI (genBody addz l S).2 σ) ∧ ∀ x, exI (genBody addz l S).2 σ (.v x) = runBody l env x := by
  intro l
  induction l with
  | nil => intro S L W env σ _ _ _ _ _ _ _ hI hv _; exact ⟨hI, hv⟩
  | cons p l ih =>
    intro S L W env σ hops hL hcl hK hS hR hF hI hv hM'
    obtain ⟨x, e⟩ := p
    rw [genBody_cons] at hM' ⊢
    have g2 := genBody_grow addz l (genA addz x e S).1
    have hMe : ∀ i r, (genA addz x e S).1.memo i = some r → M i = some r := fun i r hi => hM' i r (g2.keep i r hi)
    have hR0 := hR [] x e l rfl
    have hF0 := hF [] x e l rfl
    simp only [bodyOps, List.flatMap_nil, List.append_nil, availBody] at hR0 hF0
    -- the statement itself
    have key : Inv U M (fun a => (W a ∨ a ∈ e.ops) ∧ x ∉ a.vars) (Function.update env x (e.eval env)) (exI (genA addz x e S).2 σ) ∧
        ∀ y, exI (genA addz x e S).2 σ (.v y) = Function.update env x (e.eval env) y := by
      cases e with
      | var y => exact absurd hF0 (by simp)
      | cst c =>
        have hex : exI (genA addz x (.cst c) S).2 σ = Function.update σ (.v x) c := by
          simp only [genA, exI, hz c hF0]
        rw [hex]
        constructor
        · intro i f args hUi hW
          rcases hW with ⟨hW | hW, hx⟩
          · obtain ⟨r, hr, hvr⟩ := hI i f args hUi hW
            refine ⟨r, hr, ?_⟩
            rw [Function.update_of_ne, hvr, (eval_congr _ _).1]
            · intro y hy
              rw [Function.update_of_ne]
              rintro rfl
              exact hx hy
            · rintro rfl
              have := hS x (.cst c) (by simp) i hr
              cases this
          · cases hW
        · intro y
          by_cases hy : y = x
          · subst hy; rw [Function.update_self, Function.update_self]; rfl
          · rw [Function.update_of_ne (by simpa using hy), Function.update_of_ne hy, hv]
      | op i f args =>
        have hUo : U (.op i f args) := hops _ (by simp [bodyOps, E.ops])
        have hUa : ∀ a ∈ E.opsL args, U a := fun a ha => hops a (by
          simp only [bodyOps, List.flatMap_cons, List.mem_append, E.ops, List.mem_cons]; exact Or.inl (Or.inr ha))
        have hm : S.memo i = none := by
          cases hm : S.memo i with
          | none => rfl
          | some r =>
            obtain ⟨a, ha, hi⟩ := hK i r hm
            have hae : a = .op i f args := hU _ _ (hL a ha) hUo (by rw [hi]; rfl)
            rw [hae] at ha
            exact absurd ha hF0
        rw [genA_op] at hMe ⊢
        rw [gen_op_none i f args _ S hm] at hMe ⊢
        have hself : M i = some (.v x) := hMe i _ (by simp [name])
        have hg := gen_grow.2 args S
        have hMa : ∀ j r, (genL args S).1.memo j = some r → M j = some r := by
          intro j r hj
          by_cases hji : j = i
          · subst hji
            exfalso
            rcases hg.new j r hj with h1 | ⟨a, ha, hi⟩
            · rw [hm] at h1; cases h1
            · have : a = .op j f args := hU _ _ (hUa a ha) hUo (by rw [hi]; rfl)
              rw [this] at ha
              exact not_self _ _ _ ha
          · exact hMe j r (by simp [Function.update_apply, hji, hj])
        obtain ⟨h1, h2, h3⟩ := (gen_sound hU hM).2 args S L W σ hUa hL hcl hK (fun a ha => hR0 a (by simp [E.ops, ha])) hI hv hMa
        have h3' := h3 _ (h1.mono (fun a h => Or.inr h)) h2
        have hex : exI ((genL args S).2.2 ++ [⟨name (some x) (genL args S).1.next, f, (genL args S).2.1⟩]) σ
            = Function.update (exI (genL args S).2.2 σ) (.v x) ((E.op i f args).eval env) := by
          rw [exI_append]; simp only [exI, h3', E.eval, name]
        simp only [hex]
        constructor
        · intro j g as hUj hj
          obtain ⟨hj, hx⟩ := hj
          have hev : (E.op j g as).eval (Function.update env x ((E.op i f args).eval env)) = (E.op j g as).eval env := by
            refine (eval_congr _ _).1 _ (fun y hy => ?_)
            rw [Function.update_of_ne]
            rintro rfl
            exact hx hy
          rw [hev]
          by_cases hji : j = i
          · subst hji
            have := hU _ _ hUj hUo rfl
            rw [this]
            exact ⟨_, hself, by rw [Function.update_self]⟩
          · have hj' : W (.op j g as) ∨ E.op j g as ∈ E.opsL args := by
              rcases hj with hj | hj
              · exact Or.inl hj
              · simp only [E.ops, List.mem_cons] at hj
                rcases hj with hj | hj
                · injection hj with h _ _; exact absurd h hji
                · exact Or.inr hj
            obtain ⟨r, hr, hvr⟩ := h1 j g as hUj hj'
            refine ⟨r, hr, ?_⟩
            rw [Function.update_of_ne, hvr]
            rintro rfl
            have := hS x (.op i f args) (by simp) j hr
            simp only [E.idOf, Option.some.injEq] at this
            exact hji this.symm
        · intro y
          by_cases hy : y = x
          · subst hy; rw [Function.update_self, Function.update_self]
          · rw [Function.update_of_ne (by simpa using hy), Function.update_of_ne hy, h2]
    have := ih (genA addz x e S).1 (L ++ e.ops) (fun a => (W a ∨ a ∈ e.ops) ∧ x ∉ a.vars) (Function.update env x (e.eval env)) (exI (genA addz x e S).2 σ)
      (fun a ha => hops a (by simp only [bodyOps, List.flatMap_cons, List.mem_append]; exact Or.inr ha))
      (fun a ha => by
        rcases List.mem_append.mp ha with ha | ha
        · exact hL a ha
        · exact hops a (by simp only [bodyOps, List.flatMap_cons, List.mem_append]; exact Or.inl ha))
      (hcl.append (ops_trans.1 e)) (hK.grow (genA_grow addz x e S)) (fun y e' h => hS y e' (by simp [h]))
      (fun done y e' rest hl a ha hm => by
        have := hR ((x, e) :: done) y e' rest (by rw [hl]; rfl) a ha (by
          simpa only [bodyOps, List.flatMap_cons, List.append_assoc] using hm)
        exact this)
      (fun done y e' rest hl => by
        have := hF ((x, e) :: done) y e' rest (by rw [hl]; rfl)
        cases e' with
        | var z => exact this
        | cst c => exact this
        | op i f args => simpa only [bodyOps, List.flatMap_cons, List.append_assoc] using this)
      key.1 key.2 hM'
    rw [exI_append]
    exact this

/-! ## The end of a block -/

theorem exT_sound (truth : V → Bool) (t : Term V) (S : St) (env : ℕ → V) (τ : Reg → V)
    (h : (genL t.exprs S).2.1.map (Opnd.val τ) = E.evalL env t.exprs) : exT truth τ (genT t S).2.2 = runTerm truth env t := by
  cases t with
  | br b => rfl
  | cbr c y z =>
    simp only [Term.exprs, genL, List.map_cons, E.evalL, List.map_nil, List.cons.injEq, and_true] at h
    simp [genT, exT, runTerm, h]
  | ret e => cases e with
    | none => rfl
    | some e =>
      simp only [Term.exprs, genL, List.map_cons, E.evalL, List.map_nil, List.cons.injEq, and_true] at h
      simp [genT, exT, runTerm, h]

end Verif.LlvmGen
