import Verif.LlvmGen.Model
import Verif.Lin.Lemmas

/-! # Lemmas: the code of expressions and of assignments -/

namespace Verif.LlvmGen

open Verif.Lin (E Reg Opnd eval_congr)

variable {V : Type}

theorem exI_append (c d : List (Ins V)) (σ : Reg → V) : exI (c ++ d) σ = exI d (exI c σ) := by
  induction c generalizing σ with
  | nil => rfl
  | cons i c ih => simp [exI, ih]

theorem ops_trans : (∀ e : E V, ∀ a ∈ e.ops, ∀ c ∈ a.ops, c ∈ e.ops) ∧ ∀ es : List (E V), ∀ a ∈ E.opsL es, ∀ c ∈ a.ops, c ∈ E.opsL es := by
  refine Verif.Lin.E.ind ?_ ?_ ?_ ?_ ?_
  · intro x a ha; cases ha
  · intro x a ha; cases ha
  · intro i f args ih a ha c hc
    simp only [E.ops, List.mem_cons] at ha
    rcases ha with rfl | ha
    · exact hc
    · simp only [E.ops, List.mem_cons]
      exact Or.inr (ih a ha c hc)
  · intro a ha; cases ha
  · intro e es h1 h2 a ha c hc
    simp only [E.opsL, List.mem_append] at ha ⊢
    rcases ha with ha | ha
    · exact Or.inl (h1 a ha c hc)
    · exact Or.inr (h2 a ha c hc)

theorem ops_length : (∀ e : E V, ∀ a ∈ e.ops, a.ops.length ≤ e.ops.length) ∧ ∀ es : List (E V), ∀ a ∈ E.opsL es, a.ops.length ≤ (E.opsL es).length := by
  refine Verif.Lin.E.ind ?_ ?_ ?_ ?_ ?_
  · intro x a ha; cases ha
  · intro x a ha; cases ha
  · intro i f args ih a ha
    simp only [E.ops, List.mem_cons] at ha
    rcases ha with rfl | ha
    · exact le_refl _
    · have := ih a ha
      simp only [E.ops, List.length_cons]
      omega
  · intro a ha; cases ha
  · intro e es h1 h2 a ha
    simp only [E.opsL, List.mem_append, List.length_append] at ha ⊢
    rcases ha with ha | ha
    · have := h1 a ha; omega
    · have := h2 a ha; omega

theorem not_self (i : ℕ) (f : List V → V) (args : List (E V)) : E.op i f args ∉ E.opsL args := by
  intro h
  have := ops_length.2 args _ h
  simp only [E.ops, List.length_cons] at this
  omega

theorem ops_isOp : (∀ e : E V, ∀ a ∈ e.ops, ∃ i f args, a = .op i f args) ∧ ∀ es : List (E V), ∀ a ∈ E.opsL es, ∃ i f args, a = .op i f args := by
  refine Verif.Lin.E.ind ?_ ?_ ?_ ?_ ?_
  · intro x a ha; cases ha
  · intro x a ha; cases ha
  · intro i f args ih a ha
    simp only [E.ops, List.mem_cons] at ha
    rcases ha with rfl | ha
    · exact ⟨_, _, _, rfl⟩
    · exact ih a ha
  · intro a ha; cases ha
  · intro e es h1 h2 a ha
    simp only [E.opsL, List.mem_append] at ha
    rcases ha with ha | ha
    · exact h1 a ha
    · exact h2 a ha

theorem gen_op_none (i : ℕ) (f : List V → V) (args : List (E V)) (rv : Option ℕ) (S : St) (h : S.memo i = none) :
    gen (.op i f args) rv S = (⟨(genL args S).1.next + 1, Function.update (genL args S).1.memo i (some (name rv (genL args S).1.next))⟩,
      .reg (name rv (genL args S).1.next),
      (genL args S).2.2 ++ [⟨name rv (genL args S).1.next, f, (genL args S).2.1⟩]) := by
  simp only [gen, h]

theorem gen_op_some (i : ℕ) (f : List V → V) (args : List (E V)) (rv : Option ℕ) (S : St) (r : Reg) (h : S.memo i = some r) :
    gen (.op i f args) rv S = (S, .reg r, []) := by
  simp only [gen, h]

theorem genL_cons (e : E V) (es : List (E V)) (S : St) :
    genL (e :: es) S = ((genL es (gen e none S).1).1, (gen e none S).2.1 :: (genL es (gen e none S).1).2.1, (gen e none S).2.2 ++ (genL es (gen e none S).1).2.2) := by
  simp only [genL]

/-! ## The memoization -/

/-- The names handed out grow, and the new ones are those of the nodes `os`. -/
structure Grow (S S' : St) (os : List (E V)) : Prop where
  next : S.next ≤ S'.next
  keep : ∀ i r, S.memo i = some r → S'.memo i = some r
  new : ∀ i r, S'.memo i = some r → S.memo i = some r ∨ ∃ a ∈ os, a.idOf = some i

theorem Grow.refl (S : St) (os : List (E V)) : Grow S S os := ⟨le_refl _, fun _ _ h => h, fun _ _ h => Or.inl h⟩

theorem Grow.trans {S S1 S2 : St} {o1 o2 : List (E V)} (h : Grow S S1 o1) (h' : Grow S1 S2 o2) : Grow S S2 (o1 ++ o2) := by
  refine ⟨le_trans h.next h'.next, fun i r hi => h'.keep i r (h.keep i r hi), ?_⟩
  intro i r hi
  rcases h'.new i r hi with h1 | ⟨a, ha, hi⟩
  · rcases h.new i r h1 with h2 | ⟨a, ha, hi⟩
    · exact Or.inl h2
    · exact Or.inr ⟨a, by simp [ha], hi⟩
  · exact Or.inr ⟨a, by simp [ha], hi⟩

theorem gen_grow : (∀ e : E V, ∀ rv S, Grow S (gen e rv S).1 e.ops) ∧ ∀ es : List (E V), ∀ S, Grow S (genL es S).1 (E.opsL es) := by
  refine Verif.Lin.E.ind ?_ ?_ ?_ ?_ ?_
  · intro x rv S; exact Grow.refl _ _
  · intro x rv S; exact Grow.refl _ _
  · intro i f args ih rv S
    cases hm : S.memo i with
    | some r => rw [gen_op_some i f args rv S r hm]; exact Grow.refl _ _
    | none =>
      rw [gen_op_none i f args rv S hm]
      have h := ih S
      refine ⟨by have := h.next; show S.next ≤ _ + 1; omega, ?_, ?_⟩
      · intro j r hj
        simp only [Function.update_apply]
        rw [if_neg (by rintro rfl; rw [hm] at hj; cases hj)]
        exact h.keep j r hj
      · intro j r hj
        simp only [Function.update_apply] at hj
        split_ifs at hj with hji
        · exact Or.inr ⟨.op i f args, by simp [E.ops], by simp [E.idOf, hji]⟩
        · rcases h.new j r hj with h1 | ⟨a, ha, hi⟩
          · exact Or.inl h1
          · exact Or.inr ⟨a, by simp [E.ops, ha], hi⟩
  · intro S; exact Grow.refl _ _
  · intro e es h1 h2 S
    rw [genL_cons]
    exact (h1 none S).trans (h2 _)

/-- No free name is given twice. -/
def St.Free (S : St) : Prop :=
  (∀ i k, S.memo i = some (.t k) → k < S.next) ∧ ∀ i j k, S.memo i = some (.t k) → S.memo j = some (.t k) → i = j

theorem gen_free : (∀ e : E V, ∀ rv S, S.Free → (gen e rv S).1.Free) ∧ ∀ es : List (E V), ∀ S, S.Free → (genL es S).1.Free := by
  refine Verif.Lin.E.ind ?_ ?_ ?_ ?_ ?_
  · intro x rv S h; exact h
  · intro x rv S h; exact h
  · intro i f args ih rv S h
    cases hm : S.memo i with
    | some r => rw [gen_op_some i f args rv S r hm]; exact h
    | none =>
      rw [gen_op_none i f args rv S hm]
      obtain ⟨h1, h2⟩ := ih S h
      generalize genL args S = q at h1 h2
      constructor
      · intro j k hj
        simp only [Function.update_apply] at hj
        show k < q.1.next + 1
        split_ifs at hj with hji
        · cases rv with
          | none => simp only [name, Option.some.injEq, Reg.t.injEq] at hj; omega
          | some x => simp [name] at hj
        · have := h1 j k hj; omega
      · intro j l k hj hl
        simp only [Function.update_apply] at hj hl
        split_ifs at hj hl with hji hli hli
        · rw [hji, hli]
        · cases rv with
          | none => simp only [name, Option.some.injEq, Reg.t.injEq] at hj; have := h1 l k hl; omega
          | some x => simp [name] at hj
        · cases rv with
          | none => simp only [name, Option.some.injEq, Reg.t.injEq] at hl; have := h1 j k hj; omega
          | some x => simp [name] at hl
        · exact h2 j l k hj hl
  · intro S h; exact h
  · intro e es h1 h2 S h
    rw [genL_cons]
    exact h2 _ (h1 none S h)

/-- Names of variables are given to the nodes of `D`. -/
def St.Vars (S : St) (D : ℕ → ℕ → Prop) : Prop := ∀ i x, S.memo i = some (.v x) → D x i

theorem gen_vars (D : ℕ → ℕ → Prop) : (∀ e : E V, ∀ S, S.Vars D → (gen e none S).1.Vars D) ∧ ∀ es : List (E V), ∀ S, S.Vars D → (genL es S).1.Vars D := by
  refine Verif.Lin.E.ind ?_ ?_ ?_ ?_ ?_
  · intro x S h; exact h
  · intro x S h; exact h
  · intro i f args ih S h
    cases hm : S.memo i with
    | some r => rw [gen_op_some i f args none S r hm]; exact h
    | none =>
      rw [gen_op_none i f args none S hm]
      intro j x hj
      simp only [Function.update_apply] at hj
      split_ifs at hj with hji
      · simp [name] at hj
      · exact ih S h j x hj
  · intro S h; exact h
  · intro e es h1 h2 S h
    rw [genL_cons]
    exact h2 _ (h1 S h)

/-! ## Expressions -/

/-- The registers of the nodes of `W` hold their values; `M` is the memoization at the end. -/
def Inv (U : E V → Prop) (M : ℕ → Option Reg) (W : E V → Prop) (env : ℕ → V) (σ : Reg → V) : Prop :=
  ∀ i f args, U (.op i f args) → W (.op i f args) → ∃ r, M i = some r ∧ σ r = (E.op i f args).eval env

theorem Inv.mono {U : E V → Prop} {M : ℕ → Option Reg} {W W' : E V → Prop} {env : ℕ → V} {σ : Reg → V} (h : Inv U M W env σ) (hW : ∀ a, W' a → W a) : Inv U M W' env σ :=
  fun i f args hU hw => h i f args hU (hW _ hw)

/-- A memoization that only knows nodes of `L`. -/
def Knows (S : St) (L : List (E V)) : Prop := ∀ i r, S.memo i = some r → ∃ a ∈ L, a.idOf = some i

def Closed (L : List (E V)) : Prop := ∀ a ∈ L, ∀ c ∈ a.ops, c ∈ L

theorem Closed.append {L L' : List (E V)} (h : Closed L) (h' : Closed L') : Closed (L ++ L') := by
  intro a ha c hc
  rw [List.mem_append] at ha ⊢
  rcases ha with ha | ha
  · exact Or.inl (h a ha c hc)
  · exact Or.inr (h' a ha c hc)

theorem Knows.grow {S S' : St} {L os : List (E V)} (h : Knows S L) (g : Grow S S' os) : Knows S' (L ++ os) := by
  intro i r hi
  rcases g.new i r hi with h1 | ⟨a, ha, hi⟩
  · obtain ⟨a, ha, hi⟩ := h i r h1
    exact ⟨a, by simp [ha], hi⟩
  · exact ⟨a, by simp [ha], hi⟩

/-- the operand of an expression holds its value wherever its nodes do -/
def Holds (U : E V → Prop) (M : ℕ → Option Reg) (env : ℕ → V) (e : E V) (o : Opnd V) : Prop :=
  ∀ τ : Reg → V, Inv U M (· ∈ e.ops) env τ → (∀ x, τ (.v x) = env x) → o.val τ = e.eval env

variable {U : E V → Prop} {M : ℕ → Option Reg} {env : ℕ → V}

theorem gen_sound (hU : ∀ a b : E V, U a → U b → a.idOf = b.idOf → a = b) (hM : ∀ i j k, M i = some (.t k) → M j = some (.t k) → i = j) :
    (∀ e : E V, ∀ (S : St) (L : List (E V)) (W : E V → Prop) (σ : Reg → V), (∀ a ∈ e.ops, U a) → (∀ a ∈ L, U a) → Closed L → Knows S L →
      (∀ a ∈ e.ops, a ∈ L → W a) → Inv U M W env σ → (∀ x, σ (.v x) = env x) → (∀ i r, (gen e none S).1.memo i = some r → M i = some r) →
      Inv U M (fun a => W a ∨ a ∈ e.ops) env (exI (gen e none S).2.2 σ) ∧ (∀ x, exI (gen e none S).2.2 σ (.v x) = env x) ∧ Holds U M env e (gen e none S).2.1) ∧
    ∀ es : List (E V), ∀ (S : St) (L : List (E V)) (W : E V → Prop) (σ : Reg → V), (∀ a ∈ E.opsL es, U a) → (∀ a ∈ L, U a) → Closed L → Knows S L →
      (∀ a ∈ E.opsL es, a ∈ L → W a) → Inv U M W env σ → (∀ x, σ (.v x) = env x) → (∀ i r, (genL es S).1.memo i = some r → M i = some r) →
      Inv U M (fun a => W a ∨ a ∈ E.opsL es) env (exI (genL es S).2.2 σ) ∧ (∀ x, exI (genL es S).2.2 σ (.v x) = env x) ∧
      (∀ τ : Reg → V, Inv U M (· ∈ E.opsL es) env τ → (∀ x, τ (.v x) = env x) → (genL es S).2.1.map (Opnd.val τ) = E.evalL env es) := by
  refine Verif.Lin.E.ind ?_ ?_ ?_ ?_ ?_
  · intro x S L W σ _ _ _ _ _ hI hv _
    exact ⟨hI.mono (fun a h => h.elim id (fun h => by cases h)), hv, fun τ _ ht => ht x⟩
  · intro c S L W σ _ _ _ _ _ hI hv _
    exact ⟨hI.mono (fun a h => h.elim id (fun h => by cases h)), hv, fun τ _ _ => rfl⟩
  · intro i f args ih S L W σ hops hL hcl hK hR hI hv hM'
    have hUo : U (.op i f args) := hops _ (by simp [E.ops])
    have holds : ∀ r, M i = some r → Holds U M env (.op i f args) (.reg r) := by
      intro r hr τ hτ _
      obtain ⟨r', hr', hv'⟩ := hτ i f args hUo (by simp [E.ops])
      rw [hr] at hr'; cases hr'
      exact hv'
    cases hm : S.memo i with
    | some r =>
      rw [gen_op_some i f args none S r hm] at hM' ⊢
      obtain ⟨a, ha, hi⟩ := hK i r hm
      have hae : a = .op i f args := hU _ _ (hL a ha) hUo (by rw [hi]; rfl)
      refine ⟨hI.mono ?_, hv, holds r (hM' i r hm)⟩
      intro c hc
      rcases hc with hc | hc
      · exact hc
      · exact hR c hc (hcl a ha c (by rw [hae]; exact hc))
    | none =>
      rw [gen_op_none i f args none S hm] at hM' ⊢
      have hself : M i = some (.t (genL args S).1.next) := hM' i _ (by simp [name])
      have hg := gen_grow.2 args S
      have hMa : ∀ j r, (genL args S).1.memo j = some r → M j = some r := by
        intro j r hj
        by_cases hji : j = i
        · subst hji
          exfalso
          rcases hg.new j r hj with h1 | ⟨a, ha, hi⟩
          · rw [hm] at h1; cases h1
          · have : a = .op j f args := hU _ _ (hops a (by simp [E.ops, ha])) hUo (by rw [hi]; rfl)
            rw [this] at ha
            exact not_self _ _ _ ha
        · exact hM' j r (by simp [Function.update_apply, hji, hj])
      obtain ⟨h1, h2, h3⟩ := ih S L W σ (fun a ha => hops a (by simp [E.ops, ha])) hL hcl hK (fun a ha => hR a (by simp [E.ops, ha])) hI hv hMa
      have h3' := h3 _ (h1.mono (fun a h => Or.inr h)) h2
      have hex : exI ((genL args S).2.2 ++ [⟨name none (genL args S).1.next, f, (genL args S).2.1⟩]) σ
          = Function.update (exI (genL args S).2.2 σ) (.t (genL args S).1.next) ((E.op i f args).eval env) := by
        rw [exI_append]; simp only [exI, h3', E.eval, name]
      refine ⟨?_, ?_, holds _ hself⟩
      · simp only [hex]
        intro j g as hUj hj
        by_cases hji : j = i
        · subst hji
          have := hU _ _ hUj hUo rfl
          rw [this]
          exact ⟨_, hself, by rw [Function.update_self]⟩
        · have hj' : W (.op j g as) ∨ E.op j g as ∈ E.opsL args := by
            rcases hj with hj | hj
            · exact Or.inl hj
            · simp only [E.ops, List.mem_cons] at hj
              rcases hj with hj | hj
              · injection hj with h _ _; exact absurd h hji
              · exact Or.inr hj
          obtain ⟨r, hr, hvr⟩ := h1 j g as hUj hj'
          refine ⟨r, hr, ?_⟩
          rw [Function.update_of_ne, hvr]
          rintro rfl
          exact hji (hM j i _ hr hself)
      · intro x
        simp only [hex]
        rw [Function.update_of_ne (by simp), h2]
  · intro S L W σ _ _ _ _ _ hI hv _
    exact ⟨hI.mono (fun a h => h.elim id (fun h => by cases h)), hv, fun _ _ _ => rfl⟩
  · intro e es ihe ihs S L W σ hops hL hcl hK hR hI hv hM'
    rw [genL_cons] at hM' ⊢
    have g1 := gen_grow.1 e none S
    have g2 := gen_grow.2 es (gen e none S).1
    obtain ⟨h1, h2, h3⟩ := ihe S L W σ (fun a ha => hops a (by simp [E.opsL, ha])) hL hcl hK (fun a ha => hR a (by simp [E.opsL, ha])) hI hv
      (fun i r hi => hM' i r (g2.keep i r hi))
    obtain ⟨k1, k2, k3⟩ := ihs (gen e none S).1 (L ++ e.ops) (fun a => W a ∨ a ∈ e.ops) (exI (gen e none S).2.2 σ) (fun a ha => hops a (by simp [E.opsL, ha]))
      (fun a ha => by
        rcases List.mem_append.mp ha with ha | ha
        · exact hL a ha
        · exact hops a (by simp [E.opsL, ha]))
      (hcl.append (ops_trans.1 e)) (hK.grow g1)
      (fun a ha hL' => by
        rcases List.mem_append.mp hL' with h | h
        · exact Or.inl (hR a (by simp [E.opsL, ha]) h)
        · exact Or.inr h)
      h1 h2 hM'
    refine ⟨?_, ?_, ?_⟩
    · simp only [exI_append]
      refine k1.mono ?_
      intro a ha
      simp only [E.opsL, List.mem_append] at ha
      tauto
    · simp only [exI_append]; exact k2
    · intro τ hτ hx
      simp only [List.map_cons, E.evalL]
      rw [h3 τ (hτ.mono (fun a ha => by simp [E.opsL, ha])) hx, k3 τ (hτ.mono (fun a ha => by simp [E.opsL, ha])) hx]

end Verif.LlvmGen
