import Verif.Lin.Model
import Mathlib.Tactic.Ring
import Mathlib.Data.List.Dedup

/-! # Lemmas: the code of an expression computes it -/

namespace Verif.Lin

open Verif.Machine (Ctl runL End)

variable {V : Type}

/-- induction on expressions -/
theorem E.ind {P : E V → Prop} {Q : List (E V) → Prop} (hv : ∀ x, P (.var x)) (hc : ∀ c, P (.cst c)) (ho : ∀ i f args, Q args → P (.op i f args))
    (hn : Q []) (hcons : ∀ e es, P e → Q es → Q (e :: es)) : (∀ e, P e) ∧ ∀ es, Q es := by
  constructor
  · intro e
    exact E.rec (motive_1 := P) (motive_2 := Q) hv hc ho hn hcons e
  · intro es
    induction es with
    | nil => exact hn
    | cons e es ih => exact hcons e es (E.rec (motive_1 := P) (motive_2 := Q) hv hc ho hn hcons e) ih

theorem eval_congr (env env' : ℕ → V) :
    (∀ e : E V, (∀ x ∈ e.vars, env x = env' x) → e.eval env = e.eval env') ∧
    ∀ es : List (E V), (∀ x ∈ E.varsL es, env x = env' x) → E.evalL env es = E.evalL env' es := by
  refine E.ind ?_ ?_ ?_ ?_ ?_
  · intro x h; exact h x (by simp [E.vars])
  · intro c _; rfl
  · intro i f args ih h
    simp only [E.eval]; rw [ih h]
  · intro _; rfl
  · intro e es h1 h2 h
    simp only [E.evalL]
    rw [h1 (fun x hx => h x (by simp [E.varsL, hx])), h2 (fun x hx => h x (by simp [E.varsL, hx]))]

/-- the registers after instructions that compute -/
def exI : List (Ins V) → (Reg → V) → (Reg → V)
  | [], σ => σ
  | .op r f args :: c, σ => exI c (Function.update σ r (f (args.map (Opnd.val σ))))
  | .copy r q :: c, σ => exI c (Function.update σ r (σ q))
  | .mat r v :: c, σ => exI c (Function.update σ r v)
  | _ :: c, σ => exI c σ

theorem exI_append (c d : List (Ins V)) (σ : Reg → V) : exI (c ++ d) σ = exI d (exI c σ) := by
  induction c generalizing σ with
  | nil => rfl
  | cons i c ih => cases i <;> simp [exI, ih]

/-- instructions made of operations -/
def OnlyOps (c : List (Ins V)) : Prop := ∀ i ∈ c, ∃ r f args, i = .op r f args

theorem OnlyOps.append {c d : List (Ins V)} (h : OnlyOps c) (h' : OnlyOps d) : OnlyOps (c ++ d) := by
  intro i hi
  rcases List.mem_append.mp hi with h1 | h1
  · exact h i h1
  · exact h' i h1

/-- every register handed out is below the next one -/
def St.Ok (S : St) : Prop := ∀ i k, S.memo i = some k → k < S.next

/-- the registers of the nodes of `U` hold their values -/
def Inv (S : St) (U : E V → Prop) (σ : Reg → V) (env : ℕ → V) : Prop :=
  ∀ i f args k, U (.op i f args) → S.memo i = some k → σ (.t k) = (E.op i f args).eval env

/-- What the code `c` of the nodes `os` does, from generator state `S` to `S'`. -/
structure Step (U : E V → Prop) (env : ℕ → V) (S S' : St) (os : List (E V)) (c : List (Ins V)) (σ : Reg → V) : Prop where
  ops : OnlyOps c
  vars : ∀ x, exI c σ (.v x) = σ (.v x)
  old : ∀ k, k < S.next → exI c σ (.t k) = σ (.t k)
  next : S.next ≤ S'.next
  ok : S'.Ok
  inv : Inv S' U (exI c σ) env
  keep : ∀ i k, S.memo i = some k → S'.memo i = some k
  new : ∀ i k, S'.memo i = some k → S.memo i = some k ∨ ∃ a ∈ os, a.idOf = some i

theorem Step.rfl' {U : E V → Prop} {env : ℕ → V} {S : St} {os : List (E V)} {σ : Reg → V} (hO : S.Ok) (hI : Inv S U σ env) :
    Step U env S S os [] σ :=
  ⟨(by intro i hi; cases hi), fun _ => rfl, fun _ _ => rfl, le_refl _, hO, hI, fun _ _ h => h, fun _ _ h => Or.inl h⟩

theorem Step.trans {U : E V → Prop} {env : ℕ → V} {S S1 S2 : St} {o1 o2 : List (E V)} {c d : List (Ins V)} {σ : Reg → V}
    (h : Step U env S S1 o1 c σ) (h' : Step U env S1 S2 o2 d (exI c σ)) : Step U env S S2 (o1 ++ o2) (c ++ d) σ := by
  refine ⟨h.ops.append h'.ops, ?_, ?_, le_trans h.next h'.next, h'.ok, ?_, fun i k hk => h'.keep i k (h.keep i k hk), ?_⟩
  · intro x; rw [exI_append, h'.vars, h.vars]
  · intro k hk; rw [exI_append, h'.old k (lt_of_lt_of_le hk h.next), h.old k hk]
  · rw [exI_append]; exact h'.inv
  · intro i k hk
    rcases h'.new i k hk with h1 | ⟨a, ha, hi⟩
    · rcases h.new i k h1 with h2 | ⟨a, ha, hi⟩
      · exact Or.inl h2
      · exact Or.inr ⟨a, by simp [ha], hi⟩
    · exact Or.inr ⟨a, by simp [ha], hi⟩

/-- an operand whose register was handed out -/
def Opnd.Below (n : ℕ) : Opnd V → Prop
  | .reg (.t k) => k < n
  | _ => True

theorem Opnd.val_eq {n : ℕ} {o : Opnd V} (h : o.Below n) {σ τ : Reg → V} (hv : ∀ x, τ (.v x) = σ (.v x)) (ht : ∀ k, k < n → τ (.t k) = σ (.t k)) :
    o.val τ = o.val σ := by
  cases o with
  | cst v => rfl
  | reg r => cases r with
    | v x => exact hv x
    | t k => exact ht k h

theorem Opnd.Below.mono {n m : ℕ} {o : Opnd V} (h : o.Below n) (hm : n ≤ m) : o.Below m := by
  cases o with
  | cst v => trivial
  | reg r => cases r with
    | v x => trivial
    | t k => exact lt_of_lt_of_le (show k < n from h) hm

/-- the operand of a node, once it was met -/
def Names (S : St) (e : E V) (o : Opnd V) : Prop :=
  match e with
  | .var x => S.seen x = true ∧ o = .reg (.v x)
  | .cst v => o = .cst v
  | .op i _ _ => ∃ k, S.memo i = some k ∧ o = .reg (.t k)

theorem lin_sound {U : E V → Prop} {env : ℕ → V} (hU : ∀ a b : E V, U a → U b → a.idOf = b.idOf → a = b) :
    (∀ e : E V, ∀ (S : St) (σ : Reg → V), (∀ a ∈ e.ops, U a) → S.Ok → Inv S U σ env → (∀ x, σ (.v x) = env x) →
      Step U env S (lin e S).1 e.ops (lin e S).2.2 σ ∧ (lin e S).2.1.val (exI (lin e S).2.2 σ) = e.eval env ∧
      (lin e S).2.1.Below (lin e S).1.next ∧ Names (lin e S).1 e (lin e S).2.1 ∧ ∀ x, S.seen x = true → (lin e S).1.seen x = true) ∧
    ∀ es : List (E V), ∀ (S : St) (σ : Reg → V), (∀ a ∈ E.opsL es, U a) → S.Ok → Inv S U σ env → (∀ x, σ (.v x) = env x) →
      Step U env S (linL es S).1 (E.opsL es) (linL es S).2.2 σ ∧ (linL es S).2.1.map (Opnd.val (exI (linL es S).2.2 σ)) = E.evalL env es ∧
      (∀ o ∈ (linL es S).2.1, o.Below (linL es S).1.next) ∧ ∀ x, S.seen x = true → (linL es S).1.seen x = true := by
  refine E.ind ?_ ?_ ?_ ?_ ?_
  · intro x S σ _ hO hI hv
    refine ⟨?_, ?_, ?_, ?_, ?_⟩
    · simp only [lin]
      exact ⟨(by intro i hi; cases hi), fun _ => rfl, fun _ _ => rfl, le_refl _, hO, hI, fun _ _ h => h, fun _ _ h => Or.inl h⟩
    · simp [lin, Opnd.val, exI, E.eval, hv]
    · simp [lin, Opnd.Below]
    · simp [lin, Names]
    · intro y hy
      simp only [lin, Function.update_apply]
      split_ifs
      · rfl
      · exact hy
  · intro c S σ _ hO hI hv
    refine ⟨Step.rfl' hO hI, rfl, trivial, rfl, fun _ h => h⟩
  · intro i f args ih S σ hops hO hI hv
    have hUo : U (.op i f args) := hops _ (by simp [E.ops])
    cases hm : S.memo i with
    | some k =>
      have hl : lin (.op i f args) S = (S, .reg (.t k), []) := by simp only [lin, hm]
      rw [hl]
      refine ⟨Step.rfl' hO hI, ?_, hO i k hm, ⟨k, hm, rfl⟩, fun _ h => h⟩
      simp only [Opnd.val, exI]
      exact hI i f args k hUo hm
    | none =>
      obtain ⟨h1, h2, h3, h4⟩ := ih S σ (fun a ha => hops a (by simp [E.ops, ha])) hO hI hv
      have hl : lin (.op i f args) S = ({ (linL args S).1 with next := (linL args S).1.next + 1, memo := Function.update (linL args S).1.memo i (some (linL args S).1.next) },
          .reg (.t (linL args S).1.next), (linL args S).2.2 ++ [.op (.t (linL args S).1.next) f (linL args S).2.1]) := by
        simp only [lin, hm]
      rw [hl]
      generalize hr : linL args S = r at h1 h2 h3 h4
      have hex : exI (r.2.2 ++ [.op (.t r.1.next) f r.2.1]) σ = Function.update (exI r.2.2 σ) (.t r.1.next) ((E.op i f args).eval env) := by
        rw [exI_append]; simp only [exI, h2, E.eval]
      have hk' : ∀ k, k < r.1.next → k ≠ r.1.next := fun k hk => Nat.ne_of_lt hk
      refine ⟨⟨h1.ops.append ?_, ?_, ?_, ?_, ?_, ?_, ?_, ?_⟩, ?_, ?_, ?_, ?_⟩
      · intro j hj
        rw [List.mem_singleton] at hj
        exact ⟨_, _, _, hj⟩
      · intro x
        rw [hex, Function.update_of_ne (by simp), h1.vars]
      · intro k hk
        rw [hex, Function.update_of_ne, h1.old k hk]
        intro h
        have := Reg.t.inj h
        have := h1.next
        omega
      · have := h1.next
        show S.next ≤ r.1.next + 1
        omega
      · intro j k hj
        simp only [Function.update_apply] at hj
        show k < r.1.next + 1
        split_ifs at hj with hji
        · cases hj; omega
        · have := h1.ok j k hj
          omega
      · intro j g as k hUj hj
        simp only [Function.update_apply] at hj
        rw [hex]
        split_ifs at hj with hji
        · cases hj
          have := hU _ _ hUj hUo (by simp [E.idOf, hji])
          rw [this, Function.update_self]
        · rw [Function.update_of_ne, h1.inv j g as k hUj hj]
          intro h
          have h5 := Reg.t.inj h
          have := h1.ok j k hj
          omega
      · intro j k hj
        simp only [Function.update_apply]
        rw [if_neg (by rintro rfl; rw [hm] at hj; cases hj)]
        exact h1.keep j k hj
      · intro j k hj
        simp only [Function.update_apply] at hj
        split_ifs at hj with hji
        · exact Or.inr ⟨.op i f args, by simp [E.ops], by simp [E.idOf, hji]⟩
        · rcases h1.new j k hj with h5 | ⟨a, ha, hi⟩
          · exact Or.inl h5
          · exact Or.inr ⟨a, by simp [E.ops, ha], hi⟩
      · rw [hex]; simp [Opnd.val]
      · show r.1.next < r.1.next + 1
        omega
      · exact ⟨r.1.next, by simp, rfl⟩
      · exact h4
  · intro S σ _ hO hI hv
    exact ⟨Step.rfl' hO hI, rfl, (by intro o ho; cases ho), fun _ h => h⟩
  · intro e es ihe ihs S σ hops hO hI hv
    obtain ⟨h1, h2, h3, _, h4⟩ := ihe S σ (fun a ha => hops a (by simp [E.opsL, ha])) hO hI hv
    obtain ⟨g1, g2, g3, g4⟩ := ihs (lin e S).1 (exI (lin e S).2.2 σ) (fun a ha => hops a (by simp [E.opsL, ha])) h1.ok h1.inv (fun x => by rw [h1.vars, hv])
    have hl : linL (e :: es) S = ((linL es (lin e S).1).1, (lin e S).2.1 :: (linL es (lin e S).1).2.1, (lin e S).2.2 ++ (linL es (lin e S).1).2.2) := by simp only [linL]
    rw [hl]
    refine ⟨h1.trans g1, ?_, ?_, fun x hx => g4 x (h4 x hx)⟩
    · simp only [List.map_cons, E.evalL, exI_append]
      rw [g2, Opnd.val_eq h3 g1.vars g1.old, h2]
    · intro o ho
      rcases List.mem_cons.mp ho with rfl | ho
      · exact h3.mono g1.next
      · exact g3 o ho

/-! ## Running the code -/

theorem runL_step {S W : Type} (h : ℕ → List (Ctl S W)) (L : List ℕ) (n k i : ℕ) (s : S) (b : ℕ) (hb : L[k]? = some b) (f : S → S)
    (hi : (h b)[i]? = some (.act f)) : runL h L (n + 1) k i s = runL h L n k (i + 1) (f s) := by
  simp only [runL, hb, hi]

/-- the instructions of an expression, in the machine -/
theorem runL_ops (truth : V → Bool) (h : ℕ → List (Ctl (Mach V) Unit)) (L : List ℕ) (k b : ℕ) (hb : L[k]? = some b) :
    ∀ (c : List (Ins V)) (pre post : List (Ctl (Mach V) Unit)) (σ : Reg → V) (tr : List (List V)) (n : ℕ), OnlyOps c →
      h b = pre ++ c.map (Ins.ctl truth) ++ post →
      runL h L (n + c.length) k pre.length (σ, tr) = runL h L n k (pre.length + c.length) (exI c σ, tr) := by
  intro c
  induction c with
  | nil => intro pre post σ tr n _ _; rfl
  | cons i c ih =>
    intro pre post σ tr n ho hh
    obtain ⟨r, f, args, rfl⟩ := ho i (by simp)
    have hi : (h b)[pre.length]? = some ((Ins.op r f args).ctl truth) := by
      rw [hh]; simp
    rw [List.length_cons, ← Nat.add_assoc, runL_step h L _ k pre.length (σ, tr) b hb _ hi]
    have := ih (pre ++ [(Ins.op r f args).ctl truth]) post (Function.update σ r (f (args.map (Opnd.val σ)))) tr n (fun j hj => ho j (by simp [hj])) (by rw [hh]; simp)
    rw [List.length_append] at this
    simp only [List.length_singleton] at this
    rw [this]
    simp only [exI]
    congr 1
    omega

end Verif.Lin
