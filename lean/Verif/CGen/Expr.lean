import Verif.CGen.Sim
import Mathlib.Tactic.Linarith

namespace Verif.CGen

open Verif.Names (Name indexed search startIndex)

variable {V : Type}

/-- The name hint of the node cannot give the name of an argument. -/
def Clean (P : List Name) (n : Node) : Prop :=
  ∀ p, hint n = some p → ∀ ds : Name, (∀ d ∈ ds, d.isDigit = true) → p ++ ds ∉ P

theorem sub_size : ∀ (n m : Node), m ∈ sub n → sizeOf m ≤ sizeOf n := by
  intro n
  induction n with
  | cst i k => intro m h; simp only [sub, List.mem_singleton] at h; subst h; exact le_rfl
  | var x => intro m h; simp only [sub, List.mem_singleton] at h; subst h; exact le_rfl
  | un i o a ih =>
    intro m h
    simp only [sub, List.mem_cons] at h
    rcases h with rfl | h
    · exact le_rfl
    · have := ih m h
      simp only [Node.un.sizeOf_spec]
      omega
  | bin i o a b iha ihb =>
    intro m h
    simp only [sub, List.mem_cons, List.mem_append] at h
    simp only [Node.bin.sizeOf_spec]
    rcases h with rfl | h | h
    · simp only [Node.bin.sizeOf_spec]; exact le_rfl
    · have := iha m h; omega
    · have := ihb m h; omega

theorem un_not_sub (i : Info) (o : ℕ) (a : Node) : Node.un i o a ∉ sub a := by
  intro h
  have := sub_size _ _ h
  simp only [Node.un.sizeOf_spec] at this
  omega

theorem bin_not_sub (i : Info) (o : ℕ) (a b : Node) :
    Node.bin i o a b ∉ sub a ∧ Node.bin i o a b ∉ sub b := by
  constructor <;>
  · intro h
    have := sub_size _ _ h
    simp only [Node.bin.sizeOf_spec] at this
    omega

theorem add_found {M : Vis} {c : Bool} {e : Node} (he : e ∈ M.all)
    (hc : ∀ n ∈ M.all, ∀ m ∈ sub n, m ∈ M.all) :
    (∀ n, n ∈ M.all ↔ n ∈ (M.add c e).all) ∧ (∀ n, n ∈ M.stored ↔ n ∈ (M.add c e).stored) := by
  refine ⟨fun n => ?_, fun n => ?_⟩
  · rw [add_all]
    exact ⟨.inl, fun h => h.elim id (hc e he n)⟩
  · rw [add_stored]
    exact ⟨.inl, fun h => h.elim id (fun h' => absurd (hc e he n h'.1) h'.2.1)⟩

theorem stores_kept_un (c : Bool) (i : Info) (o : ℕ) (a : Node) : stores i c = kept c (.un i o a) := by
  unfold stores kept
  rcases i with ⟨_, _, _ | _ | _, _⟩ <;> cases c <;> rfl

theorem stores_kept_bin (c : Bool) (i : Info) (o : ℕ) (a b : Node) :
    stores i c = kept c (.bin i o a b) := by
  unfold stores kept
  rcases i with ⟨_, _, _ | _ | _, _⟩ <;> cases c <;> rfl

/-- Visible nodes after an operation and its operand. -/
theorem push_un {M : Vis} {c : Bool} {i : Info} {o : ℕ} {a : Node} (h : .un i o a ∉ M.all) :
    (∀ n, n ∈ ((M.add c a).push (.un i o a) (stores i c)).all ↔ n ∈ (M.add c (.un i o a)).all) ∧
    (∀ n, n ∈ ((M.add c a).push (.un i o a) (stores i c)).stored ↔
      n ∈ (M.add c (.un i o a)).stored) := by
  refine ⟨fun n => ?_, fun n => ?_⟩
  · rw [push_all, add_all, add_all]
    simp only [sub, List.mem_cons]
    tauto
  · rw [push_stored, add_stored, add_stored, stores_kept_un c i o a]
    simp only [sub, List.mem_cons]
    constructor
    · rintro (⟨h1, rfl⟩ | h1 | ⟨h1, h2⟩)
      · exact .inr ⟨.inl rfl, h, h1⟩
      · exact .inl h1
      · exact .inr ⟨.inr h1, h2⟩
    · rintro (h1 | ⟨rfl | h1, h2⟩)
      · exact .inr (.inl h1)
      · exact .inl ⟨h2.2, rfl⟩
      · exact .inr (.inr ⟨h1, h2⟩)

/-- Visible nodes after an operation and its two operands, in either order. -/
theorem push_bin {M : Vis} {c : Bool} {i : Info} {o : ℕ} {a b a' b' : Node}
    (hab : (a' = a ∧ b' = b) ∨ (a' = b ∧ b' = a)) (h : .bin i o a b ∉ M.all) :
    (∀ n, n ∈ (((M.add c a').add c b').push (.bin i o a b) (stores i c)).all ↔
      n ∈ (M.add c (.bin i o a b)).all) ∧
    (∀ n, n ∈ (((M.add c a').add c b').push (.bin i o a b) (stores i c)).stored ↔
      n ∈ (M.add c (.bin i o a b)).stored) := by
  have hs : ∀ n, n ∈ sub a' ∨ n ∈ sub b' ↔ n ∈ sub a ∨ n ∈ sub b := by
    rcases hab with ⟨rfl, rfl⟩ | ⟨rfl, rfl⟩
    · exact fun n => Iff.rfl
    · exact fun n => or_comm
  refine ⟨fun n => ?_, fun n => ?_⟩
  · rw [push_all, add_all, add_all, add_all]
    simp only [sub, List.mem_cons, List.mem_append]
    rw [or_assoc, hs]
    tauto
  · rw [push_stored, add_stored, add_stored, add_stored, add_all, stores_kept_bin c i o a b]
    simp only [sub, List.mem_cons, List.mem_append]
    rw [← hs]
    constructor
    · rintro (⟨h1, rfl⟩ | (h1 | ⟨h1, h2⟩) | ⟨h1, h2⟩)
      · exact .inr ⟨.inl rfl, h, h1⟩
      · exact .inl h1
      · exact .inr ⟨.inr (.inl h1), h2⟩
      · exact .inr ⟨.inr (.inr h1), fun h' => h2.1 (.inl h'), h2.2⟩
    · rintro (h1 | ⟨rfl | h1, h2⟩)
      · exact .inr (.inl (.inl h1))
      · exact .inl ⟨h2.2, rfl⟩
      · by_cases ha : n ∈ sub a'
        · exact .inr (.inl (.inr ⟨ha, h2⟩))
        · refine .inr (.inr ⟨h1.resolve_left ha, ?_, h2.2⟩)
          rintro (h' | h')
          · exact h2.1 h'
          · exact ha h'

theorem push_leaf {M : Vis} {c s : Bool} {e : Node} (hs : sub e = [e]) (hk : kept c e = false)
    (hsf : s = false) :
    (∀ n, n ∈ (M.push e s).all ↔ n ∈ (M.add c e).all) ∧
    (∀ n, n ∈ (M.push e s).stored ↔ n ∈ (M.add c e).stored) := by
  subst hsf
  refine ⟨fun n => ?_, fun n => ?_⟩
  · rw [push_all, add_all, hs, List.mem_singleton]; tauto
  · rw [push_stored, add_stored, hs, List.mem_singleton]
    constructor
    · rintro (⟨h, _⟩ | h)
      · cases h
      · exact .inl h
    · rintro (h | ⟨rfl, _, h⟩)
      · exact .inr h
      · rw [hk] at h; cases h

/-- What is proved of the result of generating code for an expression. -/
def Good (P : List Name) (k : Ctx) (N : Node → Prop) (st : St) (M : Vis) (n : Node)
    (r : CExpr × Code × St) : Prop :=
  Wf P k r.2.2 M N ∧ find k r.2.2 n = some r.1 ∧ Ext k st r.2.2

theorem good_assemble {P k N} {st : St} {M : Vis} {c : Bool} {i : Info} {n : Node} {e : CExpr}
    (hw : Wf P k st M N) (h : find k st n = none) (hsub : ∀ m ∈ sub n, m = n ∨ m ∈ M.all)
    (hcl : Clean P n) (hh : hint n = some (i.tag.getD "tmp".toList))
    (hl : n.isLeaf = false) (hloc : n.isLocal = false)
    (hc : (∃ i o a ea, n = .un i o a ∧ find k st a = some ea ∧ e = .un o ea) ∨
      (∃ i o a b ea eb, n = .bin i o a b ∧ find k st a = some ea ∧ find k st b = some eb ∧
        e = .bin o ea eb)) :
    Good P k N st (M.push n (stores i c)) n (assemble k c i n e st) := by
  unfold assemble
  cases hst : stores i c with
  | true =>
    rw [if_pos rfl]
    refine ⟨wf_slot hw h hsub (.inl ⟨rfl, hloc⟩) hl (hcl _ hh), ?_, ext_declare h⟩
    rw [find_remember, if_pos rfl]
  | false =>
    rw [if_neg (by simp)]
    refine ⟨wf_inl hw h hsub hloc (.inr (.inr hc)), ?_, ext_remember h⟩
    rw [find_remember, if_pos rfl]

theorem Good.congr {P k N st M M' n r} (h : Good P k N st M n r)
    (hM : (∀ n, n ∈ M.all ↔ n ∈ M'.all) ∧ (∀ n, n ∈ M.stored ↔ n ∈ M'.stored)) :
    Good P k N st M' n r := ⟨h.1.congr hM.1 hM.2, h.2⟩

theorem genE_good {P k N} (c : Bool) : ∀ (e : Node) (st : St) (M : Vis), Wf P k st M N →
    (∀ m ∈ sub e, Clean P m) → Good P k N st (M.add c e) e (genE k c e st) := by
  have found : ∀ (e : Node) (x : CExpr) (st : St) (M : Vis), Wf P k st M N → find k st e = some x →
      Good P k N st (M.add c e) e (x, .skip, st) := by
    intro e x st M hw he
    have : e ∈ M.all := (hw.dom e).1 (by rw [he]; rfl)
    have h' := add_found (c := c) this hw.closed
    exact ⟨hw.congr h'.1 h'.2, he, Ext.refl k st⟩
  intro e
  induction e with
  | cst i v =>
    intro st M hw hcl
    unfold genE
    cases h : find k st (.cst i v) with
    | some x => exact found _ x st M hw h
    | none =>
      have hp := push_leaf (M := M) (c := c) (e := .cst i v) (s := false) rfl rfl rfl
      refine ⟨(wf_inl hw h ?_ rfl (.inl ⟨_, _, rfl, rfl⟩)).congr hp.1 hp.2, ?_, ext_remember h⟩
      · intro m hm; left; simpa [sub] using hm
      · rw [find_remember, if_pos rfl]
  | var x =>
    intro st M hw hcl
    cases x with
    | input t =>
      unfold genE
      cases h : find k st (.var (.input t)) with
      | some x => exact found _ x st M hw h
      | none =>
        have hp := push_leaf (M := M) (c := c) (e := .var (.input t)) (s := false) rfl rfl rfl
        refine ⟨(wf_inl hw h ?_ rfl (.inr (.inl ⟨_, rfl, rfl⟩))).congr hp.1 hp.2, ?_, ext_remember h⟩
        · intro m hm; left; simpa [sub] using hm
        · rw [find_remember, if_pos rfl]
    | loc i t =>
      unfold genE
      cases h : find k st (.var (.loc i t)) with
      | some x => exact found _ x st M hw h
      | none =>
        have hp := push_leaf (M := M) (c := c) (e := .var (.loc i t)) (s := false) rfl rfl rfl
        refine ⟨(wf_slot (s := false) hw h ?_ (.inr ⟨rfl, rfl⟩) rfl
          (hcl _ (self_mem_sub _) t rfl)).congr hp.1 hp.2, ?_, ext_declare h⟩
        · intro m hm; left; simpa [sub] using hm
        · rw [find_remember, if_pos rfl]
  | un i o a ih =>
    intro st M hw hcl
    unfold genE
    cases h : find k st (.un i o a) with
    | some x => exact found _ x st M hw h
    | none =>
      have hno := hw.none h
      obtain ⟨w1, f1, x1⟩ := ih st M hw (fun m hm => hcl m (by simp [sub, hm]))
      have hnone : find k (genE k c a st).2.2 (.un i o a) = none := by
        have : ¬ (find k (genE k c a st).2.2 (.un i o a)).isSome = true := by
          rw [w1.dom, add_all]
          rintro (h' | h')
          · exact hno h'
          · exact un_not_sub i o a h'
        simpa using this
      have g := good_assemble (c := c) (i := i) (e := .un o (genE k c a st).1) w1 hnone
        (fun m hm => by
          simp only [sub, List.mem_cons] at hm
          exact hm.imp id (fun hm => add_all.2 (.inr hm)))
        (hcl _ (self_mem_sub _)) rfl rfl rfl (.inl ⟨i, o, a, _, rfl, f1, rfl⟩)
      have g' := g.congr (push_un hno)
      exact ⟨g'.1, g'.2.1, x1.trans g'.2.2⟩
  | bin i o a b iha ihb =>
    intro st M hw hcl
    unfold genE
    cases h : find k st (.bin i o a b) with
    | some x => exact found _ x st M hw h
    | none =>
      have hno := hw.none h
      have hca : ∀ m ∈ sub a, Clean P m := fun m hm => hcl m (by simp [sub, hm])
      have hcb : ∀ m ∈ sub b, Clean P m := fun m hm => hcl m (by simp [sub, hm])
      cases hsw : i.swap with
      | true =>
        simp only [hsw, if_true]
        obtain ⟨w1, f1, x1⟩ := ihb st M hw hcb
        obtain ⟨w2, f2, x2⟩ := iha _ _ w1 hca
        have hnone : find k (genE k c a (genE k c b st).2.2).2.2 (.bin i o a b) = none := by
          have : ¬ (find k (genE k c a (genE k c b st).2.2).2.2 (.bin i o a b)).isSome = true := by
            rw [w2.dom, add_all, add_all]
            rintro ((h' | h') | h')
            · exact hno h'
            · exact (bin_not_sub i o a b).2 h'
            · exact (bin_not_sub i o a b).1 h'
          simpa using this
        have g := good_assemble (c := c) (i := i)
          (e := .bin o (genE k c a (genE k c b st).2.2).1 (genE k c b st).1) w2 hnone
          (fun m hm => by
            simp only [sub, List.mem_cons, List.mem_append] at hm
            refine hm.imp id (fun hm => ?_)
            rw [add_all, add_all]
            tauto)
          (hcl _ (self_mem_sub _)) rfl rfl rfl (.inr ⟨i, o, a, b, _, _, rfl, f2, x2.find _ _ f1, rfl⟩)
        have g' := g.congr (push_bin (.inr ⟨rfl, rfl⟩) hno)
        exact ⟨g'.1, g'.2.1, (x1.trans x2).trans g'.2.2⟩
      | false =>
        simp only [hsw]
        rw [if_neg (by simp)]
        obtain ⟨w1, f1, x1⟩ := iha st M hw hca
        obtain ⟨w2, f2, x2⟩ := ihb _ _ w1 hcb
        have hnone : find k (genE k c b (genE k c a st).2.2).2.2 (.bin i o a b) = none := by
          have : ¬ (find k (genE k c b (genE k c a st).2.2).2.2 (.bin i o a b)).isSome = true := by
            rw [w2.dom, add_all, add_all]
            rintro ((h' | h') | h')
            · exact hno h'
            · exact (bin_not_sub i o a b).1 h'
            · exact (bin_not_sub i o a b).2 h'
          simpa using this
        have g := good_assemble (c := c) (i := i)
          (e := .bin o (genE k c a st).1 (genE k c b (genE k c a st).2.2).1) w2 hnone
          (fun m hm => by
            simp only [sub, List.mem_cons, List.mem_append] at hm
            refine hm.imp id (fun hm => ?_)
            rw [add_all, add_all]
            tauto)
          (hcl _ (self_mem_sub _)) rfl rfl rfl (.inr ⟨i, o, a, b, _, _, rfl, x2.find _ _ f1, f2, rfl⟩)
        have g' := g.congr (push_bin (.inl ⟨rfl, rfl⟩) hno)
        exact ⟨g'.1, g'.2.1, (x1.trans x2).trans g'.2.2⟩

/-! ## Execution -/

theorem sim_inl {I : Interp V} {P k st M N σ ρ} (hs : Sim I P k st M N σ ρ) {n : Node} {c : CExpr}
    (h : find k st n = none) (hno : n ∉ M.stored) : Sim I P k (remember st n c) (M.push n false) N σ ρ := by
  refine ⟨hs.inp, fun i t hn v hv => ?_, fun m hm hm' t ht => ?_⟩
  · obtain ⟨x, h1, h2⟩ := hs.loc i t hn v hv
    exact ⟨x, (ext_remember h).find _ _ h1, h2⟩
  · have hst : m ∈ M.stored := by
      rcases push_stored.1 hm' with ⟨h', _⟩ | h'
      · cases h'
      · exact h'
    rw [find_remember, if_neg (by rintro rfl; exact hno hst)] at ht
    exact hs.val m hm hst t ht

theorem sim_slot {I : Interp V} {P k st M N σ ρ ρ'} (hw : Wf P k st M N) (hs : Sim I P k st M N σ ρ)
    {n : Node} {p : Name} {v : V} (h : find k st n = none)
    (hp : ∀ ds : Name, (∀ d ∈ ds, d.isDigit = true) → p ++ ds ∉ P) (hv : eval I σ n = some v)
    (hset : set ρ (declare k st p).1 v = some ρ') :
    Sim I P k (remember (declare k st p).2 n (.var (declare k st p).1)) (M.push n true) N σ ρ' := by
  refine ⟨fun q hq => ?_, fun i t hn w hσ => ?_, fun m hm hm' t ht => ?_⟩
  · rw [look_set hset, if_neg, hs.inp q hq]
    rintro rfl
    obtain ⟨ds, h1, h2⟩ := freeName_form (visible k st) (st.scope.index.lookup p) p
    have : (declare k st p).1 = p ++ ds := h2
    rw [this] at hq
    exact hp ds h1 hq
  · obtain ⟨x, h1, h2⟩ := hs.loc i t hn w hσ
    refine ⟨x, (ext_declare h).find _ _ h1, ?_⟩
    rw [look_set hset, if_neg, h2]
    rintro rfl
    obtain ⟨t', ht', e⟩ := hw.shape _ hn (.inl rfl) _ h1
    cases e
    exact declare_fresh k st p ht'
  · rw [find_remember, find_declare] at ht
    split at ht
    · rename_i hmn
      cases ht
      rw [hmn]
      exact ⟨v, hv, by rw [look_set hset, if_pos rfl]⟩
    · rename_i hmn
      have hst : m ∈ M.stored := by
        rcases push_stored.1 hm' with ⟨_, h'⟩ | h'
        · exact absurd h' hmn
        · exact h'
      obtain ⟨w, h1, h2⟩ := hs.val m hm hst t ht
      refine ⟨w, h1, ?_⟩
      rw [look_set hset, if_neg, h2]
      rintro rfl
      obtain ⟨t', ht', e⟩ := hw.shape m hm (.inr hst) _ ht
      cases e
      exact declare_fresh k st p ht'

theorem sim_assemble {I : Interp V} {P k st M N σ ρ} (hw : Wf P k st M N) (hs : Sim I P k st M N σ ρ)
    {c : Bool} {i : Info} {n : Node} {e : CExpr} {v : V} (fuel : ℕ) (h : find k st n = none)
    (hcl : Clean P n) (hh : hint n = some (i.tag.getD "tmp".toList)) (hv : eval I σ n = some v)
    (he : evalC I ρ e = some v)
    (hb : ∀ t ∈ opened k (assemble k c i n e st).2.2, (look ρ t).isSome = true) :
    ∃ ρ', execC I fuel (assemble k c i n e st).2.1 ρ = .norm ρ' ∧
      Sim I P k (assemble k c i n e st).2.2 (M.push n (stores i c)) N σ ρ' := by
  unfold assemble at hb ⊢
  cases hst : stores i c with
  | true =>
    rw [hst, if_pos rfl] at hb
    rw [if_pos rfl]
    obtain ⟨ρ', hρ'⟩ := set_isSome (hb (declare k st (i.tag.getD "tmp".toList)).1 (by
      show _ ∈ opened k (declare k st (i.tag.getD "tmp".toList)).2
      rw [opened_declare]
      exact List.mem_cons_self)) v
    refine ⟨ρ', ?_, sim_slot hw hs h (hcl _ hh) hv hρ'⟩
    simp only [execC, he, hρ']
  | false =>
    rw [if_neg (by simp)]
    exact ⟨ρ, rfl, sim_inl hs h (fun h' => hw.none h (hw.ssub _ h'))⟩

theorem bound_doms {ρ ρ' : Env V} (h : doms ρ' = doms ρ) {t : Name} (ht : (look ρ t).isSome = true) :
    (look ρ' t).isSome = true := by
  rw [look_isSome] at ht ⊢
  rw [h]; exact ht

theorem genE_sim {I : Interp V} {P k N σ} (fuel : ℕ) (c : Bool) (hN : ∀ n, N n → ∀ m ∈ sub n, N m)
    (hP : ∀ t, N (.var (.input t)) → t ∈ P) :
    ∀ (e : Node) (st : St) (M : Vis) (ρ : Env V) (v : V), Wf P k st M N → Sim I P k st M N σ ρ →
    N e → (∀ m ∈ sub e, Clean P m) → eval I σ e = some v →
    (∀ t ∈ opened k (genE k c e st).2.2, (look ρ t).isSome = true) →
    ∃ ρ', execC I fuel (genE k c e st).2.1 ρ = .norm ρ' ∧
      Sim I P k (genE k c e st).2.2 (M.add c e) N σ ρ' ∧ evalC I ρ' (genE k c e st).1 = some v := by
  have fin : ∀ (e : Node) (st : St) (M : Vis) (ρ : Env V) (v : V), Wf P k st M N → N e →
      (∀ m ∈ sub e, Clean P m) → eval I σ e = some v →
      (∃ ρ', execC I fuel (genE k c e st).2.1 ρ = .norm ρ' ∧
        Sim I P k (genE k c e st).2.2 (M.add c e) N σ ρ') →
      ∃ ρ', execC I fuel (genE k c e st).2.1 ρ = .norm ρ' ∧
        Sim I P k (genE k c e st).2.2 (M.add c e) N σ ρ' ∧ evalC I ρ' (genE k c e st).1 = some v := by
    rintro e st M ρ v hw hn hcl hv ⟨ρ', h1, h2⟩
    obtain ⟨w, f, _⟩ := genE_good c e st M hw hcl
    exact ⟨ρ', h1, h2, value w h2 hN hP e hn _ f v hv⟩
  have found : ∀ (e : Node) (x : CExpr) (st : St) (M : Vis) (ρ : Env V), Wf P k st M N →
      Sim I P k st M N σ ρ → find k st e = some x →
      Sim I P k st (M.add c e) N σ ρ := by
    intro e x st M ρ hw hs he
    have : e ∈ M.all := (hw.dom e).1 (by rw [he]; rfl)
    exact hs.congr (add_found (c := c) this hw.closed).2
  intro e
  induction e with
  | cst i x =>
    intro st M ρ v hw hs hn hcl hv hb
    refine fin _ st M ρ v hw hn hcl hv ?_
    unfold genE
    cases h : find k st (.cst i x) with
    | some y => exact ⟨ρ, rfl, found _ y st M ρ hw hs h⟩
    | none =>
      exact ⟨ρ, rfl, (sim_inl hs h (fun h' => hw.none h (hw.ssub _ h'))).congr
        (push_leaf rfl rfl rfl).2⟩
  | var x =>
    intro st M ρ v hw hs hn hcl hv hb
    refine fin _ st M ρ v hw hn hcl hv ?_
    cases x with
    | input t =>
      unfold genE
      cases h : find k st (.var (.input t)) with
      | some y => exact ⟨ρ, rfl, found _ y st M ρ hw hs h⟩
      | none =>
        exact ⟨ρ, rfl, (sim_inl hs h (fun h' => hw.none h (hw.ssub _ h'))).congr
          (push_leaf rfl rfl rfl).2⟩
    | loc i t =>
      obtain ⟨x, h1, h2⟩ := hs.loc i t hn v hv
      unfold genE
      rw [h1]
      exact ⟨ρ, rfl, found _ _ st M ρ hw hs h1⟩
  | un i o a ih =>
    intro st M ρ v hw hs hn hcl hv hb
    refine fin _ st M ρ v hw hn hcl hv ?_
    unfold genE at hb ⊢
    cases h : find k st (.un i o a) with
    | some y => exact ⟨ρ, rfl, found _ y st M ρ hw hs h⟩
    | none =>
      rw [h] at hb
      simp only at hb ⊢
      have hno := hw.none h
      have hca : ∀ m ∈ sub a, Clean P m := fun m hm => hcl m (by simp [sub, hm])
      obtain ⟨va, hva, hvv⟩ : ∃ va, eval I σ a = some va ∧ I.un o va = v := by
        simpa [eval, Option.map_eq_some_iff] using hv
      obtain ⟨w1, f1, x1⟩ := genE_good c a st M hw hca
      have hnone : find k (genE k c a st).2.2 (.un i o a) = none := by
        have : ¬ (find k (genE k c a st).2.2 (.un i o a)).isSome = true := by
          rw [w1.dom, add_all]
          rintro (h' | h')
          · exact hno h'
          · exact un_not_sub i o a h'
        simpa using this
      have xa := (good_assemble (c := c) (i := i) (e := .un o (genE k c a st).1) w1 hnone
        (fun m hm => by
          simp only [sub, List.mem_cons] at hm
          exact hm.imp id (fun hm => add_all.2 (.inr hm)))
        (hcl _ (self_mem_sub _)) rfl rfl rfl (.inl ⟨i, o, a, _, rfl, f1, rfl⟩)).2.2
      obtain ⟨ρ1, e1, s1, v1⟩ := ih st M ρ va hw hs (hN _ hn a (by simp [sub, self_mem_sub])) hca hva
        (fun t ht => hb t (xa.opened t ht))
      obtain ⟨ρ2, e2, s2⟩ := sim_assemble (c := c) (i := i) (e := .un o (genE k c a st).1) w1 s1 fuel
        hnone (hcl _ (self_mem_sub _)) rfl hv (by simp [evalC, v1, hvv])
        (fun t ht => bound_doms (doms_exec I fuel _ _ _ e1) (hb t ht))
      refine ⟨ρ2, ?_, s2.congr (push_un hno).2⟩
      simp only [execC, e1, Res.andThen, e2]
  | bin i o a b iha ihb =>
    intro st M ρ v hw hs hn hcl hv hb
    refine fin _ st M ρ v hw hn hcl hv ?_
    unfold genE at hb ⊢
    cases h : find k st (.bin i o a b) with
    | some y => exact ⟨ρ, rfl, found _ y st M ρ hw hs h⟩
    | none =>
      rw [h] at hb
      simp only at hb ⊢
      have hno := hw.none h
      have hca : ∀ m ∈ sub a, Clean P m := fun m hm => hcl m (by simp [sub, hm])
      have hcb : ∀ m ∈ sub b, Clean P m := fun m hm => hcl m (by simp [sub, hm])
      have hna := hN _ hn a (by simp [sub, self_mem_sub])
      have hnb := hN _ hn b (by simp [sub, self_mem_sub])
      obtain ⟨va, hva, vb, hvb, hvv⟩ : ∃ va, eval I σ a = some va ∧ ∃ vb, eval I σ b = some vb ∧
          I.bin o va vb = v := by
        simpa [eval, Option.bind_eq_some_iff, Option.map_eq_some_iff] using hv
      cases hsw : i.swap with
      | true =>
        simp only [hsw, if_true] at hb ⊢
        obtain ⟨w1, f1, x1⟩ := genE_good c b st M hw hcb
        obtain ⟨w2, f2, x2⟩ := genE_good c a _ _ w1 hca
        have hnone : find k (genE k c a (genE k c b st).2.2).2.2 (.bin i o a b) = none := by
          have : ¬ (find k (genE k c a (genE k c b st).2.2).2.2 (.bin i o a b)).isSome = true := by
            rw [w2.dom, add_all, add_all]
            rintro ((h' | h') | h')
            · exact hno h'
            · exact (bin_not_sub i o a b).2 h'
            · exact (bin_not_sub i o a b).1 h'
          simpa using this
        have xa := (good_assemble (c := c) (i := i)
          (e := .bin o (genE k c a (genE k c b st).2.2).1 (genE k c b st).1) w2 hnone
          (fun m hm => by
            simp only [sub, List.mem_cons, List.mem_append] at hm
            refine hm.imp id (fun hm => ?_)
            rw [add_all, add_all]
            tauto)
          (hcl _ (self_mem_sub _)) rfl rfl rfl
          (.inr ⟨i, o, a, b, _, _, rfl, f2, x2.find _ _ f1, rfl⟩)).2.2
        obtain ⟨ρ1, e1, s1, v1⟩ := ihb st M ρ vb hw hs hnb hcb hvb
          (fun t ht => hb t (xa.opened t (x2.opened t ht)))
        have d1 := doms_exec I fuel _ _ _ e1
        obtain ⟨ρ2, e2, s2, v2⟩ := iha _ _ ρ1 va w1 s1 hna hca hva
          (fun t ht => bound_doms d1 (hb t (xa.opened t ht)))
        have d2 := (doms_exec I fuel _ _ _ e2).trans d1
        have v1' := value w2 s2 hN hP b hnb _ (x2.find _ _ f1) vb hvb
        obtain ⟨ρ3, e3, s3⟩ := sim_assemble (c := c) (i := i)
          (e := .bin o (genE k c a (genE k c b st).2.2).1 (genE k c b st).1) w2 s2 fuel
          hnone (hcl _ (self_mem_sub _)) rfl hv (by simp [evalC, v1', v2, hvv])
          (fun t ht => bound_doms d2 (hb t ht))
        refine ⟨ρ3, ?_, s3.congr (push_bin (.inr ⟨rfl, rfl⟩) hno).2⟩
        simp only [execC, e1, Res.andThen, e2, e3]
      | false =>
        simp only [hsw] at hb ⊢
        rw [if_neg (by simp)] at hb ⊢
        obtain ⟨w1, f1, x1⟩ := genE_good c a st M hw hca
        obtain ⟨w2, f2, x2⟩ := genE_good c b _ _ w1 hcb
        have hnone : find k (genE k c b (genE k c a st).2.2).2.2 (.bin i o a b) = none := by
          have : ¬ (find k (genE k c b (genE k c a st).2.2).2.2 (.bin i o a b)).isSome = true := by
            rw [w2.dom, add_all, add_all]
            rintro ((h' | h') | h')
            · exact hno h'
            · exact (bin_not_sub i o a b).1 h'
            · exact (bin_not_sub i o a b).2 h'
          simpa using this
        have xa := (good_assemble (c := c) (i := i)
          (e := .bin o (genE k c a st).1 (genE k c b (genE k c a st).2.2).1) w2 hnone
          (fun m hm => by
            simp only [sub, List.mem_cons, List.mem_append] at hm
            refine hm.imp id (fun hm => ?_)
            rw [add_all, add_all]
            tauto)
          (hcl _ (self_mem_sub _)) rfl rfl rfl
          (.inr ⟨i, o, a, b, _, _, rfl, x2.find _ _ f1, f2, rfl⟩)).2.2
        obtain ⟨ρ1, e1, s1, v1⟩ := iha st M ρ va hw hs hna hca hva
          (fun t ht => hb t (xa.opened t (x2.opened t ht)))
        have d1 := doms_exec I fuel _ _ _ e1
        obtain ⟨ρ2, e2, s2, v2⟩ := ihb _ _ ρ1 vb w1 s1 hnb hcb hvb
          (fun t ht => bound_doms d1 (hb t (xa.opened t ht)))
        have d2 := (doms_exec I fuel _ _ _ e2).trans d1
        have v1' := value w2 s2 hN hP a hna _ (x2.find _ _ f1) va hva
        obtain ⟨ρ3, e3, s3⟩ := sim_assemble (c := c) (i := i)
          (e := .bin o (genE k c a st).1 (genE k c b (genE k c a st).2.2).1) w2 s2 fuel
          hnone (hcl _ (self_mem_sub _)) rfl hv (by simp [evalC, v1', v2, hvv])
          (fun t ht => bound_doms d2 (hb t ht))
        refine ⟨ρ3, ?_, s3.congr (push_bin (.inl ⟨rfl, rfl⟩) hno).2⟩
        simp only [execC, e1, Res.andThen, e2, e3]

end Verif.CGen
