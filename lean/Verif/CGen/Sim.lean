import Verif.CGen.Lemmas
import Mathlib.Tactic.Tauto

namespace Verif.CGen

open Verif.Names (Name indexed search startIndex)

variable {V : Type}

/-- The variables declared by the open code levels. -/
def opened (k : Ctx) (st : St) : List Name := st.scope.names ++ k.scopes.flatMap (·.names)

/-- The node has a C variable of its own. -/
def slot (M : Vis) (n : Node) : Prop := n.isLocal = true ∨ n ∈ M.stored

/-- Well-formed generator states. -/
structure Wf (P : List Name) (k : Ctx) (st : St) (M : Vis) (N : Node → Prop) : Prop where
  dom : ∀ n, (find k st n).isSome = true ↔ n ∈ M.all
  closed : ∀ n ∈ M.all, ∀ m ∈ sub n, m ∈ M.all
  ssub : ∀ n ∈ M.stored, n ∈ M.all
  cst : ∀ i c e, find k st (.cst i c) = some e → e = .cst c
  inp : ∀ t e, find k st (.var (.input t)) = some e → e = .var t
  shape : ∀ n, N n → slot M n → ∀ e, find k st n = some e → ∃ t ∈ opened k st, e = .var t
  un : ∀ i o a e, .un i o a ∉ M.stored → find k st (.un i o a) = some e →
    ∃ ea, find k st a = some ea ∧ e = .un o ea
  bin : ∀ i o a b e, .bin i o a b ∉ M.stored → find k st (.bin i o a b) = some e →
    ∃ ea eb, find k st a = some ea ∧ find k st b = some eb ∧ e = .bin o ea eb
  inj : ∀ n m t, N n → N m → slot M n → slot M m → find k st n = some (.var t) →
    find k st m = some (.var t) → n = m
  args : ∀ t ∈ opened k st, t ∉ P
  nleaf : ∀ n ∈ M.stored, n.isLeaf = false ∧ n.isLocal = false

/-- The C variables hold the values of the nodes. -/
structure Sim (I : Interp V) (P : List Name) (k : Ctx) (st : St) (M : Vis) (N : Node → Prop)
    (σ : Store V) (ρ : Env V) : Prop where
  inp : ∀ p ∈ P, look ρ p = some (σ (.input p))
  loc : ∀ i t, N (.var (.loc i t)) → ∀ v, σ (.loc i t) = some v →
    ∃ c, find k st (.var (.loc i t)) = some (.var c) ∧ look ρ c = some (some v)
  val : ∀ n, N n → n ∈ M.stored → ∀ c, find k st n = some (.var c) →
    ∃ v, eval I σ n = some v ∧ look ρ c = some (some v)

theorem Wf.weaken {P k st M} {N N' : Node → Prop} (h : Wf P k st M N) (hN : ∀ n, N' n → N n) :
    Wf P k st M N' :=
  ⟨h.dom, h.closed, h.ssub, h.cst, h.inp, fun n hn => h.shape n (hN n hn), h.un, h.bin,
    fun n m t hn hm => h.inj n m t (hN n hn) (hN m hm), h.args, h.nleaf⟩

theorem Sim.weaken {I : Interp V} {P k st M σ ρ} {N N' : Node → Prop} (h : Sim I P k st M N σ ρ)
    (hN : ∀ n, N' n → N n) : Sim I P k st M N' σ ρ :=
  ⟨h.inp, fun i t hn => h.loc i t (hN _ hn), fun n hn => h.val n (hN n hn)⟩

theorem slot_congr {M M' : Vis} (hs : ∀ n, n ∈ M.stored ↔ n ∈ M'.stored) (n : Node) :
    slot M n ↔ slot M' n := by unfold slot; rw [hs]

theorem Wf.congr {P k st} {M M' : Vis} {N : Node → Prop} (h : Wf P k st M N)
    (ha : ∀ n, n ∈ M.all ↔ n ∈ M'.all) (hs : ∀ n, n ∈ M.stored ↔ n ∈ M'.stored) :
    Wf P k st M' N where
  dom n := (h.dom n).trans (ha n)
  closed n hn m hm := (ha m).1 (h.closed n ((ha n).2 hn) m hm)
  ssub n hn := (ha n).1 (h.ssub n ((hs n).2 hn))
  cst := h.cst
  inp := h.inp
  shape n hn hs' := h.shape n hn ((slot_congr hs n).2 hs')
  un i o a e hn := h.un i o a e (fun h' => hn ((hs _).1 h'))
  bin i o a b e hn := h.bin i o a b e (fun h' => hn ((hs _).1 h'))
  inj n m t hn hm h1 h2 := h.inj n m t hn hm ((slot_congr hs n).2 h1) ((slot_congr hs m).2 h2)
  args := h.args
  nleaf n hn := h.nleaf n ((hs n).2 hn)

theorem Sim.congr {I : Interp V} {P k st σ ρ} {M M' : Vis} {N : Node → Prop}
    (h : Sim I P k st M N σ ρ) (hs : ∀ n, n ∈ M.stored ↔ n ∈ M'.stored) :
    Sim I P k st M' N σ ρ :=
  ⟨h.inp, h.loc, fun n hn hn' => h.val n hn ((hs n).2 hn')⟩

/-- The code of a visible node computes its value. -/
theorem value {I : Interp V} {P k st M σ ρ} {N : Node → Prop} (hw : Wf P k st M N)
    (hs : Sim I P k st M N σ ρ) (hN : ∀ n, N n → ∀ m ∈ sub n, N m)
    (hP : ∀ t, N (.var (.input t)) → t ∈ P) :
    ∀ (n : Node), N n → ∀ e, find k st n = some e → ∀ v, eval I σ n = some v → evalC I ρ e = some v := by
  have stored : ∀ n, N n → n ∈ M.stored → ∀ e, find k st n = some e → ∀ v, eval I σ n = some v →
      evalC I ρ e = some v := by
    intro n hn hst e he v hv
    obtain ⟨t, _, rfl⟩ := hw.shape n hn (.inr hst) e he
    obtain ⟨w, h1, h2⟩ := hs.val n hn hst t he
    rw [hv] at h1
    cases h1
    simp [evalC, h2]
  intro n
  induction n with
  | cst i c =>
    intro hn e he v hv
    rw [hw.cst i c e he]
    exact hv
  | var x =>
    intro hn e he v hv
    cases x with
    | input t =>
      rw [hw.inp t e he]
      simp only [evalC, hs.inp t (hP t hn)]
      simpa [eval] using hv
    | loc i t =>
      obtain ⟨c, h1, h2⟩ := hs.loc i t hn v hv
      rw [he] at h1
      cases h1
      simp [evalC, h2]
  | un i o a ih =>
    intro hn e he v hv
    by_cases hst : Node.un i o a ∈ M.stored
    · exact stored _ hn hst e he v hv
    · obtain ⟨ea, h1, rfl⟩ := hw.un i o a e hst he
      simp only [eval, Option.map_eq_some_iff] at hv
      obtain ⟨va, hva, rfl⟩ := hv
      simp only [evalC, ih (hN _ hn a (by simp [sub, self_mem_sub])) ea h1 va hva, Option.map_some]
  | bin i o a b iha ihb =>
    intro hn e he v hv
    by_cases hst : Node.bin i o a b ∈ M.stored
    · exact stored _ hn hst e he v hv
    · obtain ⟨ea, eb, h1, h2, rfl⟩ := hw.bin i o a b e hst he
      simp only [eval, Option.bind_eq_some_iff, Option.map_eq_some_iff] at hv
      obtain ⟨va, hva, vb, hvb, rfl⟩ := hv
      simp only [evalC, iha (hN _ hn a (by simp [sub, self_mem_sub])) ea h1 va hva,
        ihb (hN _ hn b (by simp [sub, self_mem_sub])) eb h2 vb hvb, Option.map_some, Option.bind_some]

/-! ## Memoization -/

theorem find_remember (k : Ctx) (st : St) (n m : Node) (c : CExpr) :
    find k (remember st n c) m = if m = n then some c else find k st m := by
  unfold find remember findIn
  simp only
  rw [List.lookup_cons]
  by_cases h : m = n
  · subst h; simp
  · have : (m == n) = false := by simpa using h
    rw [this, if_neg h]

theorem find_declare (k : Ctx) (st : St) (p : Name) (m : Node) :
    find k (declare k st p).2 m = find k st m := rfl

theorem declare_fresh (k : Ctx) (st : St) (p : Name) : (declare k st p).1 ∉ opened k st := by
  intro h
  apply freeName_fresh (visible k st) (st.scope.index.lookup p) p
  unfold visible
  exact List.mem_append_left _ h

theorem opened_declare (k : Ctx) (st : St) (p : Name) :
    opened k (declare k st p).2 = (declare k st p).1 :: opened k st := rfl

/-- What generating code for an expression or a statement leaves in place. -/
structure Ext (k : Ctx) (st st' : St) : Prop where
  find : ∀ n e, find k st n = some e → CGen.find k st' n = some e
  names : ∀ t ∈ st.scope.names, t ∈ st'.scope.names

theorem Ext.refl (k : Ctx) (st : St) : Ext k st st := ⟨fun _ _ h => h, fun _ h => h⟩

theorem Ext.trans {k : Ctx} {a b c : St} (h : Ext k a b) (h' : Ext k b c) : Ext k a c :=
  ⟨fun n e he => h'.find n e (h.find n e he), fun t ht => h'.names t (h.names t ht)⟩

theorem Ext.opened {k : Ctx} {a b : St} (h : Ext k a b) : ∀ t ∈ opened k a, t ∈ opened k b := by
  intro t ht
  simp only [CGen.opened, List.mem_append] at ht ⊢
  exact ht.imp (h.names t) id

theorem ext_remember {k : Ctx} {st : St} {n : Node} {c : CExpr} (h : CGen.find k st n = none) :
    Ext k st (remember st n c) := by
  refine ⟨fun m e he => ?_, fun t ht => ht⟩
  rw [find_remember]
  by_cases hm : m = n
  · subst hm; rw [h] at he; cases he
  · rw [if_neg hm]; exact he

theorem ext_declare {k : Ctx} {st : St} {n : Node} {p : Name} {c : CExpr}
    (h : CGen.find k st n = none) : Ext k st (remember (declare k st p).2 n c) := by
  refine ⟨fun m e he => ?_, fun t ht => ?_⟩
  · rw [find_remember, find_declare]
    by_cases hm : m = n
    · subst hm; rw [h] at he; cases he
    · rw [if_neg hm]; exact he
  · exact List.mem_cons_of_mem _ ht

/-- One more visible node. -/
def Vis.push (M : Vis) (n : Node) (s : Bool) : Vis :=
  ⟨n :: M.all, if s then n :: M.stored else M.stored⟩

theorem push_stored {M : Vis} {n m : Node} {s : Bool} :
    m ∈ (M.push n s).stored ↔ (s = true ∧ m = n) ∨ m ∈ M.stored := by
  unfold Vis.push
  cases s <;> simp

theorem push_all {M : Vis} {n m : Node} {s : Bool} :
    m ∈ (M.push n s).all ↔ m = n ∨ m ∈ M.all := by simp [Vis.push]

theorem Wf.none {P k st M N} (hw : Wf P k st M N) {n : Node} (h : find k st n = none) : n ∉ M.all := by
  intro h'
  have := (hw.dom n).2 h'
  rw [h] at this
  cases this

/-- The node gets a fresh variable. -/
theorem wf_slot {P k st M N} (hw : Wf P k st M N) {n : Node} {p : Name} {s : Bool}
    (h : find k st n = none) (hsub : ∀ m ∈ sub n, m = n ∨ m ∈ M.all)
    (hs : (s = true ∧ n.isLocal = false) ∨ (s = false ∧ n.isLocal = true)) (hl : n.isLeaf = false)
    (hp : ∀ ds : Name, (∀ d ∈ ds, d.isDigit = true) → p ++ ds ∉ P) :
    Wf P k (remember (declare k st p).2 n (.var (declare k st p).1)) (M.push n s) N := by
  have hno := hw.none h
  have hslot : ∀ m, slot (M.push n s) m → m = n ∨ slot M m := by
    intro m hm
    rcases hm with hm | hm
    · exact .inr (.inl hm)
    · rcases push_stored.1 hm with ⟨_, rfl⟩ | hm
      · exact .inl rfl
      · exact .inr (.inr hm)
  have ho : ∀ t, t ∈ opened k (remember (declare k st p).2 n (.var (declare k st p).1)) ↔
      t = (declare k st p).1 ∨ t ∈ opened k st := by
    intro t
    show t ∈ opened k (declare k st p).2 ↔ _
    rw [opened_declare, List.mem_cons]
  constructor
  · intro m
    rw [find_remember, find_declare, push_all, ← hw.dom]
    by_cases hm : m = n
    · simp [hm]
    · simp [hm]
  · intro m hm q hq
    rw [push_all] at hm ⊢
    rcases hm with rfl | hm
    · exact hsub q hq
    · exact .inr (hw.closed m hm q hq)
  · intro m hm
    rw [push_all]
    rcases push_stored.1 hm with ⟨_, rfl⟩ | hm
    · exact .inl rfl
    · exact .inr (hw.ssub m hm)
  · intro i c e he
    rw [find_remember, find_declare] at he
    split at he
    · rename_i hn; rw [← hn] at hl; cases hl
    · exact hw.cst i c e he
  · intro t e he
    rw [find_remember, find_declare] at he
    split at he
    · rename_i hn; rw [← hn] at hl; cases hl
    · exact hw.inp t e he
  · intro m hm hsm e he
    rw [find_remember, find_declare] at he
    split at he
    · cases he
      exact ⟨_, (ho _).2 (.inl rfl), rfl⟩
    · rename_i hne
      rcases hslot m hsm with h' | h'
      · exact absurd h' hne
      · obtain ⟨t, ht, rfl⟩ := hw.shape m hm h' e he
        exact ⟨t, (ho t).2 (.inr ht), rfl⟩
  · intro i o a e hns he
    rw [push_stored, not_or] at hns
    rw [find_remember, find_declare] at he
    split at he
    · rename_i hn
      rcases hs with ⟨hs, _⟩ | ⟨_, hs⟩
      · exact absurd ⟨hs, hn⟩ hns.1
      · rw [← hn] at hs; cases hs
    · obtain ⟨ea, h1, h2⟩ := hw.un i o a e hns.2 he
      refine ⟨ea, ?_, h2⟩
      rw [find_remember, find_declare, if_neg, h1]
      rintro rfl
      rw [h] at h1; cases h1
  · intro i o a b e hns he
    rw [push_stored, not_or] at hns
    rw [find_remember, find_declare] at he
    split at he
    · rename_i hn
      rcases hs with ⟨hs, _⟩ | ⟨_, hs⟩
      · exact absurd ⟨hs, hn⟩ hns.1
      · rw [← hn] at hs; cases hs
    · obtain ⟨ea, eb, h1, h2, h3⟩ := hw.bin i o a b e hns.2 he
      refine ⟨ea, eb, ?_, ?_, h3⟩
      · rw [find_remember, find_declare, if_neg, h1]
        rintro rfl
        rw [h] at h1; cases h1
      · rw [find_remember, find_declare, if_neg, h2]
        rintro rfl
        rw [h] at h2; cases h2
  · intro a b t ha hb hsa hsb h1 h2
    rw [find_remember, find_declare] at h1 h2
    split at h1
    · rename_i hna
      split at h2
      · rename_i hnb; exact hna.trans hnb.symm
      · rename_i hnb
        cases h1
        exfalso
        obtain ⟨t, ht, h3⟩ := hw.shape b hb ((hslot b hsb).resolve_left hnb) _ h2
        cases h3
        exact declare_fresh k st p ht
    · rename_i hna
      split at h2
      · cases h2
        exfalso
        obtain ⟨t, ht, h3⟩ := hw.shape a ha ((hslot a hsa).resolve_left hna) _ h1
        cases h3
        exact declare_fresh k st p ht
      · rename_i hnb
        exact hw.inj a b t ha hb ((hslot a hsa).resolve_left hna) ((hslot b hsb).resolve_left hnb) h1 h2
  · intro t ht
    rcases (ho t).1 ht with rfl | ht
    · obtain ⟨ds, h1, h2⟩ := freeName_form (visible k st) (st.scope.index.lookup p) p
      show (freeName (visible k st) (st.scope.index.lookup p) p).1 ∉ P
      rw [h2]
      exact hp ds h1
    · exact hw.args t ht
  · intro m hm
    rcases push_stored.1 hm with ⟨hs', rfl⟩ | hm
    · rcases hs with ⟨_, hs⟩ | ⟨hs, _⟩
      · exact ⟨hl, hs⟩
      · rw [hs'] at hs; cases hs
    · exact hw.nleaf m hm

/-- The node is represented by the code of its operands. -/
theorem wf_inl {P k st M N} (hw : Wf P k st M N) {n : Node} {c : CExpr}
    (h : find k st n = none) (hsub : ∀ m ∈ sub n, m = n ∨ m ∈ M.all) (hloc : n.isLocal = false)
    (hc : (∃ i k, n = .cst i k ∧ c = .cst k) ∨ (∃ t, n = .var (.input t) ∧ c = .var t) ∨
      (∃ i o a ea, n = .un i o a ∧ find k st a = some ea ∧ c = .un o ea) ∨
      (∃ i o a b ea eb, n = .bin i o a b ∧ find k st a = some ea ∧ find k st b = some eb ∧
        c = .bin o ea eb)) :
    Wf P k (remember st n c) (M.push n false) N := by
  have hno := hw.none h
  have hst : ∀ m, m ∈ (M.push n false).stored ↔ m ∈ M.stored := by
    intro m; rw [push_stored]; simp
  have hnn : ∀ m e, find k st m = some e → m ≠ n := by
    rintro m e he rfl
    rw [h] at he; cases he
  have hns : ∀ m, slot (M.push n false) m → m ≠ n := by
    rintro m hm rfl
    rcases hm with hm | hm
    · rw [hloc] at hm; cases hm
    · exact hno (hw.ssub _ ((hst _).1 hm))
  constructor
  · intro m
    rw [find_remember, push_all, ← hw.dom]
    by_cases hm : m = n
    · simp [hm]
    · simp [hm]
  · intro m hm q hq
    rw [push_all] at hm ⊢
    rcases hm with rfl | hm
    · exact hsub q hq
    · exact .inr (hw.closed m hm q hq)
  · intro m hm
    rw [push_all]
    exact .inr (hw.ssub m ((hst m).1 hm))
  · intro i k' e he
    rw [find_remember] at he
    split at he
    · rename_i hn
      cases he
      rcases hc with ⟨i', k'', h1, h2⟩ | ⟨t, h1, h2⟩ | ⟨i', o, a, ea, h1, h2, h3⟩ |
        ⟨i', o, a, b, ea, eb, h1, h2, h3, h4⟩
      · rw [h1] at hn; cases hn; exact h2
      · rw [h1] at hn; cases hn
      · rw [h1] at hn; cases hn
      · rw [h1] at hn; cases hn
    · exact hw.cst i k' e he
  · intro t' e he
    rw [find_remember] at he
    split at he
    · rename_i hn
      cases he
      rcases hc with ⟨i', k'', h1, h2⟩ | ⟨t, h1, h2⟩ | ⟨i', o, a, ea, h1, h2, h3⟩ |
        ⟨i', o, a, b, ea, eb, h1, h2, h3, h4⟩
      · rw [h1] at hn; cases hn
      · rw [h1] at hn; cases hn; exact h2
      · rw [h1] at hn; cases hn
      · rw [h1] at hn; cases hn
    · exact hw.inp t' e he
  · intro m hm hsm e he
    have hne := hns m hsm
    rw [find_remember, if_neg hne] at he
    exact hw.shape m hm ((slot_congr hst m).1 hsm) e he
  · intro i o a e hn' he
    rw [hst] at hn'
    have key : ∃ ea, find k st a = some ea ∧ e = .un o ea := by
      rw [find_remember] at he
      split at he
      · rename_i hn
        cases he
        rcases hc with ⟨i', k'', h1, h2⟩ | ⟨t, h1, h2⟩ | ⟨i', o, a, ea, h1, h2, h3⟩ |
          ⟨i', o, a, b, ea, eb, h1, h2, h3, h4⟩
        · rw [h1] at hn; cases hn
        · rw [h1] at hn; cases hn
        · rw [h1] at hn; cases hn; exact ⟨ea, h2, h3⟩
        · rw [h1] at hn; cases hn
      · exact hw.un i o a e hn' he
    obtain ⟨ea, h1, h2⟩ := key
    exact ⟨ea, by rw [find_remember, if_neg (hnn a ea h1), h1], h2⟩
  · intro i o a b e hn' he
    rw [hst] at hn'
    have key : ∃ ea eb, find k st a = some ea ∧ find k st b = some eb ∧ e = .bin o ea eb := by
      rw [find_remember] at he
      split at he
      · rename_i hn
        cases he
        rcases hc with ⟨i', k'', h1, h2⟩ | ⟨t, h1, h2⟩ | ⟨i', o, a, ea, h1, h2, h3⟩ |
          ⟨i', o, a, b, ea, eb, h1, h2, h3, h4⟩
        · rw [h1] at hn; cases hn
        · rw [h1] at hn; cases hn
        · rw [h1] at hn; cases hn
        · rw [h1] at hn; cases hn; exact ⟨ea, eb, h2, h3, h4⟩
      · exact hw.bin i o a b e hn' he
    obtain ⟨ea, eb, h1, h2, h3⟩ := key
    exact ⟨ea, eb, by rw [find_remember, if_neg (hnn a ea h1), h1],
      by rw [find_remember, if_neg (hnn b eb h2), h2], h3⟩
  · intro a b t ha hb hsa hsb h1 h2
    rw [find_remember, if_neg (hns a hsa)] at h1
    rw [find_remember, if_neg (hns b hsb)] at h2
    exact hw.inj a b t ha hb ((slot_congr hst a).1 hsa) ((slot_congr hst b).1 hsb) h1 h2
  · exact hw.args
  · intro m hm
    exact hw.nleaf m ((hst m).1 hm)

end Verif.CGen
