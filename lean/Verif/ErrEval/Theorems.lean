import Verif.ErrEval.Model
import Mathlib.Data.List.Basic

namespace Verif.ErrEval

variable {V : Type} {G : Graph V} {M : Meaning V} {inp : ℕ → Option V}

/-- a node has one value -/
theorem Val.unique {i : ℕ} {v w : V} (h : Val G M inp i v) (h' : Val G M inp i w) : v = w := by
  induction h generalizing w with
  | input h =>
    cases h' with
    | input h2 => rw [h] at h2; exact Option.some.inj h2
    | const h2 _ | typecast h2 _ _ _ | conversion h2 _ _ _ | op _ h2 _ _ => rw [h] at h2; cases h2
  | const h hk =>
    cases h' with
    | input h2 => rw [h] at h2; cases h2
    | const _ h2 => rw [hk] at h2; cases h2; rfl
    | typecast _ h2 _ _ | conversion _ h2 _ _ | op _ _ h2 _ => rw [hk] at h2; cases h2
  | typecast h hk hi _ ih =>
    cases h' with
    | input h2 => rw [h] at h2; cases h2
    | typecast _ _ h3 h4 => rw [hi] at h3; cases h3; rw [ih h4]
    | const _ h2 | conversion _ h2 _ _ | op _ _ h2 _ => rw [hk] at h2; cases h2
  | conversion h hk hi _ ih =>
    cases h' with
    | input h2 => rw [h] at h2; cases h2
    | conversion _ _ h3 h4 => rw [hi] at h3; cases h3; rw [ih h4]
    | const _ h2 | typecast _ h2 _ _ | op _ _ h2 _ => rw [hk] at h2; cases h2
  | op vs h hk _ ih =>
    cases h' with
    | input h2 => rw [h] at h2; cases h2
    | op ws _ _ h4 => congr 1; exact List.map_congr_left fun j hj => ih j hj (h4 j hj)
    | const _ h2 | typecast _ h2 _ _ | conversion _ h2 _ _ => rw [hk] at h2; cases h2

def Sound (G : Graph V) (M : Meaning V) (inp m : ℕ → Option V) : Prop := ∀ j v, m j = some v → Val G M inp j v

def Closed (G : Graph V) (inp m : ℕ → Option V) : Prop := ∀ j, (m j).isSome → inp j = none → ∀ k ∈ G.inputs j, (m k).isSome

def Ext {α : Type} (m m' : ℕ → Option α) : Prop := ∀ j, (m j).isSome → m' j = m j

theorem upd_same {α : Type} (m : ℕ → Option α) (i : ℕ) (v : α) : upd m i v i = some v := by simp [upd]

theorem upd_ne {α : Type} (m : ℕ → Option α) {i j : ℕ} (v : α) (h : j ≠ i) : upd m i v j = m j := by simp [upd, h]

theorem Ext.upd {α : Type} {m m' : ℕ → Option α} (h : Ext m m') {i : ℕ} (hi : m i = none) (v : α) : Ext m (upd m' i v) := by
  intro j hj
  have : j ≠ i := by rintro rfl; rw [hi] at hj; cases hj
  rw [upd_ne _ _ this, h j hj]

theorem Ext.trans {α : Type} {a b c : ℕ → Option α} (h : Ext a b) (h' : Ext b c) : Ext a c := by
  intro j hj
  rw [h' j (by rw [h j hj]; exact hj), h j hj]

theorem Sound.upd {m : ℕ → Option V} (h : Sound G M inp m) {i : ℕ} {v : V} (hv : Val G M inp i v) : Sound G M inp (upd m i v) := by
  intro j w hj
  by_cases e : j = i
  · subst e; rw [upd_same] at hj; cases hj; exact hv
  · rw [upd_ne _ _ e] at hj; exact h j w hj

theorem Closed.upd {m : ℕ → Option V} (h : Closed G inp m) {i : ℕ} (v : V) (hi : inp i = none → ∀ k ∈ G.inputs i, (m k).isSome) :
    Closed G inp (upd m i v) := by
  have up : ∀ k, (m k).isSome → (ErrEval.upd m i v k).isSome := by
    intro k hk
    by_cases e : k = i
    · subst e; rw [upd_same]; rfl
    · rw [upd_ne _ _ e]; exact hk
  intro j hj hn k hk
  by_cases e : j = i
  · subst e; exact up k (hi hn k hk)
  · rw [upd_ne _ _ e] at hj; exact up k (h j hj hn k hk)

theorem Reach.under {i j k : ℕ} (hi : inp i = none) (hj : j ∈ G.inputs i) (h : Reach G inp j k) : Reach G inp i k := by
  induction h with
  | root h => exact .step (.root hi) hj h
  | step _ h1 h2 ih => exact .step ih h1 h2

/-- what the evaluation of a node gives -/
def EvalOk (G : Graph V) (M : Meaning V) (inp : ℕ → Option V) (i : ℕ) : Prop :=
  ∀ m, Sound G M inp m → Closed G inp m →
    ∃ v m', evaluate G M inp i m = .ok (v, m') ∧ Val G M inp i v ∧ Sound G M inp m' ∧ Closed G inp m' ∧ (m' i).isSome ∧ Ext m m'

theorem fold_ok {i : ℕ} (l : List {x // x ∈ G.inputs i}) (h : ∀ j ∈ l, EvalOk G M inp j.1) :
    ∀ (vs0 : List V) m, Sound G M inp m → Closed G inp m →
      ∃ (vs : List V) (m' : ℕ → Option V),
        l.foldlM (fun (st : List V × (ℕ → Option V)) (j : {x // x ∈ G.inputs i}) => do
          let (v, m') ← evaluate G M inp j.1 st.2
          return (st.1 ++ [v], m')) (vs0, m) = Except.ok (ε := Err) (vs0 ++ vs, m') ∧
        (∀ w : ℕ → V, (∀ j ∈ l, Val G M inp j.1 (w j.1)) → vs = l.map fun j => w j.1) ∧ (∀ j ∈ l, ∃ v, Val G M inp j.1 v) ∧
        Sound G M inp m' ∧ Closed G inp m' ∧ (∀ j ∈ l, (m' j.1).isSome) ∧ Ext m m' := by
  induction l with
  | nil =>
    intro vs0 m hs hc
    exact ⟨[], m, by simp [pure, Except.pure], by simp, by simp, hs, hc, by simp, fun _ _ => rfl⟩
  | cons j l ih =>
    intro vs0 m hs hc
    obtain ⟨v, m1, h1, hv, hs1, hc1, hi1, he1⟩ := h j (by simp) m hs hc
    obtain ⟨vs, m2, h2, hvs, hex, hs2, hc2, hi2, he2⟩ := ih (fun k hk => h k (by simp [hk])) (vs0 ++ [v]) m1 hs1 hc1
    refine ⟨v :: vs, m2, ?_, ?_, ?_, hs2, hc2, ?_, he1.trans he2⟩
    · rw [List.foldlM_cons]
      simp only [h1, bind, Except.bind, pure, Except.pure] at h2 ⊢
      rw [h2]
      simp
    · intro w hw
      rw [List.map_cons, hvs w (fun k hk => hw k (by simp [hk])), (hw j (by simp)).unique hv]
    · intro k hk
      rcases List.mem_cons.1 hk with rfl | hk
      · exact ⟨v, hv⟩
      · exact hex k hk
    · intro k hk
      rcases List.mem_cons.1 hk with rfl | hk
      · rw [he2 _ hi1]; exact hi1
      · exact hi2 k hk

theorem eval_ok (i : ℕ) (hv : ∀ j, Reach G inp i j → G.kind j ≠ .var) : EvalOk G M inp i := by
  induction i using Nat.strongRecOn with
  | _ i ih =>
    intro m hs hc
    rw [evaluate]
    rcases hm : m i with _ | v
    · rcases hin : inp i with _ | v
      · have hsub : ∀ j ∈ (G.inputs i).attach, EvalOk G M inp j.1 := fun j _ =>
          ih j.1 (G.acyclic i j.1 j.2) (fun k hk => hv k (hk.under hin j.2))
        obtain ⟨vs, m', h1, hvs, hex, hs', hc', hi', he'⟩ := fold_ok (G.inputs i).attach hsub [] m hs hc
        simp only [List.nil_append, bind, Except.bind, pure, Except.pure] at h1
        have hall : ∀ k ∈ G.inputs i, (m' k).isSome := fun k hk => hi' ⟨k, hk⟩ (by simp)
        rcases hk : G.kind i with c | _ | _ | _ | _
        · refine ⟨c, upd m i c, rfl, .const hin hk, hs.upd (.const hin hk), hc.upd c ?_, by rw [upd_same]; rfl, Ext.upd (fun _ _ => rfl) hm c⟩
          intro _ k hk'
          rw [G.leaf i (Or.inl ⟨c, hk⟩)] at hk'
          cases hk'
        · obtain ⟨j, hj⟩ := G.unary i (Or.inl hk)
          have hj' : j ∈ G.inputs i := by rw [hj]; simp
          obtain ⟨v, hv'⟩ := hex ⟨j, hj'⟩ (by simp)
          have hvs' : vs = [v] := by
            rw [hvs (fun _ => v) (fun k _ => by
              have : k.1 = j := by simpa using (congrArg (fun l => k.1 ∈ l) hj).mp k.2
              rw [this]; exact hv')]
            rw [List.map_const', List.length_attach, hj]; rfl
          have hval : Val G M inp i (M.typecast i v) := .typecast hin hk hj hv'
          refine ⟨_, upd m' i (M.typecast i v), ?_, hval, hs'.upd hval, hc'.upd _ (fun _ => hall), by rw [upd_same]; rfl, he'.upd hm _⟩
          simp [h1, hvs', bind, Except.bind, pure, Except.pure]
        · obtain ⟨j, hj⟩ := G.unary i (Or.inr hk)
          have hj' : j ∈ G.inputs i := by rw [hj]; simp
          obtain ⟨v, hv'⟩ := hex ⟨j, hj'⟩ (by simp)
          have hvs' : vs = [v] := by
            rw [hvs (fun _ => v) (fun k _ => by
              have : k.1 = j := by simpa using (congrArg (fun l => k.1 ∈ l) hj).mp k.2
              rw [this]; exact hv')]
            rw [List.map_const', List.length_attach, hj]; rfl
          have hval : Val G M inp i (M.conversion i v) := .conversion hin hk hj hv'
          refine ⟨_, upd m' i (M.conversion i v), ?_, hval, hs'.upd hval, hc'.upd _ (fun _ => hall), by rw [upd_same]; rfl, he'.upd hm _⟩
          simp [h1, hvs', bind, Except.bind, pure, Except.pure]
        · have hval : Val G M inp i (M.op i vs) := by
            classical
            obtain ⟨w, hw⟩ : ∃ w : ℕ → V, ∀ j ∈ G.inputs i, Val G M inp j (w j) := by
              refine ⟨fun k => if h : ∃ v, Val G M inp k v then h.choose else M.op 0 [], fun j hj => ?_⟩
              have h := hex ⟨j, hj⟩ (by simp)
              simp only [h, dif_pos]
              exact h.choose_spec
            have h2 := hvs w (fun j _ => hw j.1 j.2)
            have h3 : (G.inputs i).attach.map (fun j => w j.1) = (G.inputs i).map w := by simp
            rw [h3] at h2
            rw [h2]
            exact .op w hin hk hw
          refine ⟨_, upd m' i (M.op i vs), ?_, hval, hs'.upd hval, hc'.upd _ (fun _ => hall), by rw [upd_same]; rfl, he'.upd hm _⟩
          simp [h1, bind, Except.bind, pure, Except.pure]
        · exact absurd hk (hv i (.root hin))
      · refine ⟨v, upd m i v, rfl, .input hin, hs.upd (.input hin), hc.upd v ?_, by rw [upd_same]; rfl, Ext.upd (fun _ _ => rfl) hm v⟩
        intro h; rw [hin] at h; cases h
    · exact ⟨v, m, rfl, hs i v hm, hs, hc, by rw [hm]; rfl, fun _ _ => rfl⟩

/-- what the reports of a node give -/
def RepOk (G : Graph V) (inp values : ℕ → Option V) (i : ℕ) : Prop :=
  ∀ e : Reports V, (∀ j, j ≤ i → e j ≠ some none) →
    ∃ e', report G inp values i e = .ok e' ∧ Ext e e' ∧ (inp i = none → (e' i).isSome) ∧
      ∀ j, e j = none → (e' j).isSome → Reach G inp i j ∧ e' j = some (values j) ∧ (values j).isSome ∧ ∀ k ∈ G.inputs j, inp k = none → (e' k).isSome

theorem ext_isSome {α : Type} {m m' : ℕ → Option α} (h : Ext m m') {j : ℕ} (hj : (m j).isSome) : (m' j).isSome := by
  rw [h j hj]; exact hj

theorem fold_rep {values : ℕ → Option V} {i : ℕ} (hin : inp i = none) (l : List {x // x ∈ G.inputs i}) (h : ∀ j ∈ l, RepOk G inp values j.1) :
    ∀ (e : Reports V), (∀ j, j < i → e j ≠ some none) →
      ∃ e', l.foldlM (fun e (j : {x // x ∈ G.inputs i}) => report G inp values j.1 e) e = Except.ok (ε := Err) e' ∧ Ext e e' ∧
        (∀ j ∈ l, inp j.1 = none → (e' j.1).isSome) ∧
        ∀ j, e j = none → (e' j).isSome → Reach G inp i j ∧ e' j = some (values j) ∧ (values j).isSome ∧ ∀ k ∈ G.inputs j, inp k = none → (e' k).isSome := by
  induction l with
  | nil =>
    intro e _
    refine ⟨e, rfl, fun _ _ => rfl, by simp, ?_⟩
    intro j h1 h2; rw [h1] at h2; cases h2
  | cons a l ih =>
    intro e he
    have ha := G.acyclic i a.1 a.2
    obtain ⟨e1, h1, hx1, hi1, hn1⟩ := h a (by simp) e (fun j hj => he j (by omega))
    have he1 : ∀ j, j < i → e1 j ≠ some none := by
      intro j hj hc
      rcases hej : e j with _ | x
      · obtain ⟨-, h2, h3, -⟩ := hn1 j hej (by rw [hc]; rfl)
        rw [hc] at h2
        rw [← Option.some.inj h2] at h3
        cases h3
      · have := hx1 j (by rw [hej]; rfl)
        rw [hc] at this
        exact he j hj this.symm
    obtain ⟨e2, h2, hx2, hi2, hn2⟩ := ih (fun k hk => h k (by simp [hk])) e1 he1
    refine ⟨e2, ?_, hx1.trans hx2, ?_, ?_⟩
    · rw [List.foldlM_cons, h1]; exact h2
    · intro j hj hjn
      rcases List.mem_cons.1 hj with rfl | hj
      · exact ext_isSome hx2 (hi1 hjn)
      · exact hi2 j hj hjn
    · intro j hj hs
      rcases he1j : e1 j with _ | x
      · exact hn2 j he1j hs
      · have hs1 : (e1 j).isSome := by rw [he1j]; rfl
        obtain ⟨q1, q2, q3, q4⟩ := hn1 j hj hs1
        exact ⟨q1.under hin a.2, by rw [hx2 j hs1, q2], q3, fun k hk hkn => ext_isSome hx2 (q4 k hk hkn)⟩

theorem report_ok {values : ℕ → Option V} (i : ℕ) (hv : ∀ j, Reach G inp i j → (values j).isSome) : RepOk G inp values i := by
  induction i using Nat.strongRecOn with
  | _ i ih =>
    intro e he
    rw [report]
    by_cases hd : (e i).isSome ∨ (inp i).isSome
    · rw [if_pos hd]
      refine ⟨e, rfl, fun _ _ => rfl, ?_, ?_⟩
      · intro hn
        rcases hd with hd | hd
        · exact hd
        · rw [hn] at hd; cases hd
      · intro j h1 h2; rw [h1] at h2; cases h2
    · rw [if_neg hd]
      have hei : e i = none := by rcases h : e i with _ | x
                                  · rfl
                                  · exact absurd (Or.inl (by rw [h]; rfl)) hd
      have hin : inp i = none := by rcases h : inp i with _ | x
                                    · rfl
                                    · exact absurd (Or.inr (by rw [h]; rfl)) hd
      obtain ⟨e', h1, hx, hi, hn⟩ := fold_rep (values := values) hin (G.inputs i).attach
        (fun j _ => ih j.1 (G.acyclic i j.1 j.2) (fun k hk => hv k (hk.under hin j.2))) (upd e i none)
        (fun j hj => by rw [upd_ne _ _ (by omega)]; exact he j (by omega))
      have hvi := hv i (.root hin)
      obtain ⟨v, hvv⟩ := Option.isSome_iff_exists.1 hvi
      have hup : ∀ k, (e' k).isSome → (upd e' i (some v) k).isSome := by
        intro k hk
        by_cases hki : k = i
        · subst hki; rw [upd_same]; rfl
        · rw [upd_ne _ _ hki]; exact hk
      refine ⟨upd e' i (some v), ?_, ?_, ?_, ?_⟩
      · rw [h1, hvv]; rfl
      · intro j hj
        have hji : j ≠ i := by rintro rfl; rw [hei] at hj; cases hj
        rw [upd_ne _ _ hji, hx j (by rw [upd_ne _ _ hji]; exact hj), upd_ne _ _ hji]
      · intro _; rw [upd_same]; rfl
      · intro j hj hs
        by_cases hji : j = i
        · subst hji
          refine ⟨.root hin, by rw [upd_same, hvv], hvi, fun k hk hkn => hup k (hi ⟨k, hk⟩ (by simp) hkn)⟩
        · rw [upd_ne _ _ hji] at hs
          obtain ⟨q1, q2, q3, q4⟩ := hn j (by rw [upd_ne _ _ hji]; exact hj) hs
          exact ⟨q1, by rw [upd_ne _ _ hji, q2], q3, fun k hk hkn => hup k (q4 k hk hkn)⟩

/-- **C127** (reports). For every acyclic graph whose reachable leaves are constants or given nodes, the error graph is made without failure; it holds one report for each reachable node that is not given and none for the others, and the expected value of a report is the exact value of its node. -/
theorem C127_reports (G : Graph V) (M : Meaning V) (inp : ℕ → Option V) (root : ℕ) (hv : ∀ j, Reach G inp root j → G.kind j ≠ .var) :
    ∃ e, errorGraph G M inp root = .ok e ∧ (∀ j, Reach G inp root j → ∃ v, Val G M inp j v ∧ e j = some (some v)) ∧
      ∀ j, ¬ Reach G inp root j → e j = none := by
  obtain ⟨v, m, h1, -, hs, hc, hi, -⟩ := eval_ok (M := M) root hv (fun _ => none) (fun _ _ h => by cases h) (fun _ h => by cases h)
  have hr : ∀ j, Reach G inp root j → (m j).isSome := by
    intro j hj
    have : inp j = none ∧ (m j).isSome := by
      induction hj with
      | root h => exact ⟨h, hi⟩
      | step _ hj hn ih => exact ⟨hn, hc _ ih.2 ih.1 _ hj⟩
    exact this.2
  obtain ⟨e, h2, -, hi2, hn2⟩ := report_ok root hr (fun _ => none) (by simp)
  have hin : ∀ j, Reach G inp root j → (e j).isSome := by
    intro j hj
    induction hj with
    | root h => exact hi2 h
    | step _ hj hn ih => exact (hn2 _ rfl ih).2.2.2 _ hj hn
  refine ⟨e, ?_, ?_, ?_⟩
  · unfold errorGraph
    rw [h1]; exact h2
  · intro j hj
    obtain ⟨-, q2, q3, -⟩ := hn2 j rfl (hin j hj)
    obtain ⟨w, hw⟩ := Option.isSome_iff_exists.1 q3
    exact ⟨w, hs j w hw, by rw [q2, hw]⟩
  · intro j hj
    rcases h : e j with _ | x
    · rfl
    · exact absurd (hn2 j rfl (by rw [h]; rfl)).1 hj

/-- **C127** (one value). The exact value of a node is unique, so the reports of `C127_reports` are determined. -/
theorem C127_unique (G : Graph V) (M : Meaning V) (inp : ℕ → Option V) (i : ℕ) (v w : V) (h : Val G M inp i v) (h' : Val G M inp i w) : v = w :=
  h.unique h'

/-- a reachable node is the root or is below an operand of it -/
theorem Reach.split {i j : ℕ} (h : Reach G inp i j) : inp i = none ∧ (j = i ∨ ∃ k ∈ G.inputs i, Reach G inp k j) := by
  induction h with
  | root h => exact ⟨h, Or.inl rfl⟩
  | step _ h1 h2 ih =>
    refine ⟨ih.1, Or.inr ?_⟩
    rcases ih.2 with rfl | ⟨k, hk, hr⟩
    · exact ⟨_, h1, .root h2⟩
    · exact ⟨k, hk, .step hr h1 h2⟩

/-- a node with a value is not above an unknown variable -/
theorem Val.known {i : ℕ} {v : V} (h : Val G M inp i v) : ∀ j, Reach G inp i j → G.kind j ≠ .var := by
  induction h with
  | input h => intro j hj; have := hj.split.1; rw [h] at this; cases this
  | @const i v h hk =>
    intro j hj
    rcases hj.split.2 with rfl | ⟨k, hk', _⟩
    · rw [hk]; simp
    · rw [G.leaf i (Or.inl ⟨v, hk⟩)] at hk'; cases hk'
  | typecast h hk hi _ ih =>
    intro j hj
    rcases hj.split.2 with rfl | ⟨k, hk', hr⟩
    · rw [hk]; simp
    · rw [hi] at hk'; simp at hk'; subst hk'; exact ih j hr
  | conversion h hk hi _ ih =>
    intro j hj
    rcases hj.split.2 with rfl | ⟨k, hk', hr⟩
    · rw [hk]; simp
    · rw [hi] at hk'; simp at hk'; subst hk'; exact ih j hr
  | op vs h hk _ ih =>
    intro j hj
    rcases hj.split.2 with rfl | ⟨k, hk', hr⟩
    · rw [hk]; simp
    · exact ih k hk' j hr

theorem fold_err {i : ℕ} (l : List {x // x ∈ G.inputs i})
    (h : ∀ j ∈ l, (∃ k, Reach G inp j.1 k ∧ G.kind k = .var) → ∀ m, Sound G M inp m → Closed G inp m → evaluate G M inp j.1 m = .error .unknownVariable)
    (hx : ∃ j ∈ l, ∃ k, Reach G inp j.1 k ∧ G.kind k = .var) :
    ∀ (vs0 : List V) m, Sound G M inp m → Closed G inp m →
      l.foldlM (fun (st : List V × (ℕ → Option V)) (j : {x // x ∈ G.inputs i}) => do
          let (v, m') ← evaluate G M inp j.1 st.2
          return (st.1 ++ [v], m')) (vs0, m) = Except.error (ε := Err) .unknownVariable := by
  induction l with
  | nil => obtain ⟨j, hj, _⟩ := hx; cases hj
  | cons a l ih =>
    intro vs0 m hs hc
    rw [List.foldlM_cons]
    by_cases ha : ∃ k, Reach G inp a.1 k ∧ G.kind k = .var
    · rw [h a (by simp) ha m hs hc]; rfl
    · obtain ⟨v, m1, h1, _, hs1, hc1, _, _⟩ := eval_ok (M := M) a.1 (fun k hk hv => ha ⟨k, hk, hv⟩) m hs hc
      have hx' : ∃ j ∈ l, ∃ k, Reach G inp j.1 k ∧ G.kind k = .var := by
        obtain ⟨j, hj, hk⟩ := hx
        rcases List.mem_cons.1 hj with rfl | hj
        · exact absurd hk ha
        · exact ⟨j, hj, hk⟩
      rw [h1]
      exact ih (fun j hj => h j (by simp [hj])) hx' (vs0 ++ [v]) m1 hs1 hc1

theorem eval_err (i : ℕ) (hx : ∃ k, Reach G inp i k ∧ G.kind k = .var) :
    ∀ m, Sound G M inp m → Closed G inp m → evaluate G M inp i m = .error .unknownVariable := by
  induction i using Nat.strongRecOn with
  | _ i ih =>
    intro m hs hc
    obtain ⟨k, hk, hv⟩ := hx
    obtain ⟨hin, hsp⟩ := hk.split
    rw [evaluate]
    rcases hm : m i with _ | v
    · simp only [hin]
      have hfold : (∀ c, G.kind i ≠ .const c) → G.kind i ≠ .var → _ := fun _ h2 => fold_err (M := M) (G.inputs i).attach
        (fun j _ hj => ih j.1 (G.acyclic i j.1 j.2) hj) (by
          rcases hsp with rfl | ⟨j, hj, hr⟩
          · exact absurd hv h2
          · exact ⟨⟨j, hj⟩, by simp, k, hr, hv⟩) [] m hs hc
      rcases hki : G.kind i with c | _ | _ | _ | _
      · exfalso
        rcases hsp with rfl | ⟨j, hj, _⟩
        · rw [hki] at hv; cases hv
        · rw [G.leaf i (Or.inl ⟨c, hki⟩)] at hj; cases hj
      · have := hfold (by simp [hki]) (by simp [hki])
        simp only [bind, Except.bind, pure, Except.pure] at this ⊢
        rw [this]
      · have := hfold (by simp [hki]) (by simp [hki])
        simp only [bind, Except.bind, pure, Except.pure] at this ⊢
        rw [this]
      · have := hfold (by simp [hki]) (by simp [hki])
        simp only [bind, Except.bind, pure, Except.pure] at this ⊢
        rw [this]
      · rfl
    · exact absurd hv ((hs i v hm).known k hk)

/-- **C127** (unknown variables). As soon as one variable which is not given is reachable, no error graph is made: the failure names the unknown variable. With `C127_reports`, the error graph is made exactly when all reachable variables are given. -/
theorem C127_unknown (G : Graph V) (M : Meaning V) (inp : ℕ → Option V) (root j : ℕ) (hj : Reach G inp root j) (hv : G.kind j = .var) :
    errorGraph G M inp root = .error .unknownVariable := by
  unfold errorGraph
  rw [eval_err root ⟨j, hj, hv⟩ (fun _ => none) (fun _ _ h => by cases h) (fun _ h => by cases h)]
  rfl

/-- the graph of `(x + 2) * (x + 2)`: nodes 0 (`x`), 1 (`2`), 2 (sum), 3 (product) -/
def square : Graph Int where
  kind := fun i => if i = 0 then .var else if i = 1 then .const 2 else if i = 2 ∨ i = 3 then .op else .var
  inputs := fun i => if i = 2 then [0, 1] else if i = 3 then [2, 2] else []
  acyclic := by
    intro i j hj
    by_cases h2 : i = 2
    · subst h2; simp at hj; omega
    · by_cases h3 : i = 3
      · subst h3; simp at hj; omega
      · simp [h2, h3] at hj
  leaf := by
    intro i h
    by_cases h2 : i = 2
    · subst h2; simp at h
    · by_cases h3 : i = 3
      · subst h3; simp at h
      · simp [h2, h3]
  unary := by
    intro i h
    by_cases h0 : i = 0
    · simp [h0] at h
    · by_cases h1 : i = 1
      · simp [h1] at h
      · by_cases h2 : i = 2 ∨ i = 3
        · simp [h0, h1, h2] at h
        · simp [h0, h1, h2] at h

-- with `x` given the hypothesis of `C127_reports` holds
example : ∀ j, Reach square (fun i => if i = 0 then some 5 else none) 3 j → square.kind j ≠ .var := by
  have h : ∀ j, Reach square (fun i => if i = 0 then some (5 : Int) else none) 3 j → j = 1 ∨ j = 2 ∨ j = 3 := by
    intro j hj
    induction hj with
    | root _ => simp
    | step _ hj hn ih =>
      rcases ih with rfl | rfl | rfl <;> simp [square] at hj hn <;> omega
  intro j hj
  rcases h j hj with rfl | rfl | rfl <;> simp [square]

-- the product is expected to be 49
example : Val square ⟨fun _ v => v, fun _ v => v, fun i vs => if i = 2 then vs.sum else vs.foldl (· * ·) 1⟩ (fun i => if i = 0 then some 5 else none) 3 (49 : Int) := by
  have h2 : Val square ⟨fun _ v => v, fun _ v => v, fun i vs => if i = 2 then vs.sum else vs.foldl (· * ·) 1⟩ (fun i => if i = 0 then some 5 else none) 2 (7 : Int) := by
    refine .op (fun j => if j = 0 then (5 : Int) else 2) rfl rfl ?_
    intro j hj
    simp [square] at hj
    rcases hj with rfl | rfl
    · exact .input rfl
    · exact .const rfl rfl
  refine .op (fun _ => (7 : Int)) rfl rfl ?_
  intro j hj
  simp [square] at hj
  subst hj
  exact h2

-- without it the variable is reached from the product
example : Reach square (fun _ => none) 3 0 ∧ square.kind 0 = .var :=
  ⟨.step (.step (.root rfl) (by simp [square]) rfl : Reach square (fun _ => none) 3 2) (by simp [square]) rfl, rfl⟩

-- and the pass stops
example (M : Meaning Int) : errorGraph square M (fun _ => none) 0 = .error .unknownVariable := by
  simp [errorGraph, evaluate, square, bind, Except.bind]

end Verif.ErrEval
