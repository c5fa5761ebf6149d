import Verif.FctExpr.Model

namespace Verif.FctExpr

variable {O V : Type}

/-- Nodes the generated code may use. -/
def P (s : St O) (n : ℕ) : Prop :=
  s.memo n = some none ∨ ((s.heap n).kind = .res ∧ n < s.next)

/-- `b` stands for the node `a`. -/
def R (s : St O) (a b : ℕ) : Prop :=
  (s.memo a = some none ∧ b = a) ∨ s.memo a = some (some b)

def StmtOk (Q : ℕ → Prop) : Stmt → Prop
  | .decl _ => True
  | .scheme _ _ args => ∀ a ∈ args, Q a
  | .node n => Q n

structure Inv (N : ℕ) (s : St O) : Prop where
  le : N ≤ s.next
  new : ∀ j, s.next ≤ j → s.memo j = none
  resv : ∀ j v, s.memo j = some (some v) → (s.heap v).kind = .res ∧ v < s.next
  closed : ∀ j, s.memo j = some none → ∀ a ∈ (s.heap j).args, P s a
  stm : ∀ x ∈ s.stmts, StmtOk (P s) x

/-- The statements run, and every node done has its value. -/
def Sem (e : Bool) (M : Meaning O V) (W : (ℕ → V) → ℕ → V → Prop) (s : St O) : Prop :=
  ∀ inp, ∃ σ, Exec (target e) M s.heap inp s.stmts none₀ σ ∧
    (∀ j, s.next ≤ j → σ j = .undeclared) ∧
    ∀ j b, R s j b → ∀ v, W inp j v → Val (target e) M s.heap inp σ b v

theorem Inv.Plt {N : ℕ} {s : St O} (I : Inv N s) {n : ℕ} (h : P s n) : n < s.next := by
  rcases h with h | h
  · refine Nat.lt_of_not_le (fun hc => ?_)
    have := I.new n hc
    rw [this] at h; cases h
  · exact h.2

theorem Inv.RP {N : ℕ} {s : St O} (I : Inv N s) {a b : ℕ} (h : R s a b) : P s b := by
  rcases h with ⟨h, rfl⟩ | h
  · exact .inl h
  · exact .inr (I.resv a b h)

theorem val_transfer {L : Lang} {M : Meaning O V} {h h' : ℕ → Node O} {inp : ℕ → V}
    {σ : ℕ → Slot V} (Q : ℕ → Prop) (hc : ∀ n, Q n → (h n).kind ≠ .res → ∀ a ∈ (h n).args, Q a)
    (ha : ∀ n, Q n → h' n = h n) {n : ℕ} {v : V} (hv : Val L M h inp σ n v) (hq : Q n) :
    Val L M h' inp σ n v := by
  induction hv with
  | input hk => exact .input (by rw [ha _ hq]; exact hk)
  | const hk => exact .const (by rw [ha _ hq]; exact hk)
  | res hk hs => exact .res (by rw [ha _ hq]; exact hk) hs
  | @op n o vs hk hl _ ih =>
    have hx := hc n hq (by rw [hk]; simp)
    exact .op vs (by rw [ha _ hq]; exact hk) (by rw [ha _ hq]; exact hl)
      (fun i a v h1 h2 => by
        rw [ha _ hq] at h1
        exact ih i a v h1 h2 (hx a (List.mem_of_getElem? h1)))
  | @div n vs hL hk hl _ ih =>
    have hx := hc n hq (by rw [hk]; simp)
    exact .div vs hL (by rw [ha _ hq]; exact hk) (by rw [ha _ hq]; exact hl)
      (fun i a v h1 h2 => by
        rw [ha _ hq] at h1
        exact ih i a v h1 h2 (hx a (List.mem_of_getElem? h1)))
  | @call n f vs hL hk hl _ ih =>
    have hx := hc n hq (by rw [hk]; simp)
    exact .call vs hL (by rw [ha _ hq]; exact hk) (by rw [ha _ hq]; exact hl)
      (fun i a v h1 h2 => by
        rw [ha _ hq] at h1
        exact ih i a v h1 h2 (hx a (List.mem_of_getElem? h1)))

theorem val_store {L : Lang} {M : Meaning O V} {h : ℕ → Node O} {inp : ℕ → V}
    {σ σ' : ℕ → Slot V} (hs : ∀ n v, σ n = .value v → σ' n = .value v) {n : ℕ} {v : V}
    (hv : Val L M h inp σ n v) : Val L M h inp σ' n v := by
  induction hv with
  | input hk => exact .input hk
  | const hk => exact .const hk
  | res hk h1 => exact .res hk (hs _ _ h1)
  | op vs hk hl _ ih => exact .op vs hk hl ih
  | div vs hL hk hl _ ih => exact .div vs hL hk hl ih
  | call vs hL hk hl _ ih => exact .call vs hL hk hl ih

theorem exec_transfer {L : Lang} {M : Meaning O V} {h h' : ℕ → Node O} {inp : ℕ → V}
    (Q : ℕ → Prop) (hc : ∀ n, Q n → (h n).kind ≠ .res → ∀ a ∈ (h n).args, Q a)
    (ha : ∀ n, Q n → h' n = h n) {l : List Stmt} {σ σ' : ℕ → Slot V}
    (he : Exec L M h inp l σ σ') (hl : ∀ x ∈ l, StmtOk Q x) : Exec L M h' inp l σ σ' := by
  induction he with
  | nil => exact .nil
  | decl h1 _ ih => exact .decl h1 (ih (fun x hx => hl x (List.mem_cons_of_mem _ hx)))
  | @scheme v f args vs rest σ σ' h1 h2 _ ih =>
    have hq : ∀ a ∈ args, Q a := hl (.scheme v f args) (by simp)
    exact .scheme h1 ⟨h2.1, fun i n v h3 h4 =>
      val_transfer Q hc ha (h2.2 i n v h3 h4) (hq n (List.mem_of_getElem? h3))⟩
      (ih (fun x hx => hl x (List.mem_cons_of_mem _ hx)))
  | @node n x rest σ σ' h1 _ ih =>
    have hq : Q n := hl (.node n) (by simp)
    exact .node (val_transfer Q hc ha h1 hq) (ih (fun x hx => hl x (List.mem_cons_of_mem _ hx)))

theorem exec_append {L : Lang} {M : Meaning O V} {h : ℕ → Node O} {inp : ℕ → V}
    {l l' : List Stmt} {σ σ' σ'' : ℕ → Slot V}
    (he : Exec L M h inp l σ σ') (he' : Exec L M h inp l' σ' σ'') :
    Exec L M h inp (l ++ l') σ σ'' := by
  induction he with
  | nil => exact he'
  | decl h1 _ ih => exact .decl h1 (ih he')
  | scheme h1 h2 _ ih => exact .scheme h1 h2 (ih he')
  | node h1 _ ih => exact .node h1 (ih he')

theorem Inv.clP {N : ℕ} {s : St O} (I : Inv N s) :
    ∀ n, P s n → (s.heap n).kind ≠ .res → ∀ a ∈ (s.heap n).args, P s a := by
  intro n hp hk
  rcases hp with hp | hp
  · exact I.closed n hp
  · exact absurd hp.1 hk

/-! ### The elementary steps -/

theorem P_setInput (s : St O) (n i a j : ℕ) : P (setInput s n i a) j ↔ P s j := by
  unfold P setInput
  by_cases h : j = n
  · subst h; simp
  · simp [h]

theorem step_setInput {N : ℕ} {e : Bool} {M : Meaning O V} {W : (ℕ → V) → ℕ → V → Prop}
    {s : St O} (I : Inv N s) (S : Sem e M W s) {n : ℕ} (hn : ¬ P s n) (i a : ℕ) :
    Inv N (setInput s n i a) ∧ Sem e M W (setInput s n i a) := by
  have hag : ∀ j, P s j → (setInput s n i a).heap j = s.heap j := by
    intro j hj
    have : j ≠ n := by rintro rfl; exact hn hj
    simp [setInput, this]
  have hkind : ∀ j, ((setInput s n i a).heap j).kind = (s.heap j).kind := by
    intro j
    by_cases h : j = n
    · subst h; simp [setInput]
    · simp [setInput, h]
  constructor
  · refine ⟨I.le, I.new, ?_, ?_, ?_⟩
    · intro j v h
      rw [hkind]
      exact I.resv j v h
    · intro j hj b hb
      rw [hag j (.inl hj)] at hb
      exact (P_setInput s n i a b).2 (I.closed j hj b hb)
    · intro x hx
      have := I.stm x hx
      cases x with
      | decl v => trivial
      | scheme v f args => exact fun b hb => (P_setInput s n i a b).2 (this b hb)
      | node m => exact (P_setInput s n i a m).2 this
  · intro inp
    obtain ⟨σ, h1, h2, h3⟩ := S inp
    refine ⟨σ, exec_transfer (P s) I.clP hag h1 I.stm, h2, ?_⟩
    intro j b hr v hw
    exact val_transfer (P s) I.clP hag (h3 j b hr v hw) (I.RP hr)

/-- A leaf, or an operation whose operands are done. -/
theorem step_none {N : ℕ} {e : Bool} {M : Meaning O V} {W : (ℕ → V) → ℕ → V → Prop}
    {s : St O} (I : Inv N s) (S : Sem e M W s) {n : ℕ} (hm : s.memo n = none)
    (hn : n < s.next) (hargs : ∀ a ∈ (s.heap n).args, P s a)
    (hval : ∀ inp σ, (∀ j b, R s j b → ∀ v, W inp j v → Val (target e) M s.heap inp σ b v) →
      ∀ v, W inp n v → Val (target e) M s.heap inp σ n v) :
    Inv N (remember s n none) ∧ Sem e M W (remember s n none) := by
  have hP : ∀ j, P s j → P (remember s n none) j := by
    intro j hj
    rcases hj with hj | hj
    · left
      by_cases h : j = n
      · subst h; simp [remember]
      · simp [remember, h, hj]
    · exact .inr hj
  constructor
  · refine ⟨I.le, ?_, ?_, ?_, ?_⟩
    · intro j hj
      have hj' : s.next ≤ j := hj
      have : j ≠ n := by omega
      simp [remember, this, I.new j hj']
    · intro j v h
      by_cases hjn : j = n
      · subst hjn; simp [remember] at h
      · simp [remember, hjn] at h; exact I.resv j v h
    · intro j hj a ha
      by_cases hjn : j = n
      · subst hjn; exact hP a (hargs a ha)
      · simp [remember, hjn] at hj; exact hP a (I.closed j hj a ha)
    · intro x hx
      have := I.stm x hx
      cases x with
      | decl v => trivial
      | scheme v f args => exact fun b hb => hP b (this b hb)
      | node m => exact hP m this
  · intro inp
    obtain ⟨σ, h1, h2, h3⟩ := S inp
    refine ⟨σ, h1, h2, ?_⟩
    intro j b hr v hw
    by_cases hjn : j = n
    · subst hjn
      have : b = j := by
        rcases hr with ⟨_, h⟩ | h
        · exact h
        · simp [remember] at h
      subst this
      exact hval inp σ h3 v hw
    · refine h3 j b ?_ v hw
      rcases hr with ⟨h, h'⟩ | h
      · simp [remember, hjn] at h; exact .inl ⟨h, h'⟩
      · simp [remember, hjn] at h; exact .inr h

/-- The statement which evaluates a node done. -/
theorem step_node {N : ℕ} {e : Bool} {M : Meaning O V} {W : (ℕ → V) → ℕ → V → Prop}
    {s : St O} (I : Inv N s) (S : Sem e M W s) {n : ℕ} (hn : P s n)
    (hv : ∀ inp, ∃ v, W inp n v) (hr : R s n n) :
    Inv N (add s (.node n)) ∧ Sem e M W (add s (.node n)) := by
  constructor
  · refine ⟨I.le, I.new, I.resv, I.closed, ?_⟩
    intro x hx
    simp only [add, List.mem_append, List.mem_singleton] at hx
    rcases hx with hx | rfl
    · exact I.stm x hx
    · exact hn
  · intro inp
    obtain ⟨σ, h1, h2, h3⟩ := S inp
    obtain ⟨v, hv⟩ := hv inp
    exact ⟨σ, exec_append h1 (.node (h3 n n hr v hv) .nil), h2, h3⟩

/-- A call whose operands are done. -/
theorem step_call {N : ℕ} {e : Bool} {M : Meaning O V} {W : (ℕ → V) → ℕ → V → Prop}
    {s : St O} (I : Inv N s) (S : Sem e M W s) {n : ℕ} (hm : s.memo n = none)
    (hn : n < s.next) (f : String) (vx : List ℕ) (hvx : ∀ a ∈ vx, P s a)
    (hW : ∀ inp v, W inp n v → ∀ v', W inp n v' → v' = v)
    (hval : ∀ inp σ, (∀ j b, R s j b → ∀ v, W inp j v → Val (target e) M s.heap inp σ b v) →
      ∃ vs, Each (Val (target e) M s.heap inp σ) vx vs ∧ W inp n (M.fct f vs)) :
    let s2 := add (add (create s ⟨.res, []⟩).2 (.decl s.next)) (.scheme s.next f vx)
    Inv N (remember s2 n (some s.next)) ∧ Sem e M W (remember s2 n (some s.next)) := by
  intro s2
  obtain ⟨t, ht⟩ : ∃ t, t = remember s2 n (some s.next) := ⟨_, rfl⟩
  rw [← ht]
  have hheap : ∀ j, j ≠ s.next → t.heap j = s.heap j := by
    intro j hj; subst ht; simp [s2, remember, add, create, hj]
  have hres : t.heap s.next = ⟨.res, []⟩ := by subst ht; simp [s2, remember, add, create]
  have hnext : t.next = s.next + 1 := by subst ht; rfl
  have hmemo : ∀ j, j ≠ n → t.memo j = s.memo j := by
    intro j hj; subst ht; simp [s2, remember, add, create, hj]
  have hmn : t.memo n = some (some s.next) := by subst ht; simp [remember]
  have hst : t.stmts = s.stmts ++ ([.decl s.next] ++ [.scheme s.next f vx]) := by
    subst ht; simp [s2, remember, add, create]
  have hag : ∀ j, P s j → t.heap j = s.heap j := fun j hj => hheap j (by
    have := I.Plt hj; omega)
  have hP : ∀ j, P s j → P t j := by
    intro j hj
    have hlt := I.Plt hj
    rcases hj with hj | hj
    · left
      rw [hmemo j (by rintro rfl; rw [hm] at hj; cases hj)]; exact hj
    · right
      rw [hheap j (by omega), hnext]; exact ⟨hj.1, by omega⟩
  have hR : ∀ j b, j ≠ n → R t j b → R s j b := by
    intro j b hj h
    unfold R at h
    rw [hmemo j hj] at h; exact h
  constructor
  · refine ⟨by rw [hnext]; have := I.le; omega, ?_, ?_, ?_, ?_⟩
    · intro j hj
      rw [hnext] at hj
      rw [hmemo j (by omega)]; exact I.new j (by omega)
    · intro j v h
      by_cases hj : j = n
      · subst hj
        rw [hmn] at h
        have : v = s.next := by cases h; rfl
        subst this
        rw [hres, hnext]; exact ⟨rfl, by omega⟩
      · rw [hmemo j hj] at h
        have := I.resv j v h
        rw [hheap v (by omega), hnext]; exact ⟨this.1, by omega⟩
    · intro j hj a ha
      have hjn : j ≠ n := by rintro rfl; rw [hmn] at hj; cases hj
      rw [hmemo j hjn] at hj
      rw [hag j (.inl hj)] at ha
      exact hP a (I.closed j hj a ha)
    · intro x hx
      rw [hst] at hx
      simp only [List.mem_append, List.mem_singleton] at hx
      rcases hx with hx | rfl | rfl
      · have := I.stm x hx
        cases x with
        | decl v => trivial
        | scheme v f args => exact fun b hb => hP b (this b hb)
        | node m => exact hP m this
      · trivial
      · exact fun b hb => hP b (hvx b hb)
  · intro inp
    obtain ⟨σ, h1, h2, h3⟩ := S inp
    obtain ⟨vs, hvs, hw⟩ := hval inp σ h3
    obtain ⟨σ1, hσ1⟩ : ∃ σ1, σ1 = update σ s.next .declared := ⟨_, rfl⟩
    obtain ⟨σ2, hσ2⟩ : ∃ σ2, σ2 = update σ1 s.next (.value (M.fct f vs)) := ⟨_, rfl⟩
    have hle1 : ∀ m x, σ m = .value x → σ1 m = .value x := by
      intro m x h
      have : m ≠ s.next := by
        rintro rfl; rw [h2 _ (Nat.le_refl _)] at h; cases h
      simp [hσ1, update, this, h]
    have hle2 : ∀ m x, σ m = .value x → σ2 m = .value x := by
      intro m x h
      have : m ≠ s.next := by
        rintro rfl; rw [h2 _ (Nat.le_refl _)] at h; cases h
      simp [hσ2, hσ1, update, this, h]
    have hheapV : ∀ {m v σ'}, P s m → Val (target e) M s.heap inp σ' m v →
        Val (target e) M t.heap inp σ' m v := fun hp hv => val_transfer (P s) I.clP hag hv hp
    refine ⟨σ2, ?_, ?_, ?_⟩
    · rw [hst]
      refine exec_append (exec_transfer (P s) I.clP hag h1 I.stm) ?_
      refine .decl (h2 _ (Nat.le_refl _)) ?_
      rw [← hσ1]
      refine .scheme (vs := vs) (by simp [hσ1, update]) ⟨hvs.1, ?_⟩ ?_
      · intro i a v hi hv
        exact hheapV (hvx a (List.mem_of_getElem? hi)) (val_store hle1 (hvs.2 i a v hi hv))
      · rw [← hσ2]; exact .nil
    · intro j hj
      rw [hnext] at hj
      have : j ≠ s.next := by omega
      simp [hσ2, hσ1, update, this, h2 j (by omega)]
    · intro j b hr v hwj
      by_cases hj : j = n
      · subst hj
        have : b = s.next := by
          rcases hr with ⟨h, _⟩ | h
          · rw [hmn] at h; cases h
          · rw [hmn] at h; cases h; rfl
        subst this
        rw [hW inp _ hw v hwj]
        exact .res (by rw [hres]) (by simp [hσ2, update])
      · have hr' := hR j b hj hr
        exact hheapV (I.RP hr') (val_store hle2 (h3 j b hr' v hwj))

/-! ### Values of the source graph -/

theorem val_det {L : Lang} {M : Meaning O V} {h : ℕ → Node O} {inp : ℕ → V} {σ : ℕ → Slot V}
    {n : ℕ} {v v' : V} (h1 : Val L M h inp σ n v) (h2 : Val L M h inp σ n v') : v = v' := by
  induction h1 generalizing v' with
  | input hk =>
    cases h2 with
    | input hk' => rw [hk] at hk'; cases hk'; rfl
    | const hk' => rw [hk] at hk'; cases hk'
    | res hk' => rw [hk] at hk'; cases hk'
    | op _ hk' => rw [hk] at hk'; cases hk'
    | div _ _ hk' => rw [hk] at hk'; cases hk'
    | call _ _ hk' => rw [hk] at hk'; cases hk'
  | const hk =>
    cases h2 with
    | input hk' => rw [hk] at hk'; cases hk'
    | const hk' => rw [hk] at hk'; cases hk'; rfl
    | res hk' => rw [hk] at hk'; cases hk'
    | op _ hk' => rw [hk] at hk'; cases hk'
    | div _ _ hk' => rw [hk] at hk'; cases hk'
    | call _ _ hk' => rw [hk] at hk'; cases hk'
  | res hk hs =>
    cases h2 with
    | input hk' => rw [hk] at hk'; cases hk'
    | const hk' => rw [hk] at hk'; cases hk'
    | res hk' hs' => rw [hs] at hs'; cases hs'; rfl
    | op _ hk' => rw [hk] at hk'; cases hk'
    | div _ _ hk' => rw [hk] at hk'; cases hk'
    | call _ _ hk' => rw [hk] at hk'; cases hk'
  | op vs hk hl _ ih =>
    cases h2 with
    | input hk' => rw [hk] at hk'; cases hk'
    | const hk' => rw [hk] at hk'; cases hk'
    | res hk' => rw [hk] at hk'; cases hk'
    | op ws hk' hl' hc' =>
      rw [hk] at hk'; cases hk'
      rw [same hl hl' ih hc']
    | div _ _ hk' => rw [hk] at hk'; cases hk'
    | call _ _ hk' => rw [hk] at hk'; cases hk'
  | div vs hL hk hl _ ih =>
    cases h2 with
    | input hk' => rw [hk] at hk'; cases hk'
    | const hk' => rw [hk] at hk'; cases hk'
    | res hk' => rw [hk] at hk'; cases hk'
    | op _ hk' => rw [hk] at hk'; cases hk'
    | div ws _ hk' hl' hc' => rw [same hl hl' ih hc']
    | call _ _ hk' => rw [hk] at hk'; cases hk'
  | call vs hL hk hl _ ih =>
    cases h2 with
    | input hk' => rw [hk] at hk'; cases hk'
    | const hk' => rw [hk] at hk'; cases hk'
    | res hk' => rw [hk] at hk'; cases hk'
    | op _ hk' => rw [hk] at hk'; cases hk'
    | div _ _ hk' => rw [hk] at hk'; cases hk'
    | call ws _ hk' hl' hc' =>
      rw [hk] at hk'; cases hk'
      rw [same hl hl' ih hc']
where
  same {A : List ℕ} {vs ws : List V} {Q : ℕ → V → Prop} (hl : A.length = vs.length)
      (hl' : A.length = ws.length)
      (ih : ∀ (i : ℕ) a v, A[i]? = some a → vs[i]? = some v → ∀ {v' : V}, Q a v' → v = v')
      (hc : ∀ (i : ℕ) a v, A[i]? = some a → ws[i]? = some v → Q a v) : vs = ws := by
    apply List.ext_getElem (by omega)
    intro i h1 h2
    have h3 : i < A.length := by omega
    exact ih i A[i] vs[i] (by simp [h3]) (by simp [h1])
      (hc i A[i] ws[i] (by simp [h3]) (by simp [h2]))

/-- The values of a list of nodes which all have one. -/
theorem vals_exist {Q : ℕ → V → Prop} (A : List ℕ) (h : ∀ a ∈ A, ∃ v, Q a v) :
    ∃ vs : List V, A.length = vs.length ∧
      ∀ (i : ℕ) a v, A[i]? = some a → vs[i]? = some v → Q a v := by
  induction A with
  | nil => exact ⟨[], rfl, by intro i a v h; simp at h⟩
  | cons b A ih =>
    obtain ⟨vs, h1, h2⟩ := ih (fun a ha => h a (List.mem_cons_of_mem _ ha))
    obtain ⟨v, hv⟩ := h b (by simp)
    refine ⟨v :: vs, by simp [h1], ?_⟩
    intro i a w ha hw
    cases i with
    | zero => simp at ha hw; subst ha; subst hw; exact hv
    | succ i => exact h2 i a w (by simpa using ha) (by simpa using hw)

theorem val_total {M : Meaning O V} {g : ℕ → Node O} (wf : Wf M g) (inp : ℕ → V)
    (σ : ℕ → Slot V) (n : ℕ) : ∃ v, Val source M g inp σ n v := by
  induction n using Nat.strongRecOn with
  | ind n ih =>
    obtain ⟨vs, h1, h2⟩ := vals_exist (Q := Val source M g inp σ) (g n).args
      (fun a ha => ih a (wf.before n a ha))
    cases hk : (g n).kind with
    | input i => exact ⟨_, .input hk⟩
    | const i => exact ⟨_, .const hk⟩
    | res => exact absurd hk (wf.nores n)
    | op o => exact ⟨_, .op vs hk h1 h2⟩
    | div => exact ⟨_, .div vs rfl hk h1 h2⟩
    | call f => exact ⟨_, .call vs rfl hk h1 h2⟩

/-! ### The loops on the operands -/

/-- What instantiating the node `n` guarantees. -/
structure Post (N : ℕ) (e : Bool) (M : Meaning O V) (W : (ℕ → V) → ℕ → V → Prop)
    (n : ℕ) (r : Option ℕ) (s s' : St O) : Prop where
  inv : Inv N s'
  sem : Sem e M W s'
  next : s.next ≤ s'.next
  memo : ∀ j r, s.memo j = some r → s'.memo j = some r
  frame : ∀ j, j < s.next → s'.memo j = none → s'.heap j = s.heap j
  above : ∀ j, n < j → j < s.next → s'.memo j = s.memo j
  done : s'.memo n = some r

theorem R_mono {s s' : St O} (h : ∀ j r, s.memo j = some r → s'.memo j = some r) {a b : ℕ}
    (hr : R s a b) : R s' a b := by
  rcases hr with ⟨h1, h2⟩ | h1
  · exact .inl ⟨h _ _ h1, h2⟩
  · exact .inr (h _ _ h1)

/-- The operands `cur` are those of `A`, the first `i` being replaced. -/
def Cur (s : St O) (A cur : List ℕ) (i : ℕ) : Prop :=
  cur.length = A.length ∧
  ∀ (j : ℕ) a b, A[j]? = some a → cur[j]? = some b → (j < i → R s a b) ∧ (i ≤ j → b = a)

theorem setInputs_ok {N : ℕ} {e : Bool} {M : Meaning O V} {W : (ℕ → V) → ℕ → V → Prop}
    {g : ℕ → Node O} (rc : ℕ → St O → Except Err (Option ℕ × St O)) (n B K : ℕ) (A : List ℕ)
    (hB : B ≤ n) (hA : ∀ a ∈ A, a < B)
    (hrc : ∀ a ∈ A, ∀ s : St O, Inv N s → Sem e M W s → K ≤ s.next →
      (∀ j, j ≤ a → s.memo j = none → s.heap j = g j) →
      ∃ r s', rc a s = .ok (r, s') ∧ Post N e M W a r s s') :
    ∀ (k i : ℕ) (s : St O), Inv N s → Sem e M W s → K ≤ s.next → n < s.next → s.memo n = none →
      (s.heap n).kind ≠ .res → Cur s A (s.heap n).args i → i + k ≤ A.length →
      (∀ j, j < B → s.memo j = none → s.heap j = g j) →
      ∃ s', setInputs rc n i k s = .ok s' ∧ Inv N s' ∧ Sem e M W s' ∧ s.next ≤ s'.next ∧
        (∀ j r, s.memo j = some r → s'.memo j = some r) ∧
        (∀ j, j < s.next → j ≠ n → s'.memo j = none → s'.heap j = s.heap j) ∧
        (∀ j, B ≤ j → j < s.next → s'.memo j = s.memo j) ∧
        (s'.heap n).kind = (s.heap n).kind ∧ Cur s' A (s'.heap n).args (i + k)
  | 0, i, s, I, S, _, _, _, _, hcur, _, _ =>
    ⟨s, rfl, I, S, Nat.le_refl _, fun _ _ h => h, fun _ _ _ _ => rfl, fun _ _ _ => rfl, rfl, hcur⟩
  | k + 1, i, s, I, S, hK, hn, hm, hk, hcur, hik, hfr => by
    have hi : i < A.length := by omega
    have hAi : A[i]? = some A[i] := by simp [hi]
    have hci : (s.heap n).args[i]? = some A[i] := by
      have h1 : i < (s.heap n).args.length := by rw [hcur.1]; exact hi
      have h2 : (s.heap n).args[i]? = some (s.heap n).args[i] := by simp [h1]
      rw [h2, (hcur.2 i _ _ hAi h2).2 (Nat.le_refl _)]
    have haB : A[i] < B := hA _ (List.getElem_mem hi)
    obtain ⟨r, s1, hr, hp⟩ := hrc A[i] (List.getElem_mem hi) s I S hK
      (fun j hj hmj => hfr j (by omega) hmj)
    have hm1 : s1.memo n = none := by rw [hp.above n (by omega) hn]; exact hm
    have hh1 : s1.heap n = s.heap n := hp.frame n hn hm1
    have hcur1 : Cur s1 A (s.heap n).args i :=
      ⟨hcur.1, fun j a b h1 h2 =>
        ⟨fun h => R_mono hp.memo ((hcur.2 j a b h1 h2).1 h), (hcur.2 j a b h1 h2).2⟩⟩
    have hfr1 : ∀ j, j < B → s1.memo j = none → s1.heap j = g j := by
      intro j hj hmj
      have h0 : s.memo j = none := by
        cases h : s.memo j with
        | none => rfl
        | some r => rw [hp.memo j r h] at hmj; cases hmj
      rw [hp.frame j (by omega) hmj, hfr j hj h0]
    have key : ∀ s2 : St O, Inv N s2 → Sem e M W s2 → s2.next = s1.next → s2.memo = s1.memo →
        (∀ j, j ≠ n → s2.heap j = s1.heap j) → (s2.heap n).kind = (s.heap n).kind →
        Cur s2 A (s2.heap n).args (i + 1) →
        ∃ s', setInputs rc n (i + 1) k s2 = .ok s' ∧ Inv N s' ∧ Sem e M W s' ∧ s.next ≤ s'.next ∧
        (∀ j r, s.memo j = some r → s'.memo j = some r) ∧
        (∀ j, j < s.next → j ≠ n → s'.memo j = none → s'.heap j = s.heap j) ∧
        (∀ j, B ≤ j → j < s.next → s'.memo j = s.memo j) ∧
        (s'.heap n).kind = (s.heap n).kind ∧ Cur s' A (s'.heap n).args (i + (k + 1)) := by
      intro s2 I2 S2 hnx hme hhe hki hcu
      have hpn := hp.next
      obtain ⟨s', e1, e2, e3, e4, e5, e6, e7, e8, e9⟩ :=
        setInputs_ok rc n B K A hB hA hrc k (i + 1) s2 I2 S2 (by rw [hnx]; omega) (by rw [hnx]; omega)
          (by rw [hme]; exact hm1) (by rw [hki]; exact hk) hcu (by omega)
          (fun j hj hmj => by
            rw [hhe j (by omega)]
            rw [hme] at hmj
            exact hfr1 j hj hmj)
      refine ⟨s', e1, e2, e3, by omega, ?_, ?_, ?_, by rw [e8, hki], ?_⟩
      · intro j r h
        exact e5 j r (by rw [hme]; exact hp.memo j r h)
      · intro j hj hjn hmj
        have hm1j : s1.memo j = none := by
          cases h : s1.memo j with
          | none => rfl
          | some r => rw [e5 j r (by rw [hme]; exact h)] at hmj; cases hmj
        rw [e6 j (by omega) hjn hmj, hhe j hjn, hp.frame j hj hm1j]
      · intro j hj hjn
        rw [e7 j hj (by omega), hme, hp.above j (by omega) hjn]
      · have : i + (k + 1) = i + 1 + k := by omega
        rw [this]; exact e9
    have hR : ∀ b, (r = none ∧ b = A[i]) ∨ r = some b → R s1 A[i] b := by
      intro b hb
      have := hp.done
      rcases hb with ⟨h1, h2⟩ | h1
      · subst h1; exact .inl ⟨this, h2⟩
      · subst h1; exact .inr this
    have hget : getInput s n i = .ok A[i] := by simp [getInput, hci]
    cases r with
    | none =>
      have := key s1 hp.inv hp.sem rfl rfl (fun _ _ => rfl) (by rw [hh1]) (by
        rw [hh1]
        refine ⟨hcur.1, fun j a b h1 h2 => ⟨fun h => ?_, fun h => (hcur1.2 j a b h1 h2).2 (by omega)⟩⟩
        by_cases hji : j = i
        · subst hji
          rw [hAi] at h1; rw [hci] at h2
          cases h1; cases h2
          exact hR _ (.inl ⟨rfl, rfl⟩)
        · exact (hcur1.2 j a b h1 h2).1 (by omega))
      simpa [setInputs, hget, hr] using this
    | some c =>
      have hnP : ¬ P s1 n := by
        rintro (h | h)
        · rw [hm1] at h; cases h
        · rw [hh1] at h; exact hk h.1
      obtain ⟨I2, S2⟩ := step_setInput hp.inv hp.sem hnP i c
      have := key (setInput s1 n i c) I2 S2 rfl rfl (fun j hj => by simp [setInput, hj])
        (by simp [setInput, hh1]) (by
        have hargs : ((setInput s1 n i c).heap n).args = (s.heap n).args.set i c := by
          simp [setInput, hh1]
        rw [hargs]
        refine ⟨by rw [List.length_set]; exact hcur.1, fun j a b h1 h2 => ?_⟩
        by_cases hji : j = i
        · subst hji
          have h3 : j < (s.heap n).args.length := by rw [hcur.1]; exact hi
          rw [hAi] at h1
          simp [h3] at h2
          cases h1; subst h2
          exact ⟨fun _ => hR _ (.inr rfl), fun h => absurd h (by omega)⟩
        · rw [List.getElem?_set_ne (by omega)] at h2
          exact ⟨fun h => (hcur1.2 j a b h1 h2).1 (by omega),
            fun h => (hcur1.2 j a b h1 h2).2 (by omega)⟩)
      simpa [setInputs, hget, hr] using this

theorem firstInputs_ok (s : St O) (n : ℕ) : ∀ k, k ≤ (s.heap n).args.length →
    firstInputs s n k = .ok ((s.heap n).args.take k)
  | 0, _ => by simp [firstInputs]
  | k + 1, h => by
    have hk : k < (s.heap n).args.length := by omega
    simp [firstInputs, firstInputs_ok s n k (by omega), getInput, hk]

end Verif.FctExpr
