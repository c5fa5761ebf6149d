import Verif.FctExpr.Lemmas
import Mathlib.Analysis.SpecialFunctions.Trigonometric.Arctan
import Mathlib.Data.Finset.Card

namespace Verif.FctExpr

variable {O V : Type}

theorem Cur.zero (s : St O) (A : List ℕ) : Cur s A A 0 :=
  ⟨rfl, fun j a b h1 h2 => ⟨fun h => absurd h (by omega), fun _ => by
    rw [h1] at h2; cases h2; rfl⟩⟩

/-- A call whose operands can be instantiated. -/
theorem call_ok {N : ℕ} {e : Bool} {M : Meaning O V} {W : (ℕ → V) → ℕ → V → Prop}
    {g : ℕ → Node O} (fuel n B K : ℕ) (s : St O) (f : String)
    (hWlt : ∀ inp j v, j < N → (W inp j v ↔ Val source M g inp none₀ j v))
    (I : Inv N s) (S : Sem e M W s) (hK : K ≤ s.next) (hn : n < s.next) (hm : s.memo n = none)
    (hk : (s.heap n).kind = .call f) (hB : B ≤ n) (hBN : B ≤ N)
    (hA : ∀ a ∈ (s.heap n).args, a < B) (hf : M.arity f ≤ (s.heap n).args.length)
    (hfr : ∀ j, j < B → s.memo j = none → s.heap j = g j)
    (hdet : ∀ inp v, W inp n v → ∀ v', W inp n v' → v' = v)
    (hWn : ∀ inp, ∃ vs : List V, (s.heap n).args.length = vs.length ∧
      (∀ (i : ℕ) a v, (s.heap n).args[i]? = some a → vs[i]? = some v →
        Val source M g inp none₀ a v) ∧ W inp n (M.fct f (vs.take (M.arity f))))
    (hrc : ∀ a ∈ (s.heap n).args, ∀ s : St O, Inv N s → Sem e M W s → K ≤ s.next →
      (∀ j, j ≤ a → s.memo j = none → s.heap j = g j) →
      ∃ r s', inst M.arity e fuel a s = .ok (r, s') ∧ Post N e M W a r s s') :
    ∃ v s', inst M.arity e (fuel + 1) n s = .ok (some v, s') ∧ Post N e M W n (some v) s s' ∧
      ∀ j, B ≤ j → j < s.next → j ≠ n → s'.memo j = s.memo j := by
  obtain ⟨s1, e1, I1, S1, e4, e5, e6, e7, e8, e9⟩ :=
    setInputs_ok (g := g) (inst M.arity e fuel) n B K (s.heap n).args hB hA hrc (M.arity f) 0 s I S
      hK hn hm (by rw [hk]; simp) (Cur.zero s _) (by omega) hfr
  rw [Nat.zero_add] at e9
  have hm1 : s1.memo n = none := by rw [e7 n hB hn]; exact hm
  have hfirst := firstInputs_ok s1 n (M.arity f) (by rw [e9.1]; exact hf)
  have hRk : ∀ (j : ℕ) b, ((s1.heap n).args.take (M.arity f))[j]? = some b →
      ∃ a, (s.heap n).args[j]? = some a ∧ j < M.arity f ∧ R s1 a b := by
    intro j b hb
    have hj : j < M.arity f := by
      refine Nat.lt_of_not_le (fun h => ?_)
      rw [List.getElem?_take, if_neg (by omega)] at hb; cases hb
    rw [List.getElem?_take_of_lt hj] at hb
    have hjl : j < (s.heap n).args.length := by omega
    have ha : (s.heap n).args[j]? = some (s.heap n).args[j] := by simp [hjl]
    exact ⟨_, ha, hj, (e9.2 j _ b ha hb).1 hj⟩
  have hfin := step_call I1 S1 hm1 (by omega) f ((s1.heap n).args.take (M.arity f))
    (fun b hb => by
      obtain ⟨j, hj⟩ := List.mem_iff_getElem?.1 hb
      obtain ⟨a, _, _, hr⟩ := hRk j b hj
      exact I1.RP hr)
    hdet
    (fun inp σ hσ => by
      obtain ⟨vs, h1, h2, h3⟩ := hWn inp
      refine ⟨vs.take (M.arity f), ⟨?_, ?_⟩, h3⟩
      · rw [List.length_take, List.length_take, e9.1, h1]
      · intro j b v hb hv
        obtain ⟨a, ha, hj, hr⟩ := hRk j b hb
        rw [List.getElem?_take_of_lt hj] at hv
        refine hσ a b hr v ((hWlt inp a v ?_).2 (h2 j a v ha hv))
        have := hA a (List.mem_of_getElem? ha)
        omega)
  refine ⟨s1.next, remember (add (add (create s1 ⟨.res, []⟩).2 (.decl s1.next))
    (.scheme s1.next f ((s1.heap n).args.take (M.arity f)))) n (some s1.next), ?_, ?_, ?_⟩
  · rw [inst]
    simp only [hm, hk, e1, hfirst]
    rfl
  rotate_left
  · intro j hj hjn hjn'
    simp [remember, add, create, hjn']
    exact e7 j hj hjn
  · refine ⟨hfin.1, hfin.2, ?_, ?_, ?_, ?_, ?_⟩
    · show s.next ≤ s1.next + 1
      omega
    · intro j r h
      have : j ≠ n := by rintro rfl; rw [hm] at h; cases h
      simp [remember, add, create, this, e5 j r h]
    · intro j hj hmj
      have hjn : j ≠ n := by rintro rfl; simp [remember] at hmj
      simp [remember, add, create, hjn] at hmj
      have hj1 : j ≠ s1.next := by omega
      simp [remember, add, create, hj1]
      exact e6 j hj hjn hmj
    · intro j hj hjn
      have hjn' : j ≠ n := by omega
      simp [remember, add, create, hjn']
      exact e7 j (by omega) hjn
    · simp [remember]

theorem remember_node (s : St O) (n : ℕ) (r : Option ℕ) (x : Stmt) :
    remember (add s x) n r = add (remember s n r) x := rfl

theorem inst_ok {N : ℕ} {e : Bool} {M : Meaning O V} {g : ℕ → Node O} (wf : Wf M g)
    (hdiv : e = true → M.arity "div" = 2 ∧ ∀ a b, M.fct "div" [a, b] = M.div [a, b]) :
    ∀ (n : ℕ) (fuel : ℕ), 2 * n + 2 ≤ fuel → ∀ (W : (ℕ → V) → ℕ → V → Prop) (K : ℕ) (s : St O),
      (∀ inp j v, j < N → (W inp j v ↔ Val source M g inp none₀ j v)) →
      (∀ inp j v, W inp j v → j < K) → Inv N s → Sem e M W s → K ≤ s.next → n < N →
      (∀ j, j ≤ n → s.memo j = none → s.heap j = g j) →
      ∃ r s', inst M.arity e fuel n s = .ok (r, s') ∧ Post N e M W n r s s' := by
  intro n
  induction n using Nat.strongRecOn with
  | ind n ih =>
  intro fuel hfuel W K s hWlt hWK I S hK hnN hfr
  obtain ⟨fuel, rfl⟩ : ∃ f, fuel = f + 1 := ⟨fuel - 1, by omega⟩
  have hnn : n < s.next := by have := I.le; omega
  cases hm : s.memo n with
  | some r =>
    refine ⟨r, s, by simp [inst, hm], I, S, Nat.le_refl _, fun _ _ h => h, fun _ _ _ => rfl,
      fun _ _ _ => rfl, hm⟩
  | none =>
  have hgn : s.heap n = g n := hfr n (Nat.le_refl _) hm
  have hchild : ∀ a ∈ (g n).args, a < n := wf.before n
  have hrc : ∀ fl, 2 * n ≤ fl → ∀ (W : (ℕ → V) → ℕ → V → Prop) K,
      (∀ inp j v, j < N → (W inp j v ↔ Val source M g inp none₀ j v)) →
      (∀ inp j v, W inp j v → j < K) →
      ∀ a ∈ (g n).args, ∀ s : St O, Inv N s → Sem e M W s → K ≤ s.next →
      (∀ j, j ≤ a → s.memo j = none → s.heap j = g j) →
      ∃ r s', inst M.arity e fl a s = .ok (r, s') ∧ Post N e M W a r s s' := by
    intro fl hfl W K h1 h2 a ha s I S hK hf
    have := hchild a ha
    exact ih a this fl (by omega) W K s h1 h2 I S hK (by omega) hf
  have hdet : ∀ inp v, W inp n v → ∀ v', W inp n v' → v' = v := fun inp v h v' h' =>
    val_det ((hWlt inp n v' hnN).1 h') ((hWlt inp n v hnN).1 h)
  -- leaves
  have leaf : (g n).args = [] → (∀ inp σ v, Val source M g inp none₀ n v →
      Val (target e) M s.heap inp σ n v) →
      Post N e M W n none s (remember s n none) := by
    intro hargs hv
    obtain ⟨I', S'⟩ := step_none I S hm hnn (by rw [hgn, hargs]; simp)
      (fun inp σ _ v hw => hv inp σ v ((hWlt inp n v hnN).1 hw))
    refine ⟨I', S', Nat.le_refl _, ?_, fun _ _ _ => rfl, ?_, by simp [remember]⟩
    · intro j r h
      have : j ≠ n := by rintro rfl; rw [hm] at h; cases h
      simp [remember, this, h]
    · intro j hj _
      have : j ≠ n := by omega
      simp [remember, this]
  -- operations kept
  have keep : (∀ inp v, Val source M g inp none₀ n v → ∃ vs : List V,
        (g n).args.length = vs.length ∧
        (∀ (i : ℕ) a v, (g n).args[i]? = some a → vs[i]? = some v →
          Val source M g inp none₀ a v) ∧
        ∀ (h : ℕ → Node O) σ, (h n).kind = (g n).kind → (h n).args.length = vs.length →
          (∀ (i : ℕ) a v, (h n).args[i]? = some a → vs[i]? = some v →
            Val (target e) M h inp σ a v) → Val (target e) M h inp σ n v) →
      (g n).kind ≠ .res →
      ∃ s', setInputs (inst M.arity e fuel) n 0 (s.heap n).args.length s = .ok s' ∧
        Post N e M W n none s (remember (add s' (.node n)) n none) := by
    intro hv hkr
    have hrc' := hrc fuel (by omega) W K hWlt hWK
    rw [← hgn] at hrc'
    obtain ⟨s1, e1, I1, S1, e4, e5, e6, e7, e8, e9⟩ :=
      setInputs_ok (g := g) (inst M.arity e fuel) n n K (s.heap n).args (Nat.le_refl _)
        (by rw [hgn]; exact hchild) hrc' (s.heap n).args.length 0 s I S hK hnn hm
        (by rw [hgn]; exact hkr) (Cur.zero s _) (by omega) (fun j hj => hfr j (by omega))
    rw [Nat.zero_add] at e9
    have hm1 : s1.memo n = none := by rw [e7 n (Nat.le_refl _) hnn]; exact hm
    have hRk : ∀ (j : ℕ) b, (s1.heap n).args[j]? = some b →
        ∃ a, (g n).args[j]? = some a ∧ R s1 a b := by
      intro j b hb
      have hjl : j < (s1.heap n).args.length := (List.getElem?_eq_some_iff.1 hb).1
      have hjl' : j < (s.heap n).args.length := by rw [← e9.1]; exact hjl
      have ha : (s.heap n).args[j]? = some (s.heap n).args[j] := by simp [hjl']
      refine ⟨_, ?_, (e9.2 j _ b ha hb).1 hjl'⟩
      rw [← ha, hgn]
    obtain ⟨I2, S2⟩ := step_none I1 S1 hm1 (by omega)
      (fun b hb => by
        obtain ⟨j, hj⟩ := List.mem_iff_getElem?.1 hb
        obtain ⟨a, _, hr⟩ := hRk j b hj
        exact I1.RP hr)
      (fun inp σ hσ v hw => by
        obtain ⟨vs, h1, h2, h3⟩ := hv inp v ((hWlt inp n v hnN).1 hw)
        refine h3 s1.heap σ (by rw [e8, hgn]) (by rw [e9.1, hgn]; exact h1) ?_
        intro i b w hb hw
        obtain ⟨a, ha, hr⟩ := hRk i b hb
        refine hσ a b hr w ((hWlt inp a w ?_).2 (h2 i a w ha hw))
        have := hchild a (List.mem_of_getElem? ha)
        omega)
    obtain ⟨I3, S3⟩ := step_node I2 S2 (n := n) (.inl (by simp [remember]))
      (fun inp => by
        obtain ⟨v, h⟩ := val_total wf inp none₀ n
        exact ⟨v, (hWlt inp n v hnN).2 h⟩)
      (.inl ⟨by simp [remember], rfl⟩)
    refine ⟨s1, e1, ?_⟩
    rw [remember_node]
    refine ⟨I3, S3, e4, ?_, ?_, ?_, by simp [remember, add]⟩
    · intro j r h
      have : j ≠ n := by rintro rfl; rw [hm] at h; cases h
      simp [remember, add, this, e5 j r h]
    · intro j hj hmj
      have hjn : j ≠ n := by rintro rfl; simp [remember, add] at hmj
      simp [remember, add, hjn] at hmj
      exact e6 j hj hjn hmj
    · intro j hj hjn
      have hjn' : j ≠ n := by omega
      simp [remember, add, hjn']
      exact e7 j (by omega) hjn
  cases hk : (g n).kind with
  | input i =>
    refine ⟨none, remember s n none, by simp [inst, hm, hgn, hk], leaf (wf.inputArgs n i hk) ?_⟩
    intro inp σ v hv
    rw [← val_det (Val.input hk) hv]
    exact .input (by rw [hgn]; exact hk)
  | const i =>
    refine ⟨none, remember s n none, by simp [inst, hm, hgn, hk], leaf (wf.constArgs n i hk) ?_⟩
    intro inp σ v hv
    rw [← val_det (Val.const hk) hv]
    exact .const (by rw [hgn]; exact hk)
  | res => exact absurd hk (wf.nores n)
  | op o =>
    obtain ⟨s', h1, h2⟩ := keep (by
      intro inp v hv
      cases hv with
      | input hk' => rw [hk] at hk'; cases hk'
      | const hk' => rw [hk] at hk'; cases hk'
      | res hk' => rw [hk] at hk'; cases hk'
      | op vs hk' hl hc =>
        rw [hk] at hk'; cases hk'
        exact ⟨vs, hl, hc, fun h σ h1 h2 h3 => .op vs (by rw [h1, hk]) h2 h3⟩
      | div _ _ hk' => rw [hk] at hk'; cases hk'
      | call _ _ hk' => rw [hk] at hk'; cases hk') (by rw [hk]; simp)
    have hk' : (s.heap n).kind = .op o := by rw [hgn]; exact hk
    exact ⟨none, _, by simp [inst, hm, hk', h1], h2⟩
  | call f =>
    have hk' : (s.heap n).kind = .call f := by rw [hgn]; exact hk
    have hrc' := hrc fuel (by omega) W K hWlt hWK
    rw [← hgn] at hrc'
    obtain ⟨v, s', h1, h2, _⟩ := call_ok fuel n n K s f hWlt I S hK hnn hm hk' (Nat.le_refl _)
      (by omega) (by rw [hgn]; exact hchild) (by rw [hgn]; exact wf.callArgs n f hk)
      (fun j hj => hfr j (by omega)) hdet
      (fun inp => by
        obtain ⟨v, hv⟩ := val_total wf inp none₀ n
        have hw := (hWlt inp n v hnN).2 hv
        cases hv with
        | input hk' => rw [hk] at hk'; cases hk'
        | const hk' => rw [hk] at hk'; cases hk'
        | res hk' => rw [hk] at hk'; cases hk'
        | op _ hk' => rw [hk] at hk'; cases hk'
        | div _ _ hk' => rw [hk] at hk'; cases hk'
        | call vs _ hk' hl hc =>
          rw [hk] at hk'; cases hk'
          rw [hgn]
          exact ⟨vs, hl, hc, hw⟩) hrc'
    exact ⟨some v, s', h1, h2⟩
  | div =>
    have hk' : (s.heap n).kind = .div := by rw [hgn]; exact hk
    cases he : e with
    | false =>
      subst he
      obtain ⟨s', h1, h2⟩ := keep (by
        intro inp v hv
        cases hv with
        | input hk' => rw [hk] at hk'; cases hk'
        | const hk' => rw [hk] at hk'; cases hk'
        | res hk' => rw [hk] at hk'; cases hk'
        | op _ hk' => rw [hk] at hk'; cases hk'
        | div vs _ _ hl hc =>
          exact ⟨vs, hl, hc, fun h σ h1 h2 h3 => .div vs rfl (by rw [h1, hk]) h2 h3⟩
        | call _ _ hk' => rw [hk] at hk'; cases hk') (by rw [hk]; simp)
      exact ⟨none, _, by simp [inst, hm, hk', h1], h2⟩
    | true =>
      subst he
      obtain ⟨ha2, hd⟩ := hdiv rfl
      obtain ⟨a, b, hab⟩ : ∃ a b, (g n).args = [a, b] := by
        have := wf.divArgs n hk
        match h : (g n).args, this with
        | [a, b], _ => exact ⟨a, b, rfl⟩
      have hg0 : getInput s n 0 = .ok a := by simp [getInput, hgn, hab]
      have hg1 : getInput s n 1 = .ok b := by simp [getInput, hgn, hab]
      obtain ⟨c, hc⟩ : ∃ c, c = (create s ⟨.call "div", [a, b]⟩).2 := ⟨_, rfl⟩
      have hcn : (create s ⟨.call "div", [a, b]⟩).1 = s.next := rfl
      have hcnext : c.next = s.next + 1 := by subst hc; rfl
      have hcmemo : c.memo = s.memo := by subst hc; rfl
      have hcst : c.stmts = s.stmts := by subst hc; rfl
      have hcheap : ∀ j, j ≠ s.next → c.heap j = s.heap j := by
        intro j hj; subst hc; simp [create, hj]
      have hcm : c.heap s.next = ⟨.call "div", [a, b]⟩ := by subst hc; simp [create]
      have hag : ∀ j, P s j → c.heap j = s.heap j := fun j hj => hcheap j (by
        have := I.Plt hj; omega)
      have hP : ∀ j, P s j → P c j := by
        intro j hj
        have hlt := I.Plt hj
        rcases hj with hj | hj
        · left; rw [hcmemo]; exact hj
        · right; rw [hcheap j (by omega), hcnext]; exact ⟨hj.1, by omega⟩
      -- the new call has the value of the division
      obtain ⟨W', hW'⟩ : ∃ W' : (ℕ → V) → ℕ → V → Prop, W' = fun inp j v =>
        if j = s.next then Val source M g inp none₀ n v else W inp j v := ⟨_, rfl⟩
      have hW'ne : ∀ inp j v, j ≠ s.next → (W' inp j v ↔ W inp j v) := by
        intro inp j v hj; subst hW'; simp [hj]
      have hW'eq : ∀ inp v, W' inp s.next v ↔ Val source M g inp none₀ n v := by
        intro inp v; subst hW'; simp
      have hle := I.le
      have Ic : Inv N c := by
        refine ⟨by omega, ?_, ?_, ?_, ?_⟩
        · intro j hj; rw [hcmemo]; exact I.new j (by omega)
        · intro j v h
          rw [hcmemo] at h
          have := I.resv j v h
          rw [hcheap v (by omega)]; exact ⟨this.1, by omega⟩
        · intro j hj x hx
          rw [hcmemo] at hj
          rw [hag j (.inl hj)] at hx
          exact hP x (I.closed j hj x hx)
        · intro x hx
          rw [hcst] at hx
          have := I.stm x hx
          cases x with
          | decl v => trivial
          | scheme v f args => exact fun b hb => hP b (this b hb)
          | node m => exact hP m this
      have Sc : Sem true M W' c := by
        intro inp
        obtain ⟨σ, h1, h2, h3⟩ := S inp
        refine ⟨σ, by rw [hcst]; exact exec_transfer (P s) I.clP hag h1 I.stm,
          fun j hj => h2 j (by omega), ?_⟩
        intro j x hr v hw
        have hr' : R s j x := by unfold R at hr; rw [hcmemo] at hr; exact hr
        have hj : j ≠ s.next := by
          rintro rfl
          have := I.new s.next (Nat.le_refl _)
          rcases hr' with ⟨h, _⟩ | h <;> rw [this] at h <;> cases h
        exact val_transfer (P s) I.clP hag (h3 j x hr' v ((hW'ne inp j v hj).1 hw)) (I.RP hr')
      have hW'lt : ∀ inp j v, j < N → (W' inp j v ↔ Val source M g inp none₀ j v) := by
        intro inp j v hj
        rw [hW'ne inp j v (by omega)]; exact hWlt inp j v hj
      have hW'K : ∀ inp j v, W' inp j v → j < s.next + 1 := by
        intro inp j v h
        by_cases hj : j = s.next
        · omega
        · have := hWK inp j v ((hW'ne inp j v hj).1 h); omega
      obtain ⟨fuel, rfl⟩ : ∃ f, fuel = f + 1 := ⟨fuel - 1, by omega⟩
      have hrc' := hrc fuel (by omega) W' (s.next + 1) hW'lt hW'K
      rw [hab] at hrc'
      obtain ⟨v, s1, h1, h2, h5⟩ := call_ok fuel s.next n (s.next + 1) c "div" hW'lt Ic Sc
        (by omega) (by omega) (by rw [hcmemo]; exact I.new _ (Nat.le_refl _)) (by rw [hcm])
        (by omega) (by omega) (by
          rw [hcm]
          intro x hx
          exact hchild x (by rw [hab]; exact hx))
        (by rw [hcm, ha2]; simp)
        (fun j hj hmj => by
          rw [hcheap j (by omega)]
          rw [hcmemo] at hmj
          exact hfr j (by omega) hmj)
        (fun inp v h v' h' => val_det ((hW'eq inp v').1 h') ((hW'eq inp v).1 h))
        (fun inp => by
          obtain ⟨v, hv⟩ := val_total wf inp none₀ n
          have hw := (hW'eq inp v).2 hv
          rw [hcm]
          cases hv with
          | input hk' => rw [hk] at hk'; cases hk'
          | const hk' => rw [hk] at hk'; cases hk'
          | res hk' => rw [hk] at hk'; cases hk'
          | op _ hk' => rw [hk] at hk'; cases hk'
          | div vs _ _ hl hc =>
            rw [hab] at hl hc
            refine ⟨vs, hl, hc, ?_⟩
            match vs, hl, hw with
            | [x, y], _, hw =>
              rw [ha2]
              show W' inp s.next (M.fct "div" [x, y])
              rw [hd]; exact hw
          | call _ _ hk' => rw [hk] at hk'; cases hk')
        (by rw [hcm]; exact hrc')
      refine ⟨some v, remember s1 n (some v), ?_, ?_⟩
      · rw [inst]
        simp only [hm, hk', hg0, hg1, if_true, hcn, ← hc]
        rw [h1]
      · have hm1 : s1.memo s.next = some (some v) := h2.done
        have hnx := h2.next
        have hmn1 : s1.memo n = none := by
          rw [h5 n (Nat.le_refl _) (by omega) (by omega), hcmemo]; exact hm
        have hRn : ∀ j x, j ≠ n → R (remember s1 n (some v)) j x → R s1 j x := by
          intro j x hj hr
          unfold R at hr
          simp [remember, hj] at hr
          exact hr
        have hPr : ∀ j, P s1 j → P (remember s1 n (some v)) j := by
          intro j hj
          rcases hj with hj | hj
          · left
            have : j ≠ n := by rintro rfl; rw [hmn1] at hj; cases hj
            simp [remember, this, hj]
          · exact .inr hj
        refine ⟨⟨h2.inv.le, ?_, ?_, ?_, ?_⟩, ?_, by show s.next ≤ s1.next; omega, ?_, ?_, ?_,
          by simp [remember]⟩
        · intro j hj
          have hj' : s1.next ≤ j := hj
          have : j ≠ n := by omega
          simp [remember, this, h2.inv.new j hj']
        · intro j x h
          by_cases hj : j = n
          · subst hj
            simp [remember] at h
            subst h
            exact h2.inv.resv s.next v hm1
          · simp [remember, hj] at h
            exact h2.inv.resv j x h
        · intro j hj x hx
          have hjn : j ≠ n := by rintro rfl; simp [remember] at hj
          simp [remember, hjn] at hj
          exact hPr x (h2.inv.closed j hj x hx)
        · intro x hx
          have := h2.inv.stm x hx
          cases x with
          | decl v => trivial
          | scheme v f args => exact fun b hb => hPr b (this b hb)
          | node m => exact hPr m this
        · intro inp
          obtain ⟨σ, g1, g2, g3⟩ := h2.sem inp
          refine ⟨σ, g1, g2, ?_⟩
          intro j x hr w hw
          by_cases hj : j = n
          · subst hj
            have hx : x = v := by
              rcases hr with ⟨h, _⟩ | h
              · simp [remember] at h
              · simp [remember] at h; exact h.symm
            subst hx
            exact g3 s.next x (.inr hm1) w ((hW'eq inp w).2 ((hWlt inp j w hnN).1 hw))
          · have hjK := hWK inp j w hw
            exact g3 j x (hRn j x hj hr) w ((hW'ne inp j w (by omega)).2 hw)
        · intro j r h
          have : j ≠ n := by rintro rfl; rw [hm] at h; cases h
          simp [remember, this]
          exact h2.memo j r (by rw [hcmemo]; exact h)
        · intro j hj hmj
          have hjn : j ≠ n := by rintro rfl; simp [remember] at hmj
          simp [remember, hjn] at hmj
          show s1.heap j = s.heap j
          rw [h2.frame j (by omega) hmj, hcheap j (by omega)]
        · intro j hj hjn
          have hjn' : j ≠ n := by omega
          simp [remember, hjn']
          rw [h5 j (by omega) (by omega) (by omega), hcmemo]

/-- **C129**: for every well-formed expression, with any sharing of
sub-expressions, the generated statements run, contain no call (and no division
when divisions are expanded), and return the value of the expression for all
arguments. -/
theorem C129_generated_code {M : Meaning O V} {g : ℕ → Node O} (wf : Wf M g) (expand : Bool)
    (hdiv : expand = true → M.arity "div" = 2 ∧ ∀ a b, M.fct "div" [a, b] = M.div [a, b])
    (size root : ℕ) (hroot : root < size) (fuel : ℕ) (hfuel : 2 * root + 2 ≤ fuel) :
    ∃ final s, instanciateGraph M.arity expand fuel size g root = .ok (final, s) ∧
      ∀ inp v, Val source M g inp none₀ root v →
        Returns (target expand) M s.heap inp s.stmts final v := by
  obtain ⟨r, s, h1, h2⟩ := inst_ok (N := size) (e := expand) wf hdiv root fuel hfuel
    (fun inp j v => j < size ∧ Val source M g inp none₀ j v) size
    ⟨g, size, fun _ => none, []⟩ (fun inp j v hj => ⟨fun h => h.2, fun h => ⟨hj, h⟩⟩)
    (fun inp j v h => h.1)
    ⟨Nat.le_refl _, fun _ _ => rfl, (by intro j v h; cases h), (by intro j h; cases h),
      (by intro x h; cases h)⟩
    (fun inp => ⟨none₀, .nil, fun _ _ => rfl, by
      intro j b hr
      rcases hr with ⟨h, _⟩ | h <;> cases h⟩)
    (Nat.le_refl _) hroot (fun _ _ _ => rfl)
  refine ⟨r.getD root, s, by simp [instanciateGraph, h1], ?_⟩
  intro inp v hv
  obtain ⟨σ, g1, _, g3⟩ := h2.sem inp
  refine ⟨σ, g1, g3 root _ ?_ v ⟨hroot, hv⟩⟩
  cases r with
  | none => exact .inl ⟨h2.done, rfl⟩
  | some b => exact .inr h2.done

/-- Every well-formed expression has exactly one value. -/
theorem C129_value_unique {M : Meaning O V} {g : ℕ → Node O} (wf : Wf M g) (inp : ℕ → V)
    (n : ℕ) : ∃ v, Val source M g inp none₀ n v ∧
      ∀ v', Val source M g inp none₀ n v' → v' = v := by
  obtain ⟨v, hv⟩ := val_total wf inp none₀ n
  exact ⟨v, hv, fun v' h => val_det h hv⟩

/-! ### A concrete case: `exp(x)/y + exp(x)`, with `exp(x)` shared -/

def exGraph : ℕ → Node Char
  | 0 => ⟨.input 0, []⟩
  | 1 => ⟨.input 1, []⟩
  | 2 => ⟨.call "exp", [0]⟩
  | 3 => ⟨.div, [2, 1]⟩
  | 4 => ⟨.op '+', [3, 2]⟩
  | _ => ⟨.const 0, []⟩

def exMeaning : Meaning Char ℤ where
  const _ := 0
  op _ vs := vs.sum
  div vs := vs.headD 0 / vs.getLastD 0
  arity f := if f = "div" then 2 else 1
  fct f vs := if f = "div" then vs.headD 0 / vs.getLastD 0 else vs.headD 0 + 1

example : Wf exMeaning exGraph := by
  refine ⟨?_, ?_, ?_, ?_, ?_, ?_⟩
  · intro n a
    rcases n with _ | _ | _ | _ | _ | n <;> simp [exGraph] <;> omega
  · intro n
    rcases n with _ | _ | _ | _ | _ | n <;> simp [exGraph]
  · intro n f
    rcases n with _ | _ | _ | _ | _ | n <;> simp [exGraph, exMeaning]
    rintro rfl; simp
  · intro n
    rcases n with _ | _ | _ | _ | _ | n <;> simp [exGraph]
  · intro n i
    rcases n with _ | _ | _ | _ | _ | n <;> simp [exGraph]
  · intro n i
    rcases n with _ | _ | _ | _ | _ | n <;> simp [exGraph]

example : exMeaning.arity "div" = 2 ∧
    ∀ a b, exMeaning.fct "div" [a, b] = exMeaning.div [a, b] := ⟨rfl, fun _ _ => rfl⟩

/-- The shared call is instantiated once, before the division which uses it. -/
example : (instanciateGraph exMeaning.arity true 10 5 exGraph 4).toOption.map
    (fun p => (p.1, p.2.stmts)) =
    some (4, [.decl 6, .scheme 6 "exp" [0], .decl 7, .scheme 7 "div" [6, 1], .node 4]) := by
  decide

/-- A call with too few arguments stops the generation. -/
example : (instanciateGraph (O := Char) (fun _ => 2) false 10 2
    (fun n => if n = 1 then ⟨.call "atan2", [0]⟩ else ⟨.input 0, []⟩) 1).toOption.isSome = false := by
  decide

/-! ### The variables of the expression -/

theorem mem_distinct (l : List (Fin 4)) (a : Fin 4) : a ∈ distinct l ↔ a ∈ l := by
  induction l with
  | nil => simp [distinct]
  | cons b l ih =>
    by_cases h : b ∈ distinct l
    · simp only [distinct, h, if_true, List.mem_cons]
      rw [ih]
      constructor
      · exact .inr
      · rintro (rfl | h')
        · exact ih.1 h
        · exact h'
    · simp [distinct, h, ih]

theorem nodup_distinct (l : List (Fin 4)) : (distinct l).Nodup := by
  induction l with
  | nil => simp [distinct]
  | cons b l ih =>
    by_cases h : b ∈ distinct l
    · simpa [distinct, h] using ih
    · simpa [distinct, h] using ih

mutual
theorem words_iff : ∀ (e : Src) (i : Fin 4), i ∈ words e ↔ UsesVar e i
  | .var j, i => by
    simp only [words, List.mem_singleton]
    constructor
    · rintro rfl; exact .var
    · intro h; cases h; rfl
  | .num _, i => by
    simp only [words]
    constructor
    · intro h; cases h
    · intro h; cases h
  | .bin _ a b, i => by
    simp only [words, List.mem_append]
    rw [words_iff a i, words_iff b i]
    constructor
    · rintro (h | h)
      · exact .left h
      · exact .right h
    · intro h
      cases h with
      | left h => exact .inl h
      | right h => exact .inr h
  | .neg a, i => by
    simp only [words]
    rw [words_iff a i]
    constructor
    · exact .neg
    · intro h; cases h with
      | neg h => exact h
  | .app _ l, i => by
    simp only [words]
    rw [wordsL_iff l i]
    constructor
    · exact .app
    · intro h; cases h with
      | app h => exact h
theorem wordsL_iff : ∀ (l : List Src) (i : Fin 4), i ∈ wordsL l ↔ UsesVarL l i
  | [], i => by
    simp only [wordsL]
    constructor
    · intro h; cases h
    · intro h; cases h
  | a :: l, i => by
    simp only [wordsL, List.mem_append]
    rw [words_iff a i, wordsL_iff l i]
    constructor
    · rintro (h | h)
      · exact .head h
      · exact .tail h
    · intro h
      cases h with
      | head h => exact .inl h
      | tail h => exact .inr h
end

mutual
theorem defined_iff (k : ℕ) : ∀ e : Src, defined k e = true ↔ ∀ i ∈ words e, i.1 < k
  | .var i => by simp [defined, words]
  | .num _ => by simp [defined, words]
  | .bin _ a b => by
    simp only [defined, words, Bool.and_eq_true, List.mem_append]
    rw [defined_iff k a, defined_iff k b]
    constructor
    · rintro ⟨h1, h2⟩ i (h | h)
      · exact h1 i h
      · exact h2 i h
    · intro h; exact ⟨fun i hi => h i (.inl hi), fun i hi => h i (.inr hi)⟩
  | .neg a => by simpa [defined, words] using defined_iff k a
  | .app _ l => by simpa [defined, words] using definedL_iff k l
theorem definedL_iff (k : ℕ) : ∀ l : List Src, definedL k l = true ↔ ∀ i ∈ wordsL l, i.1 < k
  | [] => by simp [definedL, wordsL]
  | a :: l => by
    simp only [definedL, wordsL, Bool.and_eq_true, List.mem_append]
    rw [defined_iff k a, definedL_iff k l]
    constructor
    · rintro ⟨h1, h2⟩ i (h | h)
      · exact h1 i h
      · exact h2 i h
    · intro h; exact ⟨fun i hi => h i (.inl hi), fun i hi => h i (.inr hi)⟩
end

/-- **C129**: an expression is accepted exactly when no variable is skipped: with
every variable it uses all the variables before, in the order `x`, `y`, `z`, `t`. -/
theorem C129_variables (e : Src) :
    parses e = true ↔ ∀ i j : Fin 4, j < i → UsesVar e i → UsesVar e j := by
  unfold parses countArity
  rw [defined_iff]
  have hc : (distinct (words e)).length = ((distinct (words e)).toFinset).card :=
    (List.toFinset_card_of_nodup (nodup_distinct _)).symm
  rw [hc]
  obtain ⟨U, hU⟩ : ∃ U, U = (distinct (words e)).toFinset := ⟨_, rfl⟩
  rw [← hU]
  have hm : ∀ i, i ∈ U ↔ UsesVar e i := by
    intro i; rw [hU, List.mem_toFinset, mem_distinct, words_iff]
  have hcard : (U.image Fin.val).card = U.card :=
    Finset.card_image_of_injective _ Fin.val_injective
  constructor
  · intro h i j hji hi
    have hsub : U.image Fin.val ⊆ Finset.range U.card := by
      intro x hx
      obtain ⟨y, hy, rfl⟩ := Finset.mem_image.1 hx
      exact Finset.mem_range.2 (h y ((words_iff e y).2 ((hm y).1 hy)))
    have heq := Finset.eq_of_subset_of_card_le hsub (by rw [hcard, Finset.card_range])
    have hi' := h i ((words_iff e i).2 hi)
    have : j.1 ∈ U.image Fin.val := by
      rw [heq]; exact Finset.mem_range.2 (by have : j.1 < i.1 := hji; omega)
    obtain ⟨y, hy, hyj⟩ := Finset.mem_image.1 this
    rw [← Fin.ext hyj]
    exact (hm y).1 hy
  · intro h i hi
    have hi' := (words_iff e i).1 hi
    have hsub : Finset.range (i.1 + 1) ⊆ U.image Fin.val := by
      intro x hx
      have hx' := Finset.mem_range.1 hx
      have hx4 : x < 4 := by omega
      refine Finset.mem_image.2 ⟨⟨x, hx4⟩, (hm _).2 ?_, rfl⟩
      by_cases hxi : x = i.1
      · subst hxi; exact hi'
      · exact h i ⟨x, hx4⟩ (by show x < i.1; omega) hi'
    have := Finset.card_le_card hsub
    rw [hcard, Finset.card_range] at this
    omega

/-- `exp(x) + y` is accepted. -/
example : parses (.bin '+' (.app 0 [.var 0]) (.var 1)) = true := by decide

/-- `x + z` is well formed and is refused: two variables are counted and the
names defined are `x` and `y`. -/
theorem C129_skipped_variable_wrong :
    parses (.bin '+' (.var 0) (.var 2)) = false ∧ parses (.var 1) = false := by decide

/-! ### The exact value of `atan2` -/

/-- **C129**: the reference value of `atan2(y, x)` is the angle of the point
exactly in the right half-plane. -/
theorem C129_atan2_partial (x y : ℝ) (hx : x ≠ 0) :
    (∃ r, IsAngleOf Real.cos Real.sin x y r (emulatedAtan2 y x)) ↔ 0 < x := by
  unfold emulatedAtan2
  have hc : 0 < Real.cos (Real.arctan (y / x)) := Real.cos_arctan_pos _
  constructor
  · rintro ⟨r, hr, h1, _⟩
    rw [h1]; exact mul_pos hr hc
  · intro h
    refine ⟨x / Real.cos (Real.arctan (y / x)), div_pos h hc, ?_, ?_⟩
    · field_simp
    · have ht := Real.tan_arctan (y / x)
      rw [Real.tan_eq_sin_div_cos] at ht
      have : x / Real.cos (Real.arctan (y / x)) * Real.sin (Real.arctan (y / x)) =
          x * (Real.sin (Real.arctan (y / x)) / Real.cos (Real.arctan (y / x))) := by ring
      rw [this, ht]
      field_simp

/-- In the left half-plane the reference value is never the angle. -/
theorem C129_atan2_wrong (x y : ℝ) (hx : x < 0) :
    ¬ ∃ r, IsAngleOf Real.cos Real.sin x y r (emulatedAtan2 y x) := fun h =>
  absurd ((C129_atan2_partial x y (ne_of_lt hx)).1 h) (not_lt.2 (le_of_lt hx))

end Verif.FctExpr
