import Verif.Rewrite.Lower

/-! # C59: `Pass_NodeTransformation.transform_graph` -/

namespace Verif.Rewrite

variable {Op V : Type}

/-! ## Specification of the methods of a concrete pass -/

/-- the value of the transformed node `t` stands for the value of `m` -/
def Represents (den : Op → List V → V) (Repr : V → V → Prop) (h : Heap Op) (t m : ℕ) : Prop :=
  ∃ w v, Eval den h t w ∧ Eval den h m v ∧ Repr w v

/-- `x` is one of the nodes allowed by `Ok` or one of the `k` first new nodes -/
def Scope (Ok : ℕ → Prop) (base k x : ℕ) : Prop := Ok x ∨ ∃ j, j < k ∧ x = base + j

/-- New nodes: each has the number of inputs its operation takes, and its inputs are in scope. -/
def NewNodes (arity : Op → ℕ) (base : ℕ) (Ok : ℕ → Prop) (news : List (Node Op)) : Prop :=
  ∀ k nd, news[k]? = some nd → nd.ins.length = arity nd.op ∧ ∀ x ∈ nd.ins, Scope Ok base k x

/-- `transform_node` returns `None` or a node that represents the given node whenever its transformed inputs represent its inputs;
`reconstruct_from_transformed` returns a node with the value of the original one.  Both build new nodes above the node they are
given and its transformed inputs. -/
structure MSound (arity : Op → ℕ) (den : Op → List V → V) (Repr : V → V → Prop) (M : Methods Op) : Prop where
  transform : ∀ (h : Heap Op) (n : ℕ) (nd : Node Op) (ts : List (Option ℕ)), WF arity h → h[n]? = some nd →
    (∃ h' : Heap Op, h'[n]? = some nd ∧ M.can h' n = true) →
    ts.length = nd.ins.length →
    (∀ (i m t : ℕ), nd.ins[i]? = some m → ts[i]? = some (some t) → Represents den Repr h t m) →
    NewNodes arity h.length (fun x => Below h n x ∨ ∃ t, some t ∈ ts ∧ Below h t x) (M.transform h n ts).1 ∧
    ∀ r, (M.transform h n ts).2 = some r →
      Scope (fun x => Below h n x ∨ ∃ t, some t ∈ ts ∧ Below h t x) h.length (M.transform h n ts).1.length r ∧
      Represents den Repr (h ++ (M.transform h n ts).1) r n
  reconstruct : ∀ h m t, WF arity h → m < h.length → Represents den Repr h t m →
    NewNodes arity h.length (fun x => Below h m x ∨ Below h t x) (M.reconstruct h m t).1 ∧
    Scope (fun x => Below h m x ∨ Below h t x) h.length (M.reconstruct h m t).1.length (M.reconstruct h m t).2 ∧
    ∀ v, Eval den (h ++ (M.reconstruct h m t).1) m v →
      Eval den (h ++ (M.reconstruct h m t).1) (M.reconstruct h m t).2 v

/-- The pass removes the operations of `c`: exactly they are transformed, always, and no new node carries such an operation or uses
a node other than the transformed inputs, the inputs that are kept, and new nodes. -/
structure Removes (arity : Op → ℕ) (c : Op → Bool) (M : Methods Op) : Prop where
  can : ∀ h n nd, h[n]? = some nd → M.can h n = c nd.op
  transform : ∀ (h : Heap Op) (n : ℕ) (nd : Node Op) (ts : List (Option ℕ)), h[n]? = some nd → c nd.op = true →
    nd.ins.length = arity nd.op → ts.length = nd.ins.length →
    (∃ r, (M.transform h n ts).2 = some r ∧
      Scope (fun x => some x ∈ ts ∨ ∃ i : ℕ, ts[i]? = some none ∧ nd.ins[i]? = some x) h.length (M.transform h n ts).1.length r) ∧
    ∀ k nd', (M.transform h n ts).1[k]? = some nd' → c nd'.op = false ∧
      ∀ x ∈ nd'.ins, Scope (fun x => some x ∈ ts ∨ ∃ i : ℕ, ts[i]? = some none ∧ nd.ins[i]? = some x) h.length k x
  reconstruct : ∀ h m t,
    Scope (fun x => x = t) h.length (M.reconstruct h m t).1.length (M.reconstruct h m t).2 ∧
    ∀ k nd', (M.reconstruct h m t).1[k]? = some nd' → c nd'.op = false ∧ ∀ x ∈ nd'.ins, Scope (fun x => x = t) h.length k x

/-! ## Invariant of the graph -/

section
variable {arity : Op → ℕ} {den : Op → List V → V} {Repr : V → V → Prop} {M : Methods Op} {N0 : ℕ}

structure TInv (arity : Op → ℕ) (den : Op → List V → V) (N0 : ℕ) (h : Heap Op) (val : ℕ → V) (lv : ℕ → ℕ) : Prop where
  len : N0 ≤ h.length
  nodes : ∀ n nd, h[n]? = some nd → nd.ins.length = arity nd.op ∧
    (∀ m ∈ nd.ins, m < h.length ∧ (lv m < lv n ∨ lv m = lv n ∧ m < n)) ∧ val n = den nd.op (nd.ins.map val) ∧
    (n < N0 → ∀ m ∈ nd.ins, lv m < lv n)

theorem TInv.wf {h : Heap Op} {val : ℕ → V} {lv : ℕ → ℕ} (hI : TInv arity den N0 h val lv) : WF arity h := by
  refine ⟨fun n => lv n * h.length + n, fun n nd hn => ⟨(hI.nodes n nd hn).1, fun m hm => ?_⟩⟩
  obtain ⟨h1, h2⟩ := (hI.nodes n nd hn).2.1 m hm
  refine ⟨h1, ?_⟩
  show lv m * h.length + m < lv n * h.length + n
  rcases h2 with h2 | ⟨h2, h3⟩
  · have : (lv m + 1) * h.length ≤ lv n * h.length := Nat.mul_le_mul_right _ h2
    rw [Nat.add_mul] at this
    omega
  · rw [h2]; omega

theorem eval_of {h : Heap Op} {val : ℕ → V} (hwf : WF arity h)
    (hv : ∀ n nd, h[n]? = some nd → val n = den nd.op (nd.ins.map val)) {n : ℕ} (hn : n < h.length) : Eval den h n (val n) := by
  obtain ⟨rank, hr⟩ := hwf
  have key : ∀ k n, rank n < k → n < h.length → Eval den h n (val n) := by
    intro k
    induction k with
    | zero => intro n h; omega
    | succ k ih =>
      intro n hk hn
      have hg : h[n]? = some h[n] := List.getElem?_eq_getElem hn
      rw [hv n _ hg]
      exact .mk n _ val hg fun m hm => by
        have := (hr n _ hg).2 m hm
        exact ih m (by omega) this.1
  exact key _ n (Nat.lt_succ_self _) hn

theorem TInv.eval {h : Heap Op} {val : ℕ → V} {lv : ℕ → ℕ} (hI : TInv arity den N0 h val lv) {n : ℕ} (hn : n < h.length) :
    Eval den h n (val n) := eval_of hI.wf (fun n nd hn => (hI.nodes n nd hn).2.2.1) hn

theorem Eval.lt {h : Heap Op} {n : ℕ} {v : V} (he : Eval den h n v) : n < h.length := by
  cases he with | mk _ nd _ hg _ => exact (List.getElem?_eq_some_iff.1 hg).1

theorem TInv.below {h : Heap Op} {val : ℕ → V} {lv : ℕ → ℕ} (hI : TInv arity den N0 h val lv) {n m : ℕ} (hn : n < h.length)
    (hb : Below h n m) : m < h.length ∧ lv m ≤ lv n := by
  induction hb with
  | refl => exact ⟨hn, le_rfl⟩
  | step _ hg hk ih =>
    obtain ⟨h1, h2⟩ := (hI.nodes _ _ hg).2.1 _ hk
    exact ⟨h1, by omega⟩

theorem TInv.set {h : Heap Op} {val : ℕ → V} {lv : ℕ → ℕ} (hI : TInv arity den N0 h val lv) {n idx r m : ℕ} {nd : Node Op}
    (hn : h[n]? = some nd) (hm : nd.ins[idx]? = some m) (hr : r < h.length) (hv : val r = val m) (hl : lv r < lv n) :
    TInv arity den N0 (setInput h n idx r) val lv := by
  refine ⟨by rw [setInput_length]; exact hI.len, fun k kd hk => ?_⟩
  rw [setInput_length]
  by_cases hkn : k = n
  · subst hkn
    rw [setInput_self hn] at hk
    obtain rfl := Option.some.inj hk
    obtain ⟨h1, h2, h3, h4⟩ := hI.nodes _ _ hn
    refine ⟨by simpa using h1, ?_, ?_, ?_⟩
    · intro x hx
      rcases List.mem_or_eq_of_mem_set hx with hx | rfl
      · exact h2 x hx
      · exact ⟨hr, Or.inl hl⟩
    · rw [h3]
      congr 1
      apply List.ext_getElem?
      intro i
      by_cases hi : i = idx
      · subst hi
        obtain ⟨hlt, hme⟩ := List.getElem?_eq_some_iff.1 hm
        simp [List.getElem?_set, hlt, hv, hme]
      · simp [List.getElem?_set, Ne.symm hi]
    · intro hk0 x hx
      rcases List.mem_or_eq_of_mem_set hx with hx | rfl
      · exact h4 hk0 x hx
      · exact hl
  · rw [setInput_ne _ _ hkn] at hk
    exact hI.nodes k kd hk

theorem TInv.append [Inhabited V] {h : Heap Op} {val : ℕ → V} {lv : ℕ → ℕ} (hI : TInv arity den N0 h val lv) {Ok : ℕ → Prop}
    {news : List (Node Op)} {L : ℕ} (hnew : NewNodes arity h.length Ok news) (hOk : ∀ x, Ok x → x < h.length ∧ lv x ≤ L) :
    ∃ val' lv', TInv arity den N0 (h ++ news) val' lv' ∧ (∀ k < h.length, val' k = val k ∧ lv' k = lv k) ∧
      ∀ k, h.length ≤ k → lv' k = L := by
  set lv' : ℕ → ℕ := fun k => if k < h.length then lv k else L with hlv
  have hold : ∀ k < h.length, lv' k = lv k := fun k hk => by simp [hlv, hk]
  have hnw : ∀ k, h.length ≤ k → lv' k = L := fun k hk => by simp [hlv, Nat.not_lt.2 hk]
  have hstruct : ∀ n nd, (h ++ news)[n]? = some nd → nd.ins.length = arity nd.op ∧
      (∀ m ∈ nd.ins, m < (h ++ news).length ∧ (lv' m < lv' n ∨ lv' m = lv' n ∧ m < n)) ∧
      (n < N0 → ∀ m ∈ nd.ins, lv' m < lv' n) := by
    intro n nd hn
    have hlen : (h ++ news).length = h.length + news.length := List.length_append
    by_cases hc : n < h.length
    · rw [List.getElem?_append_left hc] at hn
      obtain ⟨h1, h2, h3, h4⟩ := hI.nodes n nd hn
      refine ⟨h1, fun m hm => ?_, fun h0 m hm => ?_⟩
      · have := h2 m hm
        rw [hold m this.1, hold n hc]
        exact ⟨by omega, this.2⟩
      · have := h2 m hm
        rw [hold m this.1, hold n hc]
        exact h4 h0 m hm
    · have hc' : h.length ≤ n := Nat.not_lt.1 hc
      rw [List.getElem?_append_right hc'] at hn
      have hlt := (List.getElem?_eq_some_iff.1 hn).1
      obtain ⟨h1, h2⟩ := hnew _ nd hn
      refine ⟨h1, fun m hm => ?_, fun h0 => ?_⟩
      · rw [hnw n hc']
        rcases h2 m hm with h | ⟨j, hj, rfl⟩
        · have := hOk m h
          rw [hold m this.1]
          exact ⟨by omega, by omega⟩
        · rw [hnw _ (Nat.le_add_right _ _)]
          exact ⟨by omega, by omega⟩
      · have := hI.len; omega
  have hwf : WF arity (h ++ news) := by
    refine ⟨fun n => lv' n * (h ++ news).length + n, fun n nd hn => ⟨(hstruct n nd hn).1, fun m hm => ?_⟩⟩
    obtain ⟨h1, h2⟩ := (hstruct n nd hn).2.1 m hm
    refine ⟨h1, ?_⟩
    show lv' m * (h ++ news).length + m < lv' n * (h ++ news).length + n
    rcases h2 with h2 | ⟨h2, h3⟩
    · have : (lv' m + 1) * (h ++ news).length ≤ lv' n * (h ++ news).length := Nat.mul_le_mul_right _ h2
      rw [Nat.add_mul] at this
      omega
    · rw [h2]; omega
  obtain ⟨val', hv'⟩ := exists_attr den default hwf
  refine ⟨val', lv', ⟨?_, fun n nd hn => ?_⟩, fun k hk => ⟨?_, hold k hk⟩, hnw⟩
  · have := hI.len
    rw [List.length_append]; omega
  · obtain ⟨h1, h2, h3⟩ := hstruct n nd hn
    exact ⟨h1, h2, hv' n nd hn, h3⟩
  · have e1 : Eval den (h ++ news) k (val' k) := eval_of hwf hv' (by rw [List.length_append]; omega)
    have lift : ∀ {n v}, Eval den h n v → Eval den (h ++ news) n v := by
      intro n v he
      induction he with
      | mk n nd f hg _ ih =>
        exact .mk n nd f (by rw [List.getElem?_append_left (List.getElem?_eq_some_iff.1 hg).1]; exact hg) ih
    exact e1.unique (lift (hI.eval hk))

/-! ## Nodes without removed operations -/

/-- no removed operation at or below the node -/
inductive Clean (c : Op → Bool) (h : Heap Op) : ℕ → Prop
  | mk (n : ℕ) (nd : Node Op) : h[n]? = some nd → c nd.op = false → (∀ m ∈ nd.ins, Clean c h m) → Clean c h n

theorem Clean.append {c : Op → Bool} {h g : Heap Op} {n : ℕ} (hc : Clean c h n) : Clean c (h ++ g) n := by
  induction hc with
  | mk n nd hg hf _ ih =>
    exact .mk n nd (by rw [List.getElem?_append_left (List.getElem?_eq_some_iff.1 hg).1]; exact hg) hf ih

theorem Clean.set {c : Op → Bool} {h : Heap Op} {val : ℕ → V} {lv : ℕ → ℕ} (hI : TInv arity den N0 h val lv) {n r : ℕ} (idx : ℕ)
    (hr : Clean c h r) (hl : lv r < lv n) {m : ℕ} (hm : Clean c h m) : Clean c (setInput h n idx r) m := by
  have hlt : ∀ {x}, Clean c h x → x < h.length := fun hx => by
    cases hx with | mk _ nd hg _ _ => exact (List.getElem?_eq_some_iff.1 hg).1
  have hrl := hlt hr
  have key : ∀ k x, lv x * h.length + x < k → Clean c h x → Clean c (setInput h n idx r) x := by
    intro k
    induction k with
    | zero => intro x hx; omega
    | succ k ih =>
      intro x hx hc
      cases hc with
      | mk _ nd hg hf hcl =>
        have hdec : ∀ y ∈ nd.ins, lv y * h.length + y < k := by
          intro y hy
          obtain ⟨h1, h2⟩ := (hI.nodes x nd hg).2.1 y hy
          rcases h2 with h2 | ⟨h2, h3⟩
          · have : (lv y + 1) * h.length ≤ lv x * h.length := Nat.mul_le_mul_right _ h2
            rw [Nat.add_mul] at this
            omega
          · rw [h2]; omega
        rcases eq_or_ne x n with rfl | hxn
        · refine .mk x _ (setInput_self hg idx r) hf ?_
          intro y hy
          rcases List.mem_or_eq_of_mem_set hy with h1 | rfl
          · exact ih y (hdec y h1) (hcl y h1)
          · refine ih y ?_ hr
            have : (lv y + 1) * h.length ≤ lv x * h.length := Nat.mul_le_mul_right _ hl
            rw [Nat.add_mul] at this
            omega
        · exact .mk x nd (by rw [setInput_ne _ _ hxn]; exact hg) hf fun y hy => ih y (hdec y hy) (hcl y hy)
  exact key _ m (Nat.lt_succ_self _) hm

theorem Clean.new {c : Op → Bool} {h news : Heap Op} {Ok : ℕ → Prop} (hOk : ∀ x, Ok x → Clean c (h ++ news) x)
    (hn : ∀ k nd, news[k]? = some nd → c nd.op = false ∧ ∀ x ∈ nd.ins, Scope Ok h.length k x) {k x : ℕ} (hk : k ≤ news.length)
    (hx : Scope Ok h.length k x) : Clean c (h ++ news) x := by
  induction k using Nat.strong_induction_on generalizing x with
  | _ k ih =>
    rcases hx with hx | ⟨j, hj, rfl⟩
    · exact hOk x hx
    · have hjl : j < news.length := by omega
      have hg : news[j]? = some news[j] := List.getElem?_eq_getElem hjl
      obtain ⟨h1, h2⟩ := hn j _ hg
      exact .mk _ _ (by rw [List.getElem?_append_right (Nat.le_add_right _ _), Nat.add_sub_cancel_left]; exact hg) h1
        fun y hy => ih j hj (by omega) (h2 y hy)

/-! ## State of the pass -/

/-- what is known about a transformed node -/
def Good (Repr : V → V → Prop) (h : Heap Op) (val : ℕ → V) (lv : ℕ → ℕ) (a : ℕ) (r : Option ℕ) : Prop :=
  ∀ t, r = some t → t < h.length ∧ lv t ≤ lv a ∧ Repr (val t) (val a)

structure OK (arity : Op → ℕ) (den : Op → List V → V) (Repr : V → V → Prop) (h0 : Heap Op) (s : TSt Op) (val : ℕ → V)
    (lv : ℕ → ℕ) : Prop where
  inv : TInv arity den h0.length s.heap val lv
  memo : ∀ a r, (a, r) ∈ s.memo → a < h0.length ∧ Good Repr s.heap val lv a r
  fresh : ∀ n < h0.length, (∀ r, (n, r) ∉ s.memo) → s.heap[n]? = h0[n]?

def TLogOK (s : TSt Op) : Prop := s.log.Nodup ∧ ∀ k ∈ s.log, ∃ r, (k, r) ∈ s.memo

/-- a result without removed operations: the transformed node, or the node itself when it is kept -/
def CleanRes (c : Op → Bool) (h : Heap Op) (a : ℕ) : Option ℕ → Prop
  | none => Clean c h a
  | some t => Clean c h t

def CleanPre (c : Op → Bool) (s : TSt Op) (lv : ℕ → ℕ) (b : ℕ) : Prop :=
  ∀ a r, (a, r) ∈ s.memo → (r = none → lv a < b) → CleanRes c s.heap a r

structure TPost (arity : Op → ℕ) (den : Op → List V → V) (Repr : V → V → Prop) (M : Methods Op) (h0 : Heap Op) (s s' : TSt Op)
    (val : ℕ → V) (lv : ℕ → ℕ) (val' : ℕ → V) (lv' : ℕ → ℕ) (bf b : ℕ) : Prop where
  ok : OK arity den Repr h0 s' val' lv'
  agree : ∀ k < s.heap.length, val' k = val k ∧ lv' k = lv k
  len : s.heap.length ≤ s'.heap.length
  ops : ∀ k < s.heap.length, (s'.heap[k]?).map Node.op = (s.heap[k]?).map Node.op
  frame : ∀ k < s.heap.length, bf ≤ lv k → s'.heap[k]? = s.heap[k]?
  sub : ∀ x ∈ s.memo, x ∈ s'.memo
  keys : ∀ a r, (a, r) ∈ s'.memo → (a, r) ∈ s.memo ∨ lv a < b
  log : TLogOK s → TLogOK s'
  clean : ∀ c, Removes arity c M → CleanPre c s lv b →
    (∀ x, Clean c s.heap x → Clean c s'.heap x) ∧ ∀ a r, (a, r) ∈ s'.memo → (a, r) ∈ s.memo ∨ CleanRes c s'.heap a r

theorem CleanRes.mono {c : Op → Bool} {h h' : Heap Op} (hh : ∀ x, Clean c h x → Clean c h' x) {a : ℕ} {r : Option ℕ}
    (hr : CleanRes c h a r) : CleanRes c h' a r := by
  cases r <;> exact hh _ hr

variable {h0 : Heap Op}

theorem TPost.refl {s : TSt Op} {val : ℕ → V} {lv : ℕ → ℕ} (ok : OK arity den Repr h0 s val lv) (bf b : ℕ) :
    TPost arity den Repr M h0 s s val lv val lv bf b :=
  ⟨ok, fun _ _ => ⟨rfl, rfl⟩, le_rfl, fun _ _ => rfl, fun _ _ _ => rfl, fun _ h => h, fun _ _ h => Or.inl h, id,
    fun _ _ _ => ⟨fun _ h => h, fun _ _ h => Or.inl h⟩⟩

theorem TPost.weaken {s s' : TSt Op} {val val' : ℕ → V} {lv lv' : ℕ → ℕ} {bf bf' b b' : ℕ}
    (P : TPost arity den Repr M h0 s s' val lv val' lv' bf b) (hbf : bf ≤ bf') (hb : b ≤ b') :
    TPost arity den Repr M h0 s s' val lv val' lv' bf' b' :=
  ⟨P.ok, P.agree, P.len, P.ops, fun k hk h => P.frame k hk (hbf.trans h), P.sub, fun a r h => (P.keys a r h).imp id (fun h => h.trans_le hb),
    P.log, fun c hc hp => P.clean c hc fun a r h hn => hp a r h fun h' => (hn h').trans_le hb⟩

theorem TPost.cleanPre {s s' : TSt Op} {val val' : ℕ → V} {lv lv' : ℕ → ℕ} {bf b : ℕ} (ok : OK arity den Repr h0 s val lv)
    (P : TPost arity den Repr M h0 s s' val lv val' lv' bf b) {c : Op → Bool} (hc : Removes arity c M) (hp : CleanPre c s lv b) :
    CleanPre c s' lv' b := by
  intro a r h hn
  obtain ⟨c1, c2⟩ := P.clean c hc hp
  rcases c2 a r h with h' | h'
  · refine (hp a r h' fun hr => ?_).mono c1
    have := (ok.memo a r h').1
    rw [← (P.agree a (this.trans_le ok.inv.len)).2]
    exact hn hr
  · exact h'

theorem TPost.trans {s s1 s2 : TSt Op} {val val1 val2 : ℕ → V} {lv lv1 lv2 : ℕ → ℕ} {bf b : ℕ} (ok : OK arity den Repr h0 s val lv)
    (P : TPost arity den Repr M h0 s s1 val lv val1 lv1 bf b) (Q : TPost arity den Repr M h0 s1 s2 val1 lv1 val2 lv2 bf b) :
    TPost arity den Repr M h0 s s2 val lv val2 lv2 bf b := by
  refine ⟨Q.ok, fun k hk => ?_, P.len.trans Q.len, fun k hk => (Q.ops k (hk.trans_le P.len)).trans (P.ops k hk), fun k hk h => ?_, fun x hx => Q.sub x (P.sub x hx), fun a r h => ?_,
    fun h => Q.log (P.log h), fun c hc hp => ⟨fun x hx => ?_, fun a r h => ?_⟩⟩
  · have h1 := P.agree k hk
    have h2 := Q.agree k (hk.trans_le P.len)
    exact ⟨h2.1.trans h1.1, h2.2.trans h1.2⟩
  · rw [Q.frame k (hk.trans_le P.len) (by rw [(P.agree k hk).2]; exact h), P.frame k hk h]
  · rcases Q.keys a r h with h' | h'
    · exact P.keys a r h'
    · have := (Q.ok.memo a r h).1
      rw [(P.agree a (this.trans_le ok.inv.len)).2] at h'
      exact Or.inr h'
  · exact (Q.clean c hc (P.cleanPre ok hc hp)).1 x ((P.clean c hc hp).1 x hx)
  · obtain ⟨c1, c2⟩ := Q.clean c hc (P.cleanPre ok hc hp)
    rcases c2 a r h with h' | h'
    · exact ((P.clean c hc hp).2 a r h').imp id fun h => h.mono c1
    · exact Or.inr h'

theorem Good.mono {s s' : TSt Op} {val val' : ℕ → V} {lv lv' : ℕ → ℕ} {bf b : ℕ}
    (P : TPost arity den Repr M h0 s s' val lv val' lv' bf b) {a : ℕ} {r : Option ℕ} (ha : a < s.heap.length)
    (hg : Good Repr s.heap val lv a r) : Good Repr s'.heap val' lv' a r := by
  intro t ht
  obtain ⟨h1, h2, h3⟩ := hg t ht
  have a1 := P.agree a ha
  have a2 := P.agree t h1
  exact ⟨h1.trans_le P.len, by rw [a1.2, a2.2]; exact h2, by rw [a1.1, a2.1]; exact h3⟩

structure TDone (arity : Op → ℕ) (den : Op → List V → V) (Repr : V → V → Prop) (M : Methods Op) (h0 : Heap Op) (s s' : TSt Op)
    (val : ℕ → V) (lv : ℕ → ℕ) (n : ℕ) (r : Option ℕ) (val' : ℕ → V) (lv' : ℕ → ℕ) : Prop where
  post : TPost arity den Repr M h0 s s' val lv val' lv' (lv n + 1) (lv n + 1)
  good : Good Repr s'.heap val' lv' n r
  mem : (n, r) ∈ s'.memo
  clean : ∀ c, Removes arity c M → CleanPre c s lv (lv n + 1) → CleanRes c s'.heap n r

/-- what the recursive calls are known to do -/
def Rec (arity : Op → ℕ) (den : Op → List V → V) (Repr : V → V → Prop) (M : Methods Op) (h0 : Heap Op)
    (f : TSt Op → ℕ → Option (TSt Op × Option ℕ)) (K : ℕ) : Prop :=
  ∀ s val lv m, OK arity den Repr h0 s val lv → m < h0.length → lv m < K →
    ∃ s' r, f s m = some (s', r) ∧ ∃ val' lv', TDone arity den Repr M h0 s s' val lv m r val' lv'

theorem mapInputs_done {f : TSt Op → ℕ → Option (TSt Op × Option ℕ)} {K : ℕ} (hf : Rec arity den Repr M h0 f K) :
    ∀ (ops : List ℕ) (s : TSt Op) (val : ℕ → V) (lv : ℕ → ℕ) (b : ℕ), OK arity den Repr h0 s val lv → b ≤ K →
      (∀ m ∈ ops, m < h0.length ∧ lv m < b) →
      ∃ s' ts, mapInputs f ops s = some (s', ts) ∧ ∃ val' lv', TPost arity den Repr M h0 s s' val lv val' lv' b b ∧
        ts.length = ops.length ∧
        (∀ (i m : ℕ) (r : Option ℕ), ops[i]? = some m → ts[i]? = some r → Good Repr s'.heap val' lv' m r) ∧
        ∀ c, Removes arity c M → CleanPre c s lv b →
          ∀ (i m : ℕ) (r : Option ℕ), ops[i]? = some m → ts[i]? = some r → CleanRes c s'.heap m r := by
  intro ops
  induction ops with
  | nil =>
    intro s val lv b ok _ _
    exact ⟨s, [], rfl, val, lv, .refl ok b b, rfl, fun i m r h => by simp at h, fun _ _ _ i m r h => by simp at h⟩
  | cons o ops ih =>
    intro s val lv b ok hb ho
    obtain ⟨ho1, ho2⟩ := ho o List.mem_cons_self
    obtain ⟨s1, r1, e1, val1, lv1, D⟩ := hf s val lv o ok ho1 (by omega)
    have P1 := D.post.weaken (bf' := b) (b' := b) (by omega) (by omega)
    have hlen := ok.inv.len
    obtain ⟨s2, ts, e2, val2, lv2, P2, hl, hg, hcl⟩ := ih s1 val1 lv1 b P1.ok hb (by
      intro m hm
      obtain ⟨h1, h2⟩ := ho m (List.mem_cons_of_mem _ hm)
      exact ⟨h1, by rw [(P1.agree m (h1.trans_le hlen)).2]; exact h2⟩)
    refine ⟨s2, r1 :: ts, by rw [mapInputs, e1]; simp only; rw [e2], val2, lv2, P1.trans ok P2, by simp [hl], ?_, ?_⟩
    · intro i m r hi hr
      rcases i with _ | i
      · simp only [List.getElem?_cons_zero, Option.some.injEq] at hi hr
        subst hi hr
        exact D.good.mono P2 (ho1.trans_le P1.ok.inv.len)
      · simp only [List.getElem?_cons_succ] at hi hr
        exact hg i m r hi hr
    · intro c hc hp i m r hi hr
      rcases i with _ | i
      · simp only [List.getElem?_cons_zero, Option.some.injEq] at hi hr
        subst hi hr
        exact (D.clean c hc fun a r h hn => hp a r h fun h' => (hn h').trans_le (by omega)).mono
          (P2.clean c hc (P1.cleanPre ok hc hp)).1
      · simp only [List.getElem?_cons_succ] at hi hr
        exact hcl c hc (P1.cleanPre ok hc hp) i m r hi hr

/-- the effect of appending the nodes of `reconstruct` or `transform` -/
theorem TPost.append [Inhabited V] {s : TSt Op} {val : ℕ → V} {lv : ℕ → ℕ} (ok : OK arity den Repr h0 s val lv) {Ok : ℕ → Prop}
    {news : List (Node Op)} {L : ℕ} (hnew : NewNodes arity s.heap.length Ok news) (hOk : ∀ x, Ok x → x < s.heap.length ∧ lv x ≤ L)
    (bf b : ℕ) : ∃ val' lv', TPost arity den Repr M h0 s { s with heap := s.heap ++ news } val lv val' lv' bf b ∧
      ∀ k, Scope Ok s.heap.length news.length k → k < (s.heap ++ news).length ∧ lv' k ≤ L := by
  obtain ⟨val', lv', hI, ag, hL⟩ := ok.inv.append hnew hOk
  have hlen : (s.heap ++ news).length = s.heap.length + news.length := List.length_append
  have h0l := ok.inv.len
  refine ⟨val', lv', ⟨⟨hI, fun a r h => ?_, fun n hn hf => ?_⟩, ag, by show _ ≤ (s.heap ++ news).length; omega,
    fun k hk => by show ((s.heap ++ news)[k]?).map Node.op = _; rw [List.getElem?_append_left hk], fun k hk _ => ?_,
    fun _ h => h, fun _ _ h => Or.inl h, id, fun c hc hp => ⟨fun x hx => hx.append, fun a r h => Or.inl h⟩⟩, fun k hk => ?_⟩
  · obtain ⟨h1, h2⟩ := ok.memo a r h
    refine ⟨h1, fun t ht => ?_⟩
    obtain ⟨g1, g2, g3⟩ := h2 t ht
    have a1 := ag a (h1.trans_le h0l)
    have a2 := ag t g1
    exact ⟨by show _ < (s.heap ++ news).length; omega, by rw [a1.2, a2.2]; exact g2, by rw [a1.1, a2.1]; exact g3⟩
  · show (s.heap ++ news)[n]? = _
    rw [List.getElem?_append_left (by omega)]
    exact ok.fresh n hn hf
  · show (s.heap ++ news)[k]? = _
    exact List.getElem?_append_left hk
  · rcases hk with h | ⟨j, hj, rfl⟩
    · obtain ⟨h1, h2⟩ := hOk k h
      exact ⟨by omega, by rw [(ag k h1).2]; exact h2⟩
    · exact ⟨by omega, (hL _ (Nat.le_add_right _ _)).le⟩

theorem TPost.set {s : TSt Op} {val : ℕ → V} {lv : ℕ → ℕ} (ok : OK arity den Repr h0 s val lv) {n idx m x : ℕ} {nd : Node Op}
    (hmemo : ∃ r, (n, r) ∈ s.memo) (hn : s.heap[n]? = some nd) (hm : nd.ins[idx]? = some m) (hx : x < s.heap.length)
    (hv : val x = val m) (hl : lv x < lv n) (b : ℕ) (hcl : ∀ c, Removes arity c M → CleanPre c s lv b → Clean c s.heap x) :
    TPost arity den Repr M h0 s { s with heap := setInput s.heap n idx x } val lv val lv (lv n + 1) b := by
  refine ⟨⟨ok.inv.set hn hm hx hv hl, fun a r h => ?_, fun k hk hf => ?_⟩, fun _ _ => ⟨rfl, rfl⟩,
    by show _ ≤ (setInput s.heap n idx x).length; rw [setInput_length], fun k hk => ?_, fun k hk hb => ?_, fun _ h => h, fun _ _ h => Or.inl h, id,
    fun c hc hp => ⟨fun y hy => .set ok.inv idx (hcl c hc hp) hl hy, fun a r h => Or.inl h⟩⟩
  · obtain ⟨h1, h2⟩ := ok.memo a r h
    refine ⟨h1, fun t ht => ?_⟩
    have := h2 t ht
    exact ⟨by show _ < (setInput s.heap n idx x).length; rw [setInput_length]; exact this.1, this.2⟩
  · have hkn : k ≠ n := by rintro rfl; obtain ⟨r, hr⟩ := hmemo; exact hf r hr
    show (setInput s.heap n idx x)[k]? = _
    rw [setInput_ne _ _ hkn]
    exact ok.fresh k hk hf
  · show ((setInput s.heap n idx x)[k]?).map Node.op = _
    rcases eq_or_ne k n with rfl | hkn
    · rw [setInput_self hn, hn]; rfl
    · rw [setInput_ne _ _ hkn]
  · have hkn : k ≠ n := by rintro rfl; omega
    exact setInput_ne _ _ hkn

theorem keepInputs_done [Inhabited V] (hS : MSound arity den Repr M) {f : TSt Op → ℕ → Option (TSt Op × Option ℕ)} {K : ℕ}
    (hf : Rec arity den Repr M h0 f K) {n : ℕ} {op : Op} (hn0 : n < h0.length) :
    ∀ (ops dn : List ℕ) (Q : (Op → Bool) → Prop) (s : TSt Op) (val : ℕ → V) (lv : ℕ → ℕ), OK arity den Repr h0 s val lv →
      s.heap[n]? = some ⟨op, dn ++ ops⟩ → (∃ r, (n, r) ∈ s.memo) → lv n ≤ K → (∀ m ∈ ops, m < h0.length) →
      (∀ c, Q c → ∀ m ∈ dn, Clean c s.heap m) →
      ∃ s', keepInputs M f n dn.length ops s = some s' ∧ ∃ val' lv',
        TPost arity den Repr M h0 s s' val lv val' lv' (lv n + 1) (lv n) ∧
        ∃ ins', s'.heap[n]? = some ⟨op, ins'⟩ ∧
          ∀ c, Q c → Removes arity c M → CleanPre c s lv (lv n) → ∀ m ∈ ins', Clean c s'.heap m := by
  intro ops
  induction ops with
  | nil =>
    intro dn Q s val lv ok hn _ _ _ hd
    exact ⟨s, rfl, val, lv, .refl ok _ _, dn, by simpa using hn, fun c hQ _ _ => hd c hQ⟩
  | cons o ops ih =>
    intro dn Q s val lv ok hn hmem hK ho hd
    have hlen := ok.inv.len
    have ho1 := ho o List.mem_cons_self
    have ho2 : lv o < lv n := (ok.inv.nodes n _ hn).2.2.2 hn0 o (by simp)
    obtain ⟨s1, r1, e1, val1, lv1, D⟩ := hf s val lv o ok ho1 (by omega)
    have P1 := D.post.weaken (bf' := lv n) (b' := lv n) (by omega) (by omega)
    have P1' := P1.weaken (bf' := lv n + 1) (b' := lv n) (by omega) le_rfl
    have an := P1.agree n (by omega)
    have ao := P1.agree o (by omega)
    have hn1 : s1.heap[n]? = some ⟨op, dn ++ o :: ops⟩ := by rw [P1.frame n (by omega) le_rfl]; exact hn
    have hmem1 : ∃ r, (n, r) ∈ s1.memo := by obtain ⟨r, hr⟩ := hmem; exact ⟨r, P1.sub _ hr⟩
    have hcr : ∀ c, Removes arity c M → CleanPre c s lv (lv n) → CleanRes c s1.heap o r1 := fun c hc hp =>
      D.clean c hc fun a r h hn => hp a r h fun h' => (hn h').trans_le (by omega)
    have hlen1 := P1.ok.inv.len
    -- the state after the input is dealt with
    obtain ⟨s2, m, val2, lv2, he, P2, hn2, hcm⟩ : ∃ s2 m val2 lv2,
        keepInputs M f n dn.length (o :: ops) s = keepInputs M f n (dn.length + 1) ops s2 ∧
        TPost arity den Repr M h0 s1 s2 val1 lv1 val2 lv2 (lv n + 1) (lv n) ∧ s2.heap[n]? = some ⟨op, (dn ++ [m]) ++ ops⟩ ∧
        ∀ c, Removes arity c M → CleanPre c s lv (lv n) → Clean c s2.heap m := by
      cases hr1 : r1 with
      | none =>
        refine ⟨s1, o, val1, lv1, ?_, .refl P1.ok _ _, by simpa using hn1, fun c hc hp => ?_⟩
        · rw [keepInputs, e1, hr1]
        · have := hcr c hc hp
          rw [hr1] at this
          exact this
      | some t =>
        obtain ⟨t1, t2, t3⟩ := D.good t hr1
        have hrep : Represents den Repr s1.heap t o := ⟨_, _, P1.ok.inv.eval t1, P1.ok.inv.eval (by omega), t3⟩
        obtain ⟨g1, g2, g3⟩ := hS.reconstruct s1.heap o t P1.ok.inv.wf (by omega) hrep
        obtain ⟨val2, lv2, P2, hs2⟩ := TPost.append (M := M) P1.ok g1 (L := lv n - 1) (by
          intro x hx
          rcases hx with hx | hx
          · have := P1.ok.inv.below (by omega) hx
            exact ⟨this.1, by omega⟩
          · have := P1.ok.inv.below t1 hx
            exact ⟨this.1, by omega⟩) (lv n + 1) (lv n)
        set news := (M.reconstruct s1.heap o t).1 with hnews
        set r := (M.reconstruct s1.heap o t).2 with hr
        obtain ⟨k1, k2⟩ := hs2 _ g2
        have an2 := P2.agree n (by omega)
        have ao2 := P2.agree o (by omega)
        have hvr : val2 r = val2 o := by
          have h1 := g3 _ (P2.ok.inv.eval (n := o) (by show o < (s1.heap ++ news).length; simp; omega))
          exact (P2.ok.inv.eval k1).unique h1
        have hnn : (s1.heap ++ news)[n]? = some ⟨op, dn ++ o :: ops⟩ := by
          rw [List.getElem?_append_left (by omega)]; exact hn1
        have hnew : ∀ c, Removes arity c M → Clean c (s1.heap ++ news) t → Clean c (s1.heap ++ news) r := by
          intro c hc ht
          obtain ⟨q1, q2⟩ := hc.reconstruct s1.heap o t
          refine Clean.new (Ok := fun x => x = t) ?_ q2 le_rfl q1
          rintro x rfl
          exact ht
        have hx : lv2 n = lv n := an2.2.trans an.2
        have P3 := TPost.set (M := M) P2.ok (n := n) (idx := dn.length) (m := o) (x := r) hmem1 hnn (by simp) k1 hvr
            (by omega) (lv n) (by
              intro c hc hp
              have hm := D.mem
              rw [hr1] at hm
              exact hnew c hc (hp o (some t) hm (fun h => by cases h)))
        rw [hx] at P3
        refine ⟨_, r, val2, lv2, ?_, P2.trans P1.ok P3, ?_, fun c hc hp => ?_⟩
        · rw [keepInputs, e1, hr1]
        · have := setInput_self hnn dn.length r
          simpa using this
        · have h1 := P2.cleanPre P1.ok hc (P1.cleanPre ok hc hp)
          have ht := hcr c hc hp
          rw [hr1] at ht
          exact (P3.clean c hc h1).1 r (hnew c hc (Clean.append ht))
    have P := P1'.trans ok P2
    have an2 := P.agree n (by omega)
    obtain ⟨s3, e3, val3, lv3, P3, ins', hn3, hc3⟩ := ih (dn ++ [m]) (fun c => Q c ∧ Removes arity c M ∧ CleanPre c s lv (lv n)) s2 val2 lv2
      P.ok hn2 (by obtain ⟨r, hr⟩ := hmem1; exact ⟨r, P2.sub _ hr⟩) (by omega) (fun m hm => ho m (List.mem_cons_of_mem _ hm)) (by
        rintro c ⟨hQ, hc, hp⟩ x hx
        rcases List.mem_append.1 hx with h | h
        · exact (P.clean c hc hp).1 x (hd c hQ x h)
        · rw [List.mem_singleton.1 h]; exact hcm c hc hp)
    rw [an2.2] at P3 hc3
    refine ⟨s3, ?_, val3, lv3, P.trans ok P3, ins', hn3, fun c hQ hc hp => hc3 c ⟨hQ, hc, hp⟩ hc (P.cleanPre ok hc hp)⟩
    rw [he]
    simpa using e3

theorem transformGraph_done [Inhabited V] (hS : MSound arity den Repr M) (hwf : WF arity h0) :
    ∀ fuel, Rec arity den Repr M h0 (transformGraph M fuel false) fuel := by
  intro fuel
  induction fuel with
  | zero => intro s val lv n _ _ h; omega
  | succ fuel ih =>
    intro s val lv n ok hn hfu
    have hlen := ok.inv.len
    have hnl : n < s.heap.length := by omega
    have hg : s.heap[n]? = some s.heap[n] := List.getElem?_eq_getElem hnl
    rw [transformGraph]
    cases hlk : s.memo.lookup n with
    | some r =>
      have hm := lookup_mem hlk
      exact ⟨s, r, rfl, val, lv, .refl ok _ _, (ok.memo n r hm).2, hm, fun c hc hp => hp n r hm fun _ => Nat.lt_succ_self _⟩
    | none =>
      have hno := lookup_none hlk
      have hg0 : h0[n]? = some s.heap[n] := by rw [← ok.fresh n hn hno]; exact hg
      have hin : ∀ m ∈ s.heap[n].ins, m < h0.length := by
        obtain ⟨rank, hr⟩ := hwf
        exact fun m hm => ((hr n _ hg0).2 m hm).1
      have hlv : ∀ m ∈ s.heap[n].ins, lv m < lv n := (ok.inv.nodes n _ hg).2.2.2 hn
      simp only [hg]
      cases hcan : M.can s.heap n with
      | true =>
        simp only [if_true]
        obtain ⟨s1, ts, e1, val1, lv1, P1, hl, hgd, hcl⟩ := mapInputs_done ih s.heap[n].ins s val lv (lv n) ok (by omega)
          (fun m hm => ⟨hin m hm, hlv m hm⟩)
        have hg1 : s1.heap[n]? = some s.heap[n] := by rw [P1.frame n hnl le_rfl]; exact hg
        have hl1 := P1.len
        have ht0 : ∀ t, some t ∈ ts → t < s1.heap.length ∧ lv1 t ≤ lv n := by
          intro t ht
          obtain ⟨i, hi⟩ := List.mem_iff_getElem?.1 ht
          have hil : i < s.heap[n].ins.length := by rw [← hl]; exact (List.getElem?_eq_some_iff.1 hi).1
          have := hgd i _ _ (List.getElem?_eq_getElem hil) hi t rfl
          have hm := List.getElem_mem hil
          have h2 := hlv _ hm
          have h3 := (P1.agree _ ((hin _ hm).trans_le hlen)).2
          exact ⟨this.1, by omega⟩
        obtain ⟨g1, g2⟩ := hS.transform s1.heap n _ ts P1.ok.inv.wf hg1 ⟨s.heap, hg, hcan⟩ hl (by
          intro i m t hi ht
          obtain ⟨q1, q2, q3⟩ := hgd i m _ hi ht t rfl
          exact ⟨_, _, P1.ok.inv.eval q1, P1.ok.inv.eval ((hin m (List.mem_of_getElem? hi)).trans_le P1.ok.inv.len), q3⟩)
        have an := P1.agree n hnl
        obtain ⟨val2, lv2, P2, hsc⟩ := TPost.append (M := M) P1.ok g1 (L := lv n) (by
          rintro x (hx | ⟨t, ht, hx⟩)
          · have := P1.ok.inv.below (by omega) hx
            exact ⟨this.1, by omega⟩
          · have h1 := ht0 t ht
            have := P1.ok.inv.below h1.1 hx
            exact ⟨this.1, by omega⟩) (lv n) (lv n)
        set news := (M.transform s1.heap n ts).1 with hnews
        set r := (M.transform s1.heap n ts).2 with hr
        have P := P1.trans ok P2
        have an2 := P.agree n hnl
        have hgood : Good Repr (s1.heap ++ news) val2 lv2 n r := by
          intro t ht
          obtain ⟨q1, w, v, q2, q3, q4⟩ := g2 t ht
          obtain ⟨k1, k2⟩ := hsc t q1
          refine ⟨k1, by omega, ?_⟩
          rw [(P2.ok.inv.eval k1).unique q2, (P2.ok.inv.eval (n := n) (by show n < (s1.heap ++ news).length; simp; omega)).unique q3]
          exact q4
        have hcn : ∀ c, Removes arity c M → CleanPre c s lv (lv n) → CleanRes c (s1.heap ++ news) n r := by
          intro c hc hp
          have hop : c s.heap[n].op = true := by rw [← hc.can _ _ _ hg]; exact hcan
          obtain ⟨⟨x, hx1, hx2⟩, q⟩ := hc.transform s1.heap n _ ts hg1 hop (ok.inv.nodes n _ hg).1 hl
          rw [hr, hx1]
          refine Clean.new ?_ q le_rfl hx2
          rintro y (hy | ⟨i, hi, hiy⟩)
          · obtain ⟨i, hi⟩ := List.mem_iff_getElem?.1 hy
            have hil : i < s.heap[n].ins.length := by rw [← hl]; exact (List.getElem?_eq_some_iff.1 hi).1
            exact Clean.append (hcl c hc hp i _ _ (List.getElem?_eq_getElem hil) hi)
          · exact Clean.append (hcl c hc hp i _ _ hiy hi)
        rw [e1]
        refine ⟨_, _, rfl, val2, lv2, ⟨⟨P.ok.inv, ?_, ?_⟩, P.agree, P.len, P.ops, fun k hk hb => P.frame k hk (by omega),
          fun x hx => List.mem_cons_of_mem _ (P.sub x hx), ?_, ?_, ?_⟩, hgood, List.mem_cons_self, ?_⟩
        · intro a q h
          rcases List.mem_cons.1 h with h | h
          · obtain ⟨rfl, rfl⟩ := Prod.mk.inj h
            exact ⟨hn, hgood⟩
          · exact P.ok.memo a q h
        · intro k hk hf
          exact P.ok.fresh k hk fun q h => hf q (List.mem_cons_of_mem _ h)
        · intro a q h
          rcases List.mem_cons.1 h with h | h
          · obtain ⟨rfl, rfl⟩ := Prod.mk.inj h
            exact Or.inr (Nat.lt_succ_self _)
          · exact (P.keys a q h).imp id (by omega)
        · intro hlog
          obtain ⟨l1, l2⟩ := P1.log hlog
          refine ⟨?_, ?_⟩
          · show (s1.log ++ [n]).Nodup
            rw [List.nodup_append]
            refine ⟨l1, by simp, ?_⟩
            intro a ha b hb
            rw [List.mem_singleton.1 hb]
            rintro rfl
            obtain ⟨q, hq⟩ := l2 a ha
            rcases P1.keys a q hq with h | h
            · exact hno q h
            · omega
          · intro k hk
            rcases List.mem_append.1 hk with h | h
            · obtain ⟨q, hq⟩ := l2 k h
              exact ⟨q, List.mem_cons_of_mem _ hq⟩
            · rw [List.mem_singleton.1 h]
              exact ⟨r, List.mem_cons_self⟩
        · intro c hc hp
          have hp' : CleanPre c s lv (lv n) := fun a q h hq => hp a q h fun h' => by have := hq h'; omega
          refine ⟨(P.clean c hc hp').1, fun a q h => ?_⟩
          rcases List.mem_cons.1 h with h | h
          · obtain ⟨rfl, rfl⟩ := Prod.mk.inj h
            exact Or.inr (hcn c hc hp')
          · exact (P.clean c hc hp').2 a q h
        · intro c hc hp
          exact hcn c hc fun a q h hq => hp a q h fun h' => by have := hq h'; omega
      | false =>
        simp only [Bool.false_eq_true, if_false]
        set s0 : TSt Op := { s with memo := (n, none) :: s.memo } with hs0
        have ok0 : OK arity den Repr h0 s0 val lv := by
          refine ⟨ok.inv, fun a q h => ?_, fun k hk hf => ok.fresh k hk fun q h => hf q (List.mem_cons_of_mem _ h)⟩
          rcases List.mem_cons.1 h with h | h
          · obtain ⟨rfl, rfl⟩ := Prod.mk.inj h
            exact ⟨hn, fun t ht => by cases ht⟩
          · exact ok.memo a q h
        obtain ⟨s1, e1, val1, lv1, P, ins', hn1, hc1⟩ := keepInputs_done hS ih (op := s.heap[n].op) hn s.heap[n].ins [] (fun _ => True) s0 val lv
          ok0 hg ⟨none, List.mem_cons_self⟩ (by omega) hin (by simp)
        simp only [List.length_nil] at e1
        rw [e1]
        have hpre : ∀ c, CleanPre c s lv (lv n + 1) → CleanPre c s0 lv (lv n) := by
          intro c hp a q h hq
          rcases List.mem_cons.1 h with h | h
          · obtain ⟨rfl, rfl⟩ := Prod.mk.inj h
            have := hq rfl; omega
          · exact hp a q h fun h' => by have := hq h'; omega
        have hcn : ∀ c, Removes arity c M → CleanPre c s lv (lv n + 1) → Clean c s1.heap n := fun c hc hp =>
          .mk n _ hn1 (by show c s.heap[n].op = false; rw [← hc.can _ _ _ hg]; exact hcan) (hc1 c trivial hc (hpre c hp))
        refine ⟨s1, none, rfl, val1, lv1, ⟨P.ok, P.agree, P.len, P.ops, P.frame, fun x hx => P.sub x (List.mem_cons_of_mem _ hx), ?_, ?_, ?_⟩,
          (fun t ht => nomatch ht), P.sub _ List.mem_cons_self, hcn⟩
        · intro a q h
          rcases P.keys a q h with h | h
          · rcases List.mem_cons.1 h with h | h
            · obtain ⟨rfl, rfl⟩ := Prod.mk.inj h
              exact Or.inr (Nat.lt_succ_self _)
            · exact Or.inl h
          · exact Or.inr (by omega)
        · intro hl
          exact P.log ⟨hl.1, fun k hk => by obtain ⟨q, hq⟩ := hl.2 k hk; exact ⟨q, List.mem_cons_of_mem _ hq⟩⟩
        · intro c hc hp
          obtain ⟨c1, c2⟩ := P.clean c hc (hpre c hp)
          refine ⟨c1, fun a q h => ?_⟩
          rcases c2 a q h with h | h
          · rcases List.mem_cons.1 h with h | h
            · obtain ⟨rfl, rfl⟩ := Prod.mk.inj h
              exact Or.inr (hcn c hc hp)
            · exact Or.inl h
          · exact Or.inr h

end

/-! ## Fuel and the first call -/

theorem mapInputs_mono {f g : TSt Op → ℕ → Option (TSt Op × Option ℕ)} (h : ∀ s n r, f s n = some r → g s n = some r) :
    ∀ (ops : List ℕ) (s : TSt Op) (r : TSt Op × List (Option ℕ)), mapInputs f ops s = some r → mapInputs g ops s = some r := by
  intro ops
  induction ops with
  | nil => intro s r hs; exact hs
  | cons o ops ih =>
    intro s r hs
    rw [mapInputs] at hs ⊢
    cases hf : f s o with
    | none => rw [hf] at hs; cases hs
    | some q =>
      rw [hf] at hs
      rw [h _ _ _ hf]
      simp only at hs ⊢
      cases hm : mapInputs f ops q.1 with
      | none => rw [hm] at hs; cases hs
      | some z => rw [hm] at hs; rw [ih _ _ hm]; exact hs

theorem keepInputs_mono {M : Methods Op} {f g : TSt Op → ℕ → Option (TSt Op × Option ℕ)}
    (h : ∀ s n r, f s n = some r → g s n = some r) (n : ℕ) :
    ∀ (ops : List ℕ) (idx : ℕ) (s s' : TSt Op), keepInputs M f n idx ops s = some s' → keepInputs M g n idx ops s = some s' := by
  intro ops
  induction ops with
  | nil => intro idx s s' hs; exact hs
  | cons o ops ih =>
    intro idx s s' hs
    rw [keepInputs] at hs ⊢
    cases hf : f s o with
    | none => rw [hf] at hs; cases hs
    | some q =>
      obtain ⟨s1, t⟩ := q
      rw [hf] at hs
      rw [h _ _ _ hf]
      cases t <;> exact ih _ _ _ hs

theorem transformGraph_mono1 (M : Methods Op) : ∀ (fuel : ℕ) (root : Bool) (s : TSt Op) (n : ℕ) (r : TSt Op × Option ℕ),
    transformGraph M fuel root s n = some r → transformGraph M (fuel + 1) root s n = some r := by
  intro fuel
  induction fuel with
  | zero => intro root s n r h; cases h
  | succ fuel ih =>
    intro root s n r h
    rw [transformGraph] at h ⊢
    cases hlk : s.memo.lookup n with
    | some m => rw [hlk] at h; exact h
    | none =>
      rw [hlk] at h
      cases hg : s.heap[n]? with
      | none => rw [hg] at h; cases h
      | some nd =>
        rw [hg] at h
        simp only at h ⊢
        by_cases hc : M.can s.heap n = true
        · rw [if_pos hc] at h ⊢
          cases hm : mapInputs (transformGraph M fuel false) nd.ins s with
          | none => rw [hm] at h; cases h
          | some q => rw [hm] at h; rw [mapInputs_mono (ih false) _ _ _ hm]; exact h
        · rw [if_neg hc] at h ⊢
          cases hm : keepInputs M (transformGraph M fuel false) n 0 nd.ins { s with memo := (n, none) :: s.memo } with
          | none => rw [hm] at h; cases h
          | some q => rw [hm] at h; rw [keepInputs_mono (ih false) n _ _ _ _ hm]; exact h

theorem transformGraph_mono {M : Methods Op} {fuel fuel' : ℕ} (hle : fuel ≤ fuel') {root : Bool} {s : TSt Op} {n : ℕ}
    {r : TSt Op × Option ℕ} (h : transformGraph M fuel root s n = some r) : transformGraph M fuel' root s n = some r := by
  induction hle with
  | refl => exact h
  | step _ ih => exact transformGraph_mono1 _ _ _ _ _ _ ih

theorem execute_root (M : Methods Op) (fuel : ℕ) (h : Heap Op) (n : ℕ) :
    executeOnOptree M fuel h n = (execute M fuel h n).map (fun q => (q.1, if M.can h n then q.2 else some n)) := by
  cases fuel with
  | zero => rfl
  | succ fuel =>
    unfold executeOnOptree execute
    rw [transformGraph, transformGraph]
    simp only [List.lookup_nil]
    cases hg : h[n]? with
    | none => rfl
    | some nd =>
      simp only
      by_cases hc : M.can h n = true
      · rw [if_pos hc, if_pos hc]
        cases hm : mapInputs (transformGraph M fuel false) nd.ins ⟨h, [], []⟩ with
        | none => rfl
        | some q => simp [hc]
      · rw [if_neg hc, if_neg hc]
        cases hm : keepInputs M (transformGraph M fuel false) n 0 nd.ins ⟨h, [(n, none)], []⟩ with
        | none => rfl
        | some q => simp [hc]

/-! ## C59 -/

variable {arity : Op → ℕ} {den : Op → List V → V} {Repr : V → V → Prop} {M : Methods Op}

theorem transform_main [Inhabited V] (hS : MSound arity den Repr M) {h : Heap Op} (hwf : WF arity h) {n : ℕ} (hn : n < h.length) :
    ∃ N s r val lv val' lv', (∀ fuel, N ≤ fuel → execute M fuel h n = some (s, r)) ∧
      TInv arity den h.length h val lv ∧ TDone arity den Repr M h ⟨h, [], []⟩ s val lv n r val' lv' := by
  obtain ⟨val, hv⟩ := exists_attr den default hwf
  obtain ⟨lv, hr⟩ := id hwf
  have hI : TInv arity den h.length h val lv := ⟨le_rfl, fun n nd hg => ⟨(hr n nd hg).1, fun m hm =>
    ⟨((hr n nd hg).2 m hm).1, Or.inl ((hr n nd hg).2 m hm).2⟩, hv n nd hg, fun _ m hm => ((hr n nd hg).2 m hm).2⟩⟩
  obtain ⟨s, r, hs, val', lv', D⟩ := transformGraph_done hS hwf (lv n + 1) ⟨h, [], []⟩ val lv n
    ⟨hI, (fun a r hh => nomatch hh), fun _ _ _ => rfl⟩ hn (Nat.lt_succ_self _)
  exact ⟨lv n + 1, s, r, val, lv, val', lv', fun fuel hf => transformGraph_mono hf hs, hI, D⟩

/-- **C59**, node transformation: for every acyclic graph with any sharing and every pass whose methods are sound, the pass ends, no
node of the graph changes its value although kept nodes are modified in place, no node is transformed twice, a root that cannot be
transformed is returned itself, and a root that is transformed is returned as a node that represents it. -/
theorem C59_transform [Inhabited V] (hS : MSound arity den Repr M) {h : Heap Op} (hwf : WF arity h) {n : ℕ} (hn : n < h.length) :
    ∃ N s r, (∀ fuel, N ≤ fuel → executeOnOptree M fuel h n = some (s, r)) ∧
      (∀ m v, Eval den h m v → Eval den s.heap m v) ∧ s.log.Nodup ∧
      (M.can h n = false → r = some n) ∧ (M.can h n = true → ∀ t, r = some t → Represents den Repr s.heap t n) := by
  obtain ⟨N, s, r, val, lv, val', lv', hs, hI, D⟩ := transform_main hS hwf hn
  refine ⟨N, s, if M.can h n then r else some n, fun fuel hf => by rw [execute_root, hs fuel hf]; rfl, ?_,
    (D.post.log ⟨by simp, by simp⟩).1, fun hc => by simp [hc], fun hc t ht => ?_⟩
  · intro m v hv
    have hm := hv.lt
    rw [hv.unique (hI.eval hm), ← (D.post.agree m hm).1]
    exact D.post.ok.inv.eval (hm.trans_le D.post.len)
  · rw [if_pos hc] at ht
    obtain ⟨h1, h2, h3⟩ := D.good t ht
    exact ⟨_, _, D.post.ok.inv.eval h1, D.post.ok.inv.eval (hn.trans_le D.post.len), h3⟩

/-- **C59**, the entry point `execute` of the concrete passes does not return the graph when its root is not transformed: the result is
`None` for every graph whose root cannot be transformed. -/
theorem C59_execute_none_wrong (M : Methods Op) (fuel : ℕ) (h : Heap Op) (n : ℕ) (hc : M.can h n = false) (s : TSt Op) (r : Option ℕ)
    (he : execute M fuel h n = some (s, r)) : r = none := by
  cases fuel with
  | zero => cases he
  | succ fuel =>
    unfold execute at he
    rw [transformGraph] at he
    simp only [List.lookup_nil] at he
    cases hg : h[n]? with
    | none => rw [hg] at he; cases he
    | some nd =>
      rw [hg] at he
      simp only [hc, Bool.false_eq_true, if_false] at he
      cases hm : keepInputs M (transformGraph M fuel false) n 0 nd.ins ⟨h, [(n, none)], []⟩ with
      | none => rw [hm] at he; cases he
      | some q => rw [hm] at he; simp at he; exact he.2.symm

/-- **C59**, node transformation: a pass that removes a set of operations leaves none of them in the returned graph. -/
theorem C59_transform_complete [Inhabited V] (hS : MSound arity den Repr M) {c : Op → Bool} (hc : Removes arity c M) {h : Heap Op}
    (hwf : WF arity h) {n : ℕ} (hn : n < h.length) :
    ∃ N s t, (∀ fuel, N ≤ fuel → executeOnOptree M fuel h n = some (s, some t)) ∧
      ∀ m nd, Below s.heap t m → s.heap[m]? = some nd → c nd.op = false := by
  obtain ⟨N, s, r, val, lv, val', lv', hs, hI, D⟩ := transform_main hS hwf hn
  have hcl := D.clean c hc (fun a r h => by cases h)
  have key : ∀ t, Clean c s.heap t → ∀ m nd, Below s.heap t m → s.heap[m]? = some nd → c nd.op = false := by
    intro t ht m nd hb hg
    have hm : Clean c s.heap m := by
      clear hg
      induction hb with
      | refl => exact ht
      | step _ hg' hk ih =>
        cases ih with
        | mk _ nd' hg'' _ hcld =>
          rw [hg'] at hg''
          obtain rfl := Option.some.inj hg''
          exact hcld _ hk
    cases hm with
    | mk _ nd' hg' ha _ =>
      rw [hg] at hg'
      obtain rfl := Option.some.inj hg'
      exact ha
  have hg : h[n]? = some h[n] := List.getElem?_eq_getElem hn
  cases hcan : M.can h n with
  | false =>
    refine ⟨N, s, n, fun fuel hf => by rw [execute_root, hs fuel hf, hcan]; rfl, key n ?_⟩
    rw [C59_execute_none_wrong M N h n hcan s r (hs N le_rfl)] at hcl
    exact hcl
  | true =>
    cases r with
    | none =>
      exfalso
      cases hcl with
      | mk _ nd hgn hf _ =>
        have h1 := D.post.ops n hn
        rw [hgn] at h1
        have h2 : nd.op = h[n].op := by
          have : some nd.op = (h[n]?).map Node.op := h1
          rw [hg] at this
          exact Option.some.inj this
        have h3 := hc.can h n _ hg
        rw [hcan, ← h2, hf] at h3
        cases h3
    | some t => exact ⟨N, s, t, fun fuel hf => by rw [execute_root, hs fuel hf, hcan]; rfl, key t hcl⟩

end Verif.Rewrite
