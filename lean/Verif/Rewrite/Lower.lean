import Verif.Rewrite.Model
import Mathlib.Order.Monotone.Basic
import Mathlib.Algebra.BigOperators.Group.List.Basic
import Mathlib.Algebra.Order.BigOperators.Group.List
import Mathlib.Algebra.Order.Monoid.NatCast
import Mathlib.Data.List.Induction
import Mathlib.Data.List.GetD
import Mathlib.Algebra.Order.Ring.Nat

/-! # C59: `LoweringEngine.lower_node` -/

namespace Verif.Rewrite

variable {Op V : Type}

/-! ## Specification of a lowering action -/

/-- value of an operand, given the values of the inputs and of the new nodes built so far -/
def look {α : Type} (d : α) (xs acc : List α) : Ref → α
  | .inp i => xs.getD i d
  | .loc j => acc.getD j d

/-- values of the new nodes, in order -/
def locals {α : Type} (d : α) (G : Op → List α → α) (xs : List α) (prog : List (Op × List Ref)) : List α :=
  prog.foldl (fun acc x => acc ++ [G x.1 (x.2.map (look d xs acc))]) []

/-- an operand that is an input of the lowered node (which has `a` inputs) or one of `k` earlier new nodes -/
def InScope (a k : ℕ) : Ref → Prop
  | .inp i => i < a
  | .loc j => j < k

/-- Every action builds well-formed nodes, and the node it returns has the value of the node it lowers. -/
structure Sound [Inhabited V] (arity : Op → ℕ) (den : Op → List V → V) (act : Op → Option (Recipe Op)) : Prop where
  nodes : ∀ op r, act op = some r → ∀ k op' refs, r.prog[k]? = some (op', refs) →
    refs.length = arity op' ∧ ∀ x ∈ refs, InScope (arity op) k x
  result : ∀ op r, act op = some r → InScope (arity op) r.prog.length r.result
  value : ∀ op r xs, act op = some r → xs.length = arity op → look default xs (locals default den xs r.prog) r.result = den op xs

/-- "No lowering action cycle must exist" (generic_lowering.py:51): the operations of the new nodes are strictly simpler. -/
def NoCycle (act : Op → Option (Recipe Op)) : Prop :=
  ∃ w : Op → ℕ, ∀ op r, act op = some r → ∀ x ∈ r.prog, w x.1 < w op

/-- nothing at or below the node can be lowered any more -/
inductive Low (act : Op → Option (Recipe Op)) (h : Heap Op) : ℕ → Prop
  | mk (n : ℕ) (nd : Node Op) : h[n]? = some nd → act nd.op = none → (∀ m ∈ nd.ins, Low act h m) → Low act h n

/-- The node returned by an action cannot be lowered itself (the nodes below it can). -/
def RootFree (act : Op → Option (Recipe Op)) : Prop :=
  ∀ op r, act op = some r → ∃ j op' refs, r.result = .loc j ∧ r.prog[j]? = some (op', refs) ∧ act op' = none

/-! ## Lemmas on recipes -/

section locals
variable {α : Type} (d : α) (G : Op → List α → α) (xs : List α)

theorem locals_append (p q : List (Op × List Ref)) (x : Op × List Ref) :
    locals d G xs (p ++ [x]) = locals d G xs p ++ [G x.1 (x.2.map (look d xs (locals d G xs p)))] := by
  unfold locals; rw [List.foldl_append]; rfl

theorem locals_length (p : List (Op × List Ref)) : (locals d G xs p).length = p.length := by
  induction p using List.reverseRecOn with
  | nil => rfl
  | append_singleton p x ih => rw [locals_append _ _ _ _ []]; simp [ih]

theorem locals_getD {p : List (Op × List Ref)} {a : ℕ}
    (hs : ∀ k op' refs, p[k]? = some (op', refs) → ∀ x ∈ refs, InScope a k x) :
    ∀ {k op' refs}, p[k]? = some (op', refs) →
      (locals d G xs p).getD k d = G op' (refs.map (look d xs (locals d G xs p))) := by
  induction p using List.reverseRecOn with
  | nil => intro k op' refs h; simp at h
  | append_singleton p x ih =>
    intro k op' refs h
    have hl := locals_length d G xs p
    have hs' : ∀ k op' refs, p[k]? = some (op', refs) → ∀ x ∈ refs, InScope a k x := fun k op' refs hk =>
      hs k op' refs (by rw [List.getElem?_append_left (List.getElem?_eq_some_iff.1 hk).1]; exact hk)
    have hlook : ∀ r, InScope a k r → k ≤ p.length →
        look d xs (locals d G xs p) r = look d xs (locals d G xs (p ++ [x])) r := by
      intro r hr hk
      cases r with
      | inp i => rfl
      | loc j =>
        show (locals d G xs p).getD j d = _
        rw [locals_append _ _ _ _ []]
        show _ = List.getD _ j d
        rw [List.getD_append _ _ _ _ (by have : j < k := hr; omega)]
    rcases lt_or_ge k p.length with hk | hk
    · have hk' : p[k]? = some (op', refs) := by rwa [List.getElem?_append_left hk] at h
      rw [locals_append _ _ _ _ [], List.getD_append _ _ _ _ (by omega), ih hs' hk', ← locals_append _ _ _ _ []]
      congr 1
      exact List.map_congr_left fun r hr => hlook r (hs' k _ _ hk' r hr) hk.le
    · have hk' : k = p.length := by
        have := (List.getElem?_eq_some_iff.1 h).1
        simp at this; omega
      subst hk'
      have hx : x = (op', refs) := by simpa using h
      have hsx := hs p.length op' refs h
      conv_lhs => rw [locals_append _ _ _ _ []]
      rw [List.getD_append_right _ _ _ _ (by omega), hl, Nat.sub_self, hx]
      show G op' _ = _
      congr 1
      have hx2 : x.2 = refs := by rw [hx]
      rw [← hx]
      show x.2.map _ = _
      rw [hx2]
      exact List.map_congr_left fun r hr => hlook r (hsx r hr) le_rfl
end locals

theorem sum_ge_getD (l : List ℕ) (k : ℕ) : l.getD k 0 ≤ l.sum := by
  induction l generalizing k with
  | nil => simp
  | cons a l ih =>
    cases k with
    | zero => simp
    | succ k => have := ih k; simp only [List.getD_cons_succ, List.sum_cons]; omega

/-! ## A measure that decreases along inputs and lowering actions -/

/-- size of the complete expansion of a node, from the sizes of its inputs -/
def size (act : Op → Option (Recipe Op)) (w : Op → ℕ) (op : Op) (xs : List ℕ) : ℕ :=
  1 + xs.sum + match act op with
    | none => 0
    | some r => (locals 0 (fun op' ys => if h : w op' < w op then size act w op' ys else 0) xs r.prog).sum
termination_by w op

theorem locals_congr {α : Type} (d : α) {G G' : Op → List α → α} (xs : List α) (p : List (Op × List Ref))
    (h : ∀ x ∈ p, G x.1 = G' x.1) : locals d G xs p = locals d G' xs p := by
  induction p using List.reverseRecOn with
  | nil => rfl
  | append_singleton p x ih =>
    rw [locals_append _ _ _ _ [], locals_append _ _ _ _ [], ih fun y hy => h y (by simp [hy]), h x (by simp)]

theorem size_none {act : Op → Option (Recipe Op)} {w : Op → ℕ} {op : Op} (h : act op = none) (xs : List ℕ) :
    size act w op xs = 1 + xs.sum := by rw [size]; simp [h]

theorem size_some {act : Op → Option (Recipe Op)} {w : Op → ℕ} (hw : ∀ op r, act op = some r → ∀ x ∈ r.prog, w x.1 < w op)
    {op : Op} {r : Recipe Op} (h : act op = some r) (xs : List ℕ) :
    size act w op xs = 1 + xs.sum + (locals 0 (size act w) xs r.prog).sum := by
  rw [size, h]
  simp only
  rw [locals_congr 0 xs r.prog (G' := size act w) fun x hx => by funext ys; simp [hw op r h x hx]]

theorem size_gt (act : Op → Option (Recipe Op)) (w : Op → ℕ) (op : Op) (xs : List ℕ) : xs.sum < size act w op xs := by
  rw [size]; omega

/-! ## Invariants -/

variable [Inhabited V] {arity : Op → ℕ} {den : Op → List V → V} {act : Op → Option (Recipe Op)} {w : Op → ℕ}

/-- the graph is well-formed, `val` gives its values and `e` bounds the sizes of the expansions -/
def Inv (arity : Op → ℕ) (den : Op → List V → V) (act : Op → Option (Recipe Op)) (w : Op → ℕ) (h : Heap Op) (val : ℕ → V)
    (e : ℕ → ℕ) : Prop :=
  ∀ n nd, h[n]? = some nd → nd.ins.length = arity nd.op ∧ (∀ m ∈ nd.ins, m < h.length) ∧
    val n = den nd.op (nd.ins.map val) ∧ size act w nd.op (nd.ins.map e) ≤ e n

theorem Inv.lt {h : Heap Op} {val : ℕ → V} {e : ℕ → ℕ} (hI : Inv arity den act w h val e) {n : ℕ} {nd : Node Op}
    (hn : h[n]? = some nd) {m : ℕ} (hm : m ∈ nd.ins) : e m < e n := by
  have h1 := (hI n nd hn).2.2.2
  have h2 := size_gt act w nd.op (nd.ins.map e)
  have h3 : e m ≤ (nd.ins.map e).sum := List.single_le_sum (by simp) _ (List.mem_map_of_mem hm)
  omega

theorem Inv.eval {h : Heap Op} {val : ℕ → V} {e : ℕ → ℕ} (hI : Inv arity den act w h val e) :
    ∀ k n, e n ≤ k → n < h.length → Eval den h n (val n) := by
  intro k
  induction k with
  | zero =>
    intro n hk hn
    have hg : h[n]? = some h[n] := List.getElem?_eq_getElem hn
    have := (hI n _ hg).2.2.2
    have h2 := size_gt act w h[n].op (h[n].ins.map e)
    omega
  | succ k ih =>
    intro n hk hn
    have hg : h[n]? = some h[n] := List.getElem?_eq_getElem hn
    rw [(hI n _ hg).2.2.1]
    exact .mk n _ val hg fun m hm => ih m (by have := hI.lt hg hm; omega) ((hI n _ hg).2.1 m hm)

theorem setInput_length (h : Heap Op) (n idx m : ℕ) : (setInput h n idx m).length = h.length := by
  unfold setInput; split <;> simp

theorem setInput_self {h : Heap Op} {n : ℕ} {nd : Node Op} (hn : h[n]? = some nd) (idx m : ℕ) :
    (setInput h n idx m)[n]? = some { nd with ins := nd.ins.set idx m } := by
  have hl := (List.getElem?_eq_some_iff.1 hn).1
  unfold setInput; rw [hn]; simp [hl]

theorem setInput_ne {h : Heap Op} {n k : ℕ} (idx m : ℕ) (hk : k ≠ n) : (setInput h n idx m)[k]? = h[k]? := by
  unfold setInput; split
  · rfl
  · rw [List.getElem?_set_ne (Ne.symm hk)]

/-- replacing an input by a node with the same value and no larger size -/
theorem Inv.set {h : Heap Op} {val : ℕ → V} {e : ℕ → ℕ} (hI : Inv arity den act w h val e) {n : ℕ} {op : Op} {dn ops : List ℕ}
    {o m : ℕ} (hn : h[n]? = some ⟨op, dn ++ o :: ops⟩) (ha : act op = none) (hm : m < h.length) (hv : val m = val o)
    (he : e m ≤ e o) : Inv arity den act w (setInput h n dn.length m) val e := by
  intro k nd hk
  rw [setInput_length]
  rcases eq_or_ne k n with rfl | hkn
  · rw [setInput_self hn] at hk
    obtain rfl := Option.some.inj hk
    obtain ⟨i1, i2, i3, i4⟩ := hI k _ hn
    have hset : (dn ++ o :: ops).set dn.length m = dn ++ m :: ops := by simp
    simp only [hset] at *
    refine ⟨by simpa using i1, ?_, ?_, ?_⟩
    · intro x hx
      simp only [List.mem_append, List.mem_cons] at hx
      rcases hx with hx | rfl | hx
      · exact i2 x (by simp [hx])
      · exact hm
      · exact i2 x (by simp [hx])
    · rw [i3]; simp [hv]
    · rw [size_none ha] at i4 ⊢
      simp only [List.map_append, List.map_cons, List.sum_append, List.sum_cons] at i4 ⊢
      omega
  · rw [setInput_ne _ _ hkn] at hk
    exact hI k nd hk

theorem getD_map {α β : Type} (f : α → β) (l : List α) {i : ℕ} (hi : i < l.length) (d : β) (d' : α) :
    (l.map f).getD i d = f (l.getD i d') := by
  simp [List.getD_eq_getElem?_getD, List.getElem?_map, List.getElem?_eq_getElem hi]

/-- the new nodes of an action -/
theorem Inv.inst (hS : Sound arity den act) (hw : ∀ op r, act op = some r → ∀ x ∈ r.prog, w x.1 < w op)
    {h : Heap Op} {val : ℕ → V} {e : ℕ → ℕ} (hI : Inv arity den act w h val e) {n : ℕ} {nd : Node Op} (hn : h[n]? = some nd)
    {r : Recipe Op} (hr : act nd.op = some r) :
    ∃ val' e', Inv arity den act w (instantiate h nd.ins r).1 val' e' ∧ (∀ k < h.length, val' k = val k ∧ e' k = e k) ∧
      (instantiate h nd.ins r).2 < (instantiate h nd.ins r).1.length ∧ val' (instantiate h nd.ins r).2 = val n ∧
      e' (instantiate h nd.ins r).2 < e n := by
  obtain ⟨i1, i2, i3, i4⟩ := hI n nd hn
  set L := locals default den (nd.ins.map val) r.prog with hL
  set E := locals 0 (size act w) (nd.ins.map e) r.prog with hE
  have hLl : L.length = r.prog.length := locals_length _ _ _ _
  have hEl : E.length = r.prog.length := locals_length _ _ _ _
  set val' : ℕ → V := fun k => if k < h.length then val k else L.getD (k - h.length) default with hval
  set e' : ℕ → ℕ := fun k => if k < h.length then e k else E.getD (k - h.length) 0 with he
  have hv1 : ∀ k < h.length, val' k = val k := fun k hk => by simp [hval, hk]
  have he1 : ∀ k < h.length, e' k = e k := fun k hk => by simp [he, hk]
  have hv2 : ∀ j, val' (h.length + j) = L.getD j default := fun j => by simp [hval]
  have he2 : ∀ j, e' (h.length + j) = E.getD j 0 := fun j => by simp [he]
  have hin : ∀ i, i < arity nd.op → nd.ins.getD i 0 < h.length := by
    intro i hi
    apply i2
    rw [← i1] at hi
    rw [List.getD_eq_getElem?_getD, List.getElem?_eq_getElem hi]; simp
  have hres : ∀ k x, InScope (arity nd.op) k x → k ≤ r.prog.length →
      x.resolve nd.ins h.length < h.length + k ∧
      val' (x.resolve nd.ins h.length) = look default (nd.ins.map val) L x ∧
      e' (x.resolve nd.ins h.length) = look 0 (nd.ins.map e) E x := by
    intro k x hx hk
    cases x with
    | inp i =>
      have hi : i < arity nd.op := hx
      have hlt := hin i hi
      refine ⟨by show nd.ins.getD i 0 < _; omega, ?_, ?_⟩
      · show val' (nd.ins.getD i 0) = (nd.ins.map val).getD i default
        rw [hv1 _ hlt, getD_map val _ (by omega) _ 0]
      · show e' (nd.ins.getD i 0) = (nd.ins.map e).getD i 0
        rw [he1 _ hlt, getD_map e _ (by omega) _ 0]
    | loc j =>
      have hj : j < k := hx
      exact ⟨by show h.length + j < _; omega, hv2 j, he2 j⟩
  have hsc : ∀ k op' refs, r.prog[k]? = some (op', refs) → ∀ x ∈ refs, InScope (arity nd.op) k x :=
    fun k op' refs hk => (hS.nodes _ _ hr k op' refs hk).2
  have hlen : (instantiate h nd.ins r).1.length = h.length + r.prog.length := by simp [instantiate]
  obtain ⟨r1, r2, r3⟩ := hres r.prog.length r.result (hS.result _ _ hr) le_rfl
  refine ⟨val', e', ?_, fun k hk => ⟨hv1 k hk, he1 k hk⟩, by rw [hlen]; exact r1, ?_, ?_⟩
  · intro k nd' hk
    rw [hlen]
    rcases lt_or_ge k h.length with hkl | hkl
    · have hk' : h[k]? = some nd' := by
        simpa [instantiate, List.getElem?_append_left hkl] using hk
      obtain ⟨j1, j2, j3, j4⟩ := hI k nd' hk'
      have m1 : nd'.ins.map val' = nd'.ins.map val := List.map_congr_left fun x hx => hv1 x (j2 x hx)
      have m2 : nd'.ins.map e' = nd'.ins.map e := List.map_congr_left fun x hx => he1 x (j2 x hx)
      exact ⟨j1, fun x hx => by have := j2 x hx; omega, by rw [hv1 k hkl, m1, j3], by rw [he1 k hkl, m2]; exact j4⟩
    · obtain ⟨j, rfl⟩ : ∃ j, k = h.length + j := ⟨k - h.length, by omega⟩
      have hk' : (r.prog.map (fun x => (⟨x.1, x.2.map (Ref.resolve nd.ins h.length)⟩ : Node Op)))[j]? = some nd' := by
        simpa [instantiate, List.getElem?_append_right] using hk
      rw [List.getElem?_map] at hk'
      obtain ⟨⟨op', refs⟩, hj, rfl⟩ := Option.map_eq_some_iff.1 hk'
      have hjl := (List.getElem?_eq_some_iff.1 hj).1
      have hsj := hsc j op' refs hj
      refine ⟨by simpa using (hS.nodes _ _ hr j op' refs hj).1, ?_, ?_, ?_⟩
      · intro m hm
        obtain ⟨x, hx, rfl⟩ := List.mem_map.1 hm
        have := (hres j x (hsj x hx) hjl.le).1
        omega
      · rw [hv2, locals_getD _ _ _ hsc hj, List.map_map]
        congr 1
        exact List.map_congr_left fun x hx => ((hres j x (hsj x hx) hjl.le).2.1).symm
      · rw [he2, locals_getD _ _ _ hsc hj, List.map_map]
        refine le_of_eq ?_
        congr 1
        exact List.map_congr_left fun x hx => (hres j x (hsj x hx) hjl.le).2.2
  · show val' (r.result.resolve nd.ins h.length) = _
    rw [r2, hS.value _ _ _ hr (by simpa using i1), i3]
  · show e' (r.result.resolve nd.ins h.length) < _
    rw [r3]
    rw [size_some hw hr, ← hE] at i4
    have : look 0 (nd.ins.map e) E r.result ≤ (nd.ins.map e).sum + E.sum := by
      cases r.result with
      | inp i => exact (sum_ge_getD _ i).trans (by omega)
      | loc j => exact (sum_ge_getD _ j).trans (by omega)
    omega

/-! ## The memo -/

/-- recorded nodes exist, have the value of their key and are not larger -/
def MemoOK (s : St Op) (val : ℕ → V) (e : ℕ → ℕ) : Prop :=
  ∀ a b, (a, b) ∈ s.memo → a < s.heap.length ∧ b < s.heap.length ∧ val b = val a ∧ e b ≤ e a

def LogOK (s : St Op) : Prop := s.log.Nodup ∧ ∀ k ∈ s.log, ∃ m, (k, m) ∈ s.memo

/-- recorded nodes below the bound are completely lowered -/
def LowPre (act : Op → Option (Recipe Op)) (s : St Op) (e : ℕ → ℕ) (bound : ℕ) : Prop :=
  ∀ a b, (a, b) ∈ s.memo → e a ≤ bound → Low act s.heap b

theorem lookup_mem {β : Type} {l : List (ℕ × β)} {n : ℕ} {m : β} (h : l.lookup n = some m) : (n, m) ∈ l := by
  induction l with
  | nil => simp at h
  | cons x l ih =>
    obtain ⟨a, b⟩ := x
    rw [List.lookup_cons] at h
    by_cases hk : n = a
    · subst hk; simp at h; subst h; simp
    · have : (n == a) = false := by simpa using hk
      rw [this] at h
      exact List.mem_cons_of_mem _ (ih h)

theorem lookup_none {β : Type} {l : List (ℕ × β)} {n : ℕ} (h : l.lookup n = none) : ∀ m, (n, m) ∉ l := by
  induction l with
  | nil => simp
  | cons x l ih =>
    obtain ⟨a, b⟩ := x
    rw [List.lookup_cons] at h
    by_cases hk : n = a
    · subst hk; simp at h
    · have : (n == a) = false := by simpa using hk
      rw [this] at h
      intro m hm
      rcases List.mem_cons.1 hm with h1 | h1
      · exact hk (Prod.mk.inj h1).1
      · exact ih h m h1

/-- What one step (or a sequence of steps) on the state guarantees; `bf` bounds the sizes of the old nodes it changes, `bl` those
of the memo entries it may use. -/
structure Post (arity : Op → ℕ) (den : Op → List V → V) (act : Op → Option (Recipe Op)) (w : Op → ℕ) (s s' : St Op)
    (val : ℕ → V) (e : ℕ → ℕ) (val' : ℕ → V) (e' : ℕ → ℕ) (bf bl : ℕ) : Prop where
  inv : Inv arity den act w s'.heap val' e'
  memo : MemoOK s' val' e'
  agree : ∀ k < s.heap.length, val' k = val k ∧ e' k = e k
  len : s.heap.length ≤ s'.heap.length
  frame : ∀ k < s.heap.length, bf < e k → s'.heap[k]? = s.heap[k]?
  sub : ∀ x ∈ s.memo, x ∈ s'.memo
  log : LogOK s → LogOK s'
  low : RootFree act → LowPre act s e bl → (∀ x, Low act s.heap x → Low act s'.heap x) ∧
    ∀ a b, (a, b) ∈ s'.memo → (a, b) ∈ s.memo ∨ Low act s'.heap b

theorem Post.refl {s : St Op} {val : ℕ → V} {e : ℕ → ℕ} (hI : Inv arity den act w s.heap val e) (hm : MemoOK s val e)
    (bf bl : ℕ) : Post arity den act w s s val e val e bf bl :=
  ⟨hI, hm, fun _ _ => ⟨rfl, rfl⟩, le_rfl, fun _ _ _ => rfl, fun _ h => h, fun h => h,
    fun _ _ => ⟨fun _ h => h, fun _ _ h => Or.inl h⟩⟩

theorem Post.weaken {s s' : St Op} {val val' : ℕ → V} {e e' : ℕ → ℕ} {bf bl cf cl : ℕ}
    (h : Post arity den act w s s' val e val' e' bf bl) (h1 : bf ≤ cf) (h2 : bl ≤ cl) :
    Post arity den act w s s' val e val' e' cf cl :=
  ⟨h.inv, h.memo, h.agree, h.len, fun k hk hc => h.frame k hk (by omega), h.sub, h.log,
    fun hr hp => h.low hr fun a b hab hle => hp a b hab (by omega)⟩

theorem Post.lowPre {s s' : St Op} {val val' : ℕ → V} {e e' : ℕ → ℕ} {bf bl : ℕ} (hm : MemoOK s val e)
    (h : Post arity den act w s s' val e val' e' bf bl) (hr : RootFree act) (hp : LowPre act s e bl) : LowPre act s' e' bl := by
  intro a b hab hle
  obtain ⟨l1, l2⟩ := h.low hr hp
  rcases l2 a b hab with h1 | h1
  · exact l1 b (hp a b h1 (by rw [← (h.agree a (hm a b h1).1).2]; exact hle))
  · exact h1

theorem Post.trans {s s1 s2 : St Op} {val val1 val2 : ℕ → V} {e e1 e2 : ℕ → ℕ} {bf bl : ℕ} (hm : MemoOK s val e)
    (h1 : Post arity den act w s s1 val e val1 e1 bf bl) (h2 : Post arity den act w s1 s2 val1 e1 val2 e2 bf bl) :
    Post arity den act w s s2 val e val2 e2 bf bl := by
  refine ⟨h2.inv, h2.memo, fun k hk => ?_, h1.len.trans h2.len, fun k hk hb => ?_, fun x hx => h2.sub x (h1.sub x hx),
    fun h => h2.log (h1.log h), fun hr hp => ?_⟩
  · have a1 := h1.agree k hk
    have a2 := h2.agree k (by have := h1.len; omega)
    exact ⟨a2.1.trans a1.1, a2.2.trans a1.2⟩
  · rw [h2.frame k (by have := h1.len; omega) (by rw [(h1.agree k hk).2]; exact hb), h1.frame k hk hb]
  · obtain ⟨l1, l2⟩ := h1.low hr hp
    obtain ⟨m1, m2⟩ := h2.low hr (h1.lowPre hm hr hp)
    refine ⟨fun x hx => m1 x (l1 x hx), fun a b hab => ?_⟩
    rcases m2 a b hab with h | h
    · rcases l2 a b h with h' | h'
      · exact Or.inl h'
      · exact Or.inr (m1 b h')
    · exact Or.inr h

/-- replacing an input by a completely lowered node keeps lowered nodes lowered -/
theorem low_set {h : Heap Op} {val : ℕ → V} {e : ℕ → ℕ} (hI : Inv arity den act w h val e) {n m : ℕ} (idx : ℕ)
    (hm : Low act h m) (he : e m < e n) : ∀ k x, e x ≤ k → Low act h x → Low act (setInput h n idx m) x := by
  intro k
  induction k with
  | zero =>
    intro x hx hl
    cases hl with
    | mk _ nd hg ha hc =>
      have := (hI x _ hg).2.2.2
      have h2 := size_gt act w nd.op (nd.ins.map e)
      omega
  | succ k ih =>
    intro x hx hl
    cases hl with
    | mk _ nd hg ha hc =>
      rcases eq_or_ne x n with rfl | hxn
      · refine .mk x _ (setInput_self hg idx m) ha ?_
        intro y hy
        rcases List.mem_or_eq_of_mem_set hy with h1 | rfl
        · exact ih y (by have := hI.lt hg h1; omega) (hc y h1)
        · exact ih y (by omega) hm
      · refine .mk x nd (by rw [setInput_ne _ _ hxn]; exact hg) ha ?_
        intro y hy
        exact ih y (by have := hI.lt hg hy; omega) (hc y hy)

theorem low_append {h g : Heap Op} {x : ℕ} (hl : Low act h x) : Low act (h ++ g) x := by
  induction hl with
  | mk n nd hg ha _ ih =>
    exact .mk n nd (by rw [List.getElem?_append_left (List.getElem?_eq_some_iff.1 hg).1]; exact hg) ha ih

/-- the result of `lower_node` -/
structure Done (arity : Op → ℕ) (den : Op → List V → V) (act : Op → Option (Recipe Op)) (w : Op → ℕ) (s s' : St Op)
    (val : ℕ → V) (e : ℕ → ℕ) (n n' : ℕ) (val' : ℕ → V) (e' : ℕ → ℕ) : Prop where
  post : Post arity den act w s s' val e val' e' (e n) (e n)
  lt : n' < s'.heap.length
  value : val' n' = val n
  size : e' n' ≤ e n
  low : RootFree act → LowPre act s e (e n) → Low act s'.heap n'
  same : s.memo.lookup n = none → ∀ nd, s.heap[n]? = some nd → act nd.op = none → n' = n

/-- the loop over the inputs -/
theorem lowerInputs_done {f : St Op → ℕ → Option (St Op × ℕ)} {n : ℕ} {op : Op} (ha : act op = none) {K : ℕ}
    (hf : ∀ (s : St Op) (val : ℕ → V) (e : ℕ → ℕ) (m : ℕ), Inv arity den act w s.heap val e → MemoOK s val e →
      m < s.heap.length → e m < K → ∃ s' m', f s m = some (s', m') ∧ ∃ val' e', Done arity den act w s s' val e m m' val' e') :
    ∀ (ops dn : List ℕ) (Q : Prop) (s : St Op) (val : ℕ → V) (e : ℕ → ℕ), Inv arity den act w s.heap val e → MemoOK s val e →
      s.heap[n]? = some ⟨op, dn ++ ops⟩ → e n ≤ K →
      (Q → ∀ m ∈ dn, Low act s.heap m) →
      ∃ s', lowerInputs f n dn.length ops s = some s' ∧ ∃ val' e',
        Post arity den act w s s' val e val' e' (e n) (e n - 1) ∧
        ∃ ins', s'.heap[n]? = some ⟨op, ins'⟩ ∧
          (Q → RootFree act → LowPre act s e (e n - 1) → ∀ m ∈ ins', Low act s'.heap m) := by
  intro ops
  induction ops with
  | nil =>
    intro dn Q s val e hI hm hn _ hd
    exact ⟨s, rfl, val, e, .refl hI hm _ _, dn, by simpa using hn, fun hQ _ _ => hd hQ⟩
  | cons o ops ih =>
    intro dn Q s val e hI hm hn hK hd
    have hol : o < s.heap.length := (hI n _ hn).2.1 o (by simp)
    have heo : e o < e n := hI.lt hn (by simp)
    have hnl : n < s.heap.length := (List.getElem?_eq_some_iff.1 hn).1
    obtain ⟨s1, m, hs1, val1, e1, D⟩ := hf s val e o hI hm hol (by omega)
    have P1 := D.post.weaken (cf := e n) (cl := e n - 1) (by omega) (by omega)
    have hn1 : s1.heap[n]? = some ⟨op, dn ++ o :: ops⟩ := by rw [D.post.frame n hnl heo]; exact hn
    have a1 := D.post.agree o hol
    have an := D.post.agree n hnl
    have hI2 := D.post.inv.set hn1 ha D.lt (by rw [D.value, a1.1]) (by rw [a1.2]; exact D.size)
    set s2 : St Op := { s1 with heap := setInput s1.heap n dn.length m } with hs2
    have hm2 : MemoOK s2 val1 e1 := by
      intro a b hab
      have := D.post.memo a b hab
      rw [hs2]; simp only [setInput_length]; exact this
    have hem : e1 m < e1 n := by rw [an.2]; have := D.size; omega
    have hlow : RootFree act → LowPre act s e (e n - 1) → Low act s1.heap m ∧
        ∀ x, Low act s1.heap x → Low act s2.heap x := by
      intro hr hp
      have hlm : Low act s1.heap m := D.low hr fun a b hab hle => hp a b hab (by omega)
      exact ⟨hlm, fun x hx => low_set D.post.inv dn.length hlm hem _ x le_rfl hx⟩
    have P2 : Post arity den act w s s2 val e val1 e1 (e n) (e n - 1) := by
      refine ⟨hI2, hm2, P1.agree, by rw [hs2]; simpa [setInput_length] using P1.len, ?_, P1.sub, P1.log, ?_⟩
      · intro k hkl hk
        have : k ≠ n := by rintro rfl; omega
        exact (setInput_ne _ _ this).trans (P1.frame k hkl hk)
      · intro hr hp
        obtain ⟨l1, l2⟩ := P1.low hr hp
        obtain ⟨-, m2⟩ := hlow hr hp
        exact ⟨fun x hx => m2 x (l1 x hx), fun a b hab => (l2 a b hab).imp id (m2 b)⟩
    have hn2 : s2.heap[n]? = some ⟨op, (dn ++ [m]) ++ ops⟩ := by
      have := setInput_self hn1 dn.length m
      simpa [hs2] using this
    obtain ⟨s3, hs3, val3, e3, P3, ins', hn3, hl3⟩ := ih (dn ++ [m]) (Q ∧ RootFree act ∧ LowPre act s e (e n - 1)) s2 val1 e1
      hI2 hm2 hn2 (by rw [an.2]; exact hK) (by
        rintro ⟨hQ, hr, hp⟩ x hx
        obtain ⟨hlm, hl2⟩ := hlow hr hp
        rcases List.mem_append.1 hx with h | h
        · exact hl2 x ((P1.low hr hp).1 x (hd hQ x h))
        · rw [List.mem_singleton.1 h]; exact hl2 m hlm)
    rw [an.2] at P3 hl3
    refine ⟨s3, ?_, val3, e3, P2.trans hm P3, ins', hn3, fun hQ hr hp => hl3 ⟨hQ, hr, hp⟩ hr (P2.lowPre hm hr hp)⟩
    rw [lowerInputs, hs1]
    simpa using hs3

theorem lowerNode_done (hS : Sound arity den act) (hw : ∀ op r, act op = some r → ∀ x ∈ r.prog, w x.1 < w op) :
    ∀ (fuel : ℕ) (s : St Op) (val : ℕ → V) (e : ℕ → ℕ) (n : ℕ), Inv arity den act w s.heap val e → MemoOK s val e →
      n < s.heap.length → e n < fuel →
      ∃ s' n', lowerNode act fuel s n = some (s', n') ∧ ∃ val' e', Done arity den act w s s' val e n n' val' e' := by
  intro fuel
  induction fuel with
  | zero => intro s val e n _ _ _ h; omega
  | succ fuel ih =>
    intro s val e n hI hm hn hfu
    have hg : s.heap[n]? = some s.heap[n] := List.getElem?_eq_getElem hn
    set nd := s.heap[n] with hnd
    rw [lowerNode]
    cases hlk : s.memo.lookup n with
    | some m =>
      obtain ⟨m1, m2, m3, m4⟩ := hm n m (lookup_mem hlk)
      exact ⟨s, m, rfl, val, e, .refl hI hm _ _, m2, m3, m4, fun _ hp => hp n m (lookup_mem hlk) le_rfl, fun h => by rw [hlk] at h; cases h⟩
    | none =>
      have hno := lookup_none hlk
      simp only [hg]
      cases hact : act nd.op with
      | none =>
        set s0 : St Op := { s with memo := (n, n) :: s.memo } with hs0
        have hm0 : MemoOK s0 val e := by
          intro a b hab
          rcases List.mem_cons.1 hab with h | h
          · obtain ⟨rfl, rfl⟩ := Prod.mk.inj h
            exact ⟨hn, hn, rfl, le_rfl⟩
          · exact hm a b h
        obtain ⟨s1, hs1, val1, e1, P, ins', hn1, hl1⟩ := lowerInputs_done hact (K := fuel)
          (fun s val e m h1 h2 h3 h4 => ih s val e m h1 h2 h3 h4) nd.ins [] True s0 val e hI hm0 hg (by omega) (by simp)
        have hen : 0 < e n := by
          have := (hI n _ hg).2.2.2
          have h2 := size_gt act w nd.op (nd.ins.map e)
          omega
        have hpre : LowPre act s e (e n) → LowPre act s0 e (e n - 1) := by
          intro hp a b hab hle
          rcases List.mem_cons.1 hab with h | h
          · obtain ⟨rfl, rfl⟩ := Prod.mk.inj h; omega
          · exact hp a b h (by omega)
        have hln : RootFree act → LowPre act s e (e n) → Low act s1.heap n := fun hr hp =>
          .mk n _ hn1 hact (hl1 trivial hr (hpre hp))
        have an := P.agree n hn
        refine ⟨s1, n, ?_, val1, e1, ⟨P.inv, P.memo, P.agree, P.len, P.frame, fun x hx => P.sub x (List.mem_cons_of_mem _ hx),
          fun hl => P.log ⟨hl.1, fun k hk => ?_⟩, fun hr hp => ⟨(P.low hr (hpre hp)).1, fun a b hab => ?_⟩⟩,
          by have := P.len; exact lt_of_lt_of_le hn this, an.1, an.2.le, hln, fun _ _ _ _ => rfl⟩
        · simp only [List.length_nil] at hs1
          rw [hs1]
        · obtain ⟨m, h⟩ := hl.2 k hk
          exact ⟨m, List.mem_cons_of_mem _ h⟩
        · rcases (P.low hr (hpre hp)).2 a b hab with h | h
          · rcases List.mem_cons.1 h with h' | h'
            · obtain ⟨rfl, rfl⟩ := Prod.mk.inj h'
              exact Or.inr (hln hr hp)
            · exact Or.inl h'
          · exact Or.inr h
      | some r =>
        simp only
        obtain ⟨val1, e1, hI1, ag1, lt1, v1, z1⟩ := hI.inst hS hw hg hact
        set h1 := (instantiate s.heap nd.ins r).1 with hh1
        set new := (instantiate s.heap nd.ins r).2 with hnew
        set s0 : St Op := ⟨h1, (n, new) :: s.memo, s.log ++ [n]⟩ with hs0
        have hle1 : s.heap.length ≤ h1.length := by rw [hh1]; simp [instantiate]
        have an := ag1 n hn
        have hm0 : MemoOK s0 val1 e1 := by
          intro a b hab
          rcases List.mem_cons.1 hab with h | h
          · obtain ⟨rfl, rfl⟩ := Prod.mk.inj h
            exact ⟨lt_of_lt_of_le hn hle1, lt1, by rw [v1, an.1], by rw [an.2]; exact z1.le⟩
          · obtain ⟨q1, q2, q3, q4⟩ := hm a b h
            refine ⟨lt_of_lt_of_le q1 hle1, lt_of_lt_of_le q2 hle1, ?_, ?_⟩
            · rw [(ag1 a q1).1, (ag1 b q2).1, q3]
            · rw [(ag1 a q1).2, (ag1 b q2).2]; exact q4
        obtain ⟨s', n', hs', val', e', D⟩ := ih s0 val1 e1 new hI1 hm0 lt1 (by omega)
        have hpre : LowPre act s e (e n) → LowPre act s0 e1 (e1 new) := by
          intro hp a b hab hle
          rcases List.mem_cons.1 hab with h | h
          · obtain ⟨rfl, rfl⟩ := Prod.mk.inj h; rw [an.2] at hle; omega
          · have q := hm a b h
            exact low_append (hp a b h (by rw [(ag1 a q.1).2] at hle; omega))
        have hsame : RootFree act → n' = new := by
          intro hr
          obtain ⟨j, op', refs, q1, q2, q3⟩ := hr _ _ hact
          have hnj : new = s.heap.length + j := by rw [hnew]; simp [instantiate, q1, Ref.resolve]
          have hjl := (List.getElem?_eq_some_iff.1 q2).1
          refine D.same ?_ ⟨op', refs.map (Ref.resolve nd.ins s.heap.length)⟩ ?_ q3
          · cases hc : s0.memo.lookup new with
            | none => rfl
            | some b =>
              have hb := lookup_mem hc
              rcases List.mem_cons.1 hb with h | h
              · have := (Prod.mk.inj h).1; omega
              · have := (hm _ _ h).1; omega
          · show h1[new]? = _
            rw [hnj, hh1]
            simp [instantiate, List.getElem?_append_right, q2]
        have hln : RootFree act → LowPre act s e (e n) → Low act s'.heap n' := fun hr hp => D.low hr (hpre hp)
        refine ⟨s', n', hs', val', e', ⟨D.post.inv, D.post.memo, ?_, hle1.trans D.post.len, ?_,
          fun x hx => D.post.sub x (List.mem_cons_of_mem _ hx), fun hl => D.post.log ⟨?_, ?_⟩, fun hr hp => ⟨?_, ?_⟩⟩,
          D.lt, by rw [D.value, v1], D.size.trans z1.le, hln, fun _ nd' hnd' ha' => ?_⟩
        · intro k hk
          have a1 := ag1 k hk
          have a2 := D.post.agree k (lt_of_lt_of_le hk hle1)
          exact ⟨a2.1.trans a1.1, a2.2.trans a1.2⟩
        · intro k hk hb
          rw [D.post.frame k (lt_of_lt_of_le hk hle1) (by rw [(ag1 k hk).2]; omega)]
          show h1[k]? = _
          rw [hh1]
          simp [instantiate, List.getElem?_append_left hk]
        · show (s.log ++ [n]).Nodup
          rw [List.nodup_append]
          refine ⟨hl.1, by simp, ?_⟩
          intro a ha b hb
          rw [List.mem_singleton.1 hb]
          rintro rfl
          obtain ⟨m, hm'⟩ := hl.2 a ha
          exact hno m hm'
        · intro k hk
          rcases List.mem_append.1 hk with h | h
          · obtain ⟨m, hm'⟩ := hl.2 k h
            exact ⟨m, List.mem_cons_of_mem _ hm'⟩
          · rw [List.mem_singleton.1 h]
            exact ⟨new, List.mem_cons_self⟩
        · intro x hx
          exact (D.post.low hr (hpre hp)).1 x (low_append hx)
        · intro a b hab
          rcases (D.post.low hr (hpre hp)).2 a b hab with h | h
          · rcases List.mem_cons.1 h with h' | h'
            · obtain ⟨rfl, rfl⟩ := Prod.mk.inj h'
              exact Or.inr (hsame hr ▸ hln hr hp)
            · exact Or.inl h'
          · exact Or.inr h
        · rw [hg] at hnd'
          obtain rfl := Option.some.inj hnd'
          rw [hact] at ha'; cases ha'

/-! ## Fuel -/

theorem lowerInputs_mono {f g : St Op → ℕ → Option (St Op × ℕ)} (h : ∀ s n r, f s n = some r → g s n = some r) (n : ℕ) :
    ∀ (ops : List ℕ) (idx : ℕ) (s s' : St Op), lowerInputs f n idx ops s = some s' → lowerInputs g n idx ops s = some s' := by
  intro ops
  induction ops with
  | nil => intro idx s s' hs; exact hs
  | cons o ops ih =>
    intro idx s s' hs
    rw [lowerInputs] at hs ⊢
    cases hf : f s o with
    | none => rw [hf] at hs; cases hs
    | some r => rw [hf] at hs; rw [h _ _ _ hf]; exact ih _ _ _ hs

theorem lowerNode_mono1 : ∀ (fuel : ℕ) (s : St Op) (n : ℕ) (r : St Op × ℕ), lowerNode act fuel s n = some r →
    lowerNode act (fuel + 1) s n = some r := by
  intro fuel
  induction fuel with
  | zero => intro s n r h; cases h
  | succ fuel ih =>
    intro s n r h
    rw [lowerNode] at h ⊢
    cases hlk : s.memo.lookup n with
    | some m => rw [hlk] at h; exact h
    | none =>
      rw [hlk] at h
      cases hg : s.heap[n]? with
      | none => rw [hg] at h; cases h
      | some nd =>
        rw [hg] at h
        simp only at h ⊢
        cases hact : act nd.op with
        | none =>
          rw [hact] at h
          simp only at h ⊢
          cases hc : lowerInputs (lowerNode act fuel) n 0 nd.ins { s with memo := (n, n) :: s.memo } with
          | none => rw [hc] at h; cases h
          | some s1 =>
            rw [hc] at h
            rw [lowerInputs_mono ih n _ _ _ _ hc]; exact h
        | some q =>
          rw [hact] at h
          exact ih _ _ _ h

theorem lowerNode_mono {fuel fuel' : ℕ} (hle : fuel ≤ fuel') {s : St Op} {n : ℕ} {r : St Op × ℕ}
    (h : lowerNode act fuel s n = some r) : lowerNode act fuel' s n = some r := by
  induction hle with
  | refl => exact h
  | step _ ih => exact lowerNode_mono1 _ _ _ _ ih

/-! ## Values and sizes of a well-formed graph -/

theorem exists_attr {α : Type} (G : Op → List α → α) (d : α) {h : Heap Op} (hwf : WF arity h) :
    ∃ a : ℕ → α, ∀ n nd, h[n]? = some nd → a n = G nd.op (nd.ins.map a) := by
  obtain ⟨rank, hr⟩ := hwf
  have key : ∀ k, ∃ a : ℕ → α, ∀ n nd, rank n < k → h[n]? = some nd → a n = G nd.op (nd.ins.map a) := by
    intro k
    induction k with
    | zero => exact ⟨fun _ => d, fun n nd hk => by omega⟩
    | succ k ih =>
      obtain ⟨a, ha⟩ := ih
      refine ⟨fun n => if rank n < k then a n else match h[n]? with | none => d | some nd => G nd.op (nd.ins.map a), ?_⟩
      intro n nd hk hn
      have hmap : ∀ (m : List ℕ), (∀ x ∈ m, rank x < k) → m.map (fun n => if rank n < k then a n else
          match h[n]? with | none => d | some nd => G nd.op (nd.ins.map a)) = m.map a := by
        intro m hm
        exact List.map_congr_left fun x hx => by simp [hm x hx]
      rw [hmap nd.ins fun x hx => by have := ((hr n nd hn).2 x hx).2; omega]
      by_cases hc : rank n < k
      · simp only [hc, if_true]; exact ha n nd hc hn
      · simp only [hc, if_false, hn]
  obtain ⟨K, hK⟩ : ∃ K, ∀ n < h.length, rank n < K := by
    clear key hr
    induction h.length with
    | zero => exact ⟨0, fun n hn => by omega⟩
    | succ l ih =>
      obtain ⟨K, hK⟩ := ih
      refine ⟨max K (rank l + 1), fun n hn => ?_⟩
      rcases Nat.lt_succ_iff_lt_or_eq.1 hn with h1 | rfl
      · exact lt_of_lt_of_le (hK n h1) (le_max_left _ _)
      · exact lt_of_lt_of_le (Nat.lt_succ_self _) (le_max_right _ _)
  obtain ⟨a, ha⟩ := key K
  exact ⟨a, fun n nd hn => ha n nd (hK n (List.getElem?_eq_some_iff.1 hn).1) hn⟩

theorem exists_inv (den : Op → List V → V) (act : Op → Option (Recipe Op)) (w : Op → ℕ) {h : Heap Op} (hwf : WF arity h) :
    ∃ val e, Inv arity den act w h val e := by
  obtain ⟨val, hv⟩ := exists_attr den default hwf
  obtain ⟨e, he⟩ := exists_attr (size act w) 0 hwf
  obtain ⟨rank, hr⟩ := hwf
  exact ⟨val, e, fun n nd hn => ⟨(hr n nd hn).1, fun m hm => ((hr n nd hn).2 m hm).1, hv n nd hn, (he n nd hn).ge⟩⟩

/-! ## C59 -/

/-- **C59**, generic lowering: for every acyclic graph with any sharing and every set of value-preserving lowering actions without
cycle, the pass ends, the node it returns has the value of the node it was given, no node of the graph changes its value although
nodes are modified in place, and no node is lowered twice. -/
theorem C59_lower (hS : Sound arity den act) (hc : NoCycle act) {h : Heap Op} (hwf : WF arity h) {n : ℕ} (hn : n < h.length) :
    ∃ N s n', (∀ fuel, N ≤ fuel → executeOnGraph act fuel h n = some (s, n')) ∧
      (∃ v, Eval den h n v ∧ Eval den s.heap n' v) ∧
      (∀ m v, Eval den h m v → Eval den s.heap m v) ∧ s.log.Nodup := by
  obtain ⟨w, hw⟩ := hc
  obtain ⟨val, e, hI⟩ := exists_inv den act w hwf
  obtain ⟨s, n', hs, val', e', D⟩ := lowerNode_done hS hw (e n + 1) ⟨h, [], []⟩ val e n hI (fun a b h => by cases h) hn (by omega)
  have hev : ∀ m, m < h.length → Eval den h m (val m) := fun m hm => hI.eval _ m le_rfl hm
  refine ⟨e n + 1, s, n', fun fuel hf => lowerNode_mono hf hs, ⟨val n, hev n hn, ?_⟩, ?_, (D.post.log ⟨by simp, by simp⟩).1⟩
  · rw [← D.value]; exact D.post.inv.eval _ n' le_rfl D.lt
  · intro m v hv
    have hm : m < h.length := by cases hv with | mk _ nd _ hg _ => exact (List.getElem?_eq_some_iff.1 hg).1
    rw [hv.unique (hev m hm), ← (D.post.agree m hm).1]
    exact D.post.inv.eval _ m le_rfl (lt_of_lt_of_le hm D.post.len)

/-- **C59**, generic lowering: when the node returned by an action cannot be lowered itself, nothing in the returned graph can be
lowered any more.  Missing: actions that chain (see `C59_lower_chain_wrong`). -/
theorem C59_lower_complete_partial {den : Op → List V → V} (hS : Sound arity den act) (hc : NoCycle act) (hr : RootFree act)
    {h : Heap Op} (hwf : WF arity h) {n : ℕ} (hn : n < h.length) {fuel : ℕ} {s : St Op} {n' : ℕ}
    (he : executeOnGraph act fuel h n = some (s, n')) : ∀ m nd, Below s.heap n' m → s.heap[m]? = some nd → act nd.op = none := by
  obtain ⟨w, hw⟩ := hc
  obtain ⟨val, e, hI⟩ := exists_inv den act w hwf
  obtain ⟨s1, n1, hs, val', e', D⟩ := lowerNode_done hS hw (e n + 1) ⟨h, [], []⟩ val e n hI (fun a b h => by cases h) hn (by omega)
  have e1 := lowerNode_mono (le_max_left (e n + 1) fuel) hs
  have e2 : lowerNode act (max (e n + 1) fuel) ⟨h, [], []⟩ n = some (s, n') := lowerNode_mono (le_max_right _ _) he
  rw [e1] at e2
  obtain ⟨rfl, rfl⟩ := Prod.mk.inj (Option.some.inj e2)
  have hl := D.low hr (fun a b h => by cases h)
  intro m nd hb
  have hlm : Low act s1.heap m := by
    induction hb with
    | refl => exact hl
    | step _ hg hk ih =>
      cases ih with
      | mk _ nd' hg' _ hcld =>
        rw [hg] at hg'
        obtain rfl := Option.some.inj hg'
        exact hcld _ hk
  intro hg
  cases hlm with
  | mk _ nd' hg' ha _ =>
    rw [hg] at hg'
    obtain rfl := Option.some.inj hg'
    exact ha

end Verif.Rewrite
