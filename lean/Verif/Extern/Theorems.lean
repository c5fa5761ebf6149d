import Verif.Extern.Model
import Mathlib.Tactic.Push

namespace Verif.Extern

variable {V : Type} [Inhabited V]

theorem value_congr (I : Interp V) {node node' : ℕ → Node} (env : String → V)
    (sub : ℕ → Option V) (k : ℕ) (h : ∀ n < k, node n = node' n) :
    ∀ n < k, value I node env sub n = value I node' env sub n := by
  intro n
  induction n using Nat.strongRecOn with
  | ind n ih =>
    intro hn
    rw [value, value, ← h n hn]
    cases sub n with
    | some v => rfl
    | none =>
      cases node n with
      | op f ins =>
        simp only
        congr 1
        refine List.map_congr_left fun a _ => ?_
        by_cases ha : a < n
        · rw [dif_pos ha, dif_pos ha]; exact ih a ha (by omega)
        · rw [dif_neg ha, dif_neg ha]
      | _ => rfl

/-- The leaves which the function shares with the original graph. -/
def Shared : Node → Prop
  | .var _ true => True
  | .table true true _ => True
  | _ => False

/-- What holds of the state while the graph `H` is copied. -/
structure Inv (I : Interp V) (H : Heap) (E env : String → V) (sub : ℕ → Option V) (s : St) :
    Prop where
  size : H.size ≤ s.heap.size
  old : ∀ n < H.size, s.heap.node n = H.node n
  oldT : ∀ n < H.size, s.heap.tag n = H.tag n ∧ s.heap.fmt n = H.fmt n
  ordered : s.heap.Ordered
  map : ∀ n m, s.map n = some m → m < s.heap.size ∧
    (m < H.size → Shared (H.node m)) ∧ s.heap.fmt m = H.fmt n ∧
    value I s.heap.node E (fun _ => none) m = value I H.node env sub n
  ins : ∀ m, H.size ≤ m → m < s.heap.size → ∀ a ∈ (s.heap.node m).inputs,
    a < H.size → Shared (H.node a)

theorem alloc_inv {I : Interp V} {H : Heap} {E env : String → V} {sub : ℕ → Option V} {s : St}
    (J : Inv I H E env sub s) (n : ℕ) (hn : n < H.size) (x : Node)
    (hin : ∀ a ∈ x.inputs, a < s.heap.size ∧ (a < H.size → Shared (H.node a)))
    (hv : value I (alloc n x s).2.heap.node E (fun _ => none) s.heap.size =
      value I H.node env sub n) :
    Inv I H E env sub (alloc n x s).2 := by
  have hnode : ∀ j, j ≠ s.heap.size → (alloc n x s).2.heap.node j = s.heap.node j := by
    intro j hj; simp [alloc, hj]
  have hself : (alloc n x s).2.heap.node s.heap.size = x := by simp [alloc]
  have hsz : (alloc n x s).2.heap.size = s.heap.size + 1 := rfl
  have hlow : ∀ m < s.heap.size, value I (alloc n x s).2.heap.node E (fun _ => none) m =
      value I s.heap.node E (fun _ => none) m :=
    value_congr I E _ s.heap.size (fun j hj => hnode j (by omega))
  refine ⟨by have := J.size; omega, ?_, ?_, ?_, ?_, ?_⟩
  · intro j hj
    rw [hnode j (by have := J.size; omega)]; exact J.old j hj
  · intro j hj
    have : j ≠ s.heap.size := by have := J.size; omega
    simp only [alloc, if_neg this]; exact J.oldT j hj
  · intro j hj a ha
    by_cases h : j = s.heap.size
    · subst h; rw [hself] at ha; exact (hin a ha).1
    · rw [hnode j h] at ha; exact J.ordered j (by omega) a ha
  · intro j m hm
    by_cases h : j = n
    · subst h
      have : m = s.heap.size := by simpa [alloc, eq_comm] using hm
      subst this
      refine ⟨by omega, fun h => absurd J.size (by omega), ?_, hv⟩
      simp only [alloc, if_pos]; exact (J.oldT j hn).2
    · have hm' : s.map j = some m := by simpa [alloc, h] using hm
      obtain ⟨h1, h2, h4, h3⟩ := J.map j m hm'
      have : m ≠ s.heap.size := by omega
      exact ⟨by omega, h2, by simp only [alloc, if_neg this]; exact h4, by rw [hlow m h1]; exact h3⟩
  · intro m hm hm' a ha
    by_cases h : m = s.heap.size
    · subst h; rw [hself] at ha; exact (hin a ha).2
    · rw [hnode m h] at ha; exact J.ins m hm (by omega) a ha

/-- What a call of `copy` on node `n` does. -/
structure Post (I : Interp V) (H : Heap) (E env : String → V) (sub : ℕ → Option V) (n m : ℕ)
    (s s' : St) : Prop where
  inv : Inv I H E env sub s'
  grow : s.heap.size ≤ s'.heap.size
  same : ∀ j < s.heap.size, s'.heap.node j = s.heap.node j
  mono : ∀ j v, s.map j = some v → s'.map j = some v
  done : s'.map n = some m

theorem copyL_ok {I : Interp V} {H : Heap} {E env : String → V} {sub : ℕ → Option V}
    (f : ℕ → St → Option (ℕ × St)) (P : St → Prop)
    (hP : ∀ s s', P s → (∀ j v, s.map j = some v → s'.map j = some v) → P s') :
    ∀ (l : List ℕ),
    (∀ a ∈ l, ∀ s, Inv I H E env sub s → P s → ∃ m s', f a s = some (m, s') ∧
      Post I H E env sub a m s s') →
    ∀ s, Inv I H E env sub s → P s → ∃ ms s', copyL f l s = some (ms, s') ∧
      Inv I H E env sub s' ∧ s.heap.size ≤ s'.heap.size ∧
      (∀ j < s.heap.size, s'.heap.node j = s.heap.node j) ∧
      (∀ j v, s.map j = some v → s'.map j = some v) ∧
      List.Forall₂ (fun a m => s'.map a = some m) l ms
  | [], _, s, J, _ => ⟨[], s, rfl, J, Nat.le_refl _, fun _ _ => rfl, fun _ _ h => h, .nil⟩
  | a :: l, hf, s, J, hp => by
    obtain ⟨m, s1, h1, p1⟩ := hf a (by simp) s J hp
    obtain ⟨ms, s2, h2, J2, g2, e2, m2, F2⟩ := copyL_ok f P hP l
      (fun b hb => hf b (List.mem_cons_of_mem _ hb)) s1 p1.inv (hP s s1 hp p1.mono)
    refine ⟨m :: ms, s2, by simp [copyL, h1, h2], J2, Nat.le_trans p1.grow g2, ?_, ?_, ?_⟩
    · intro j hj
      rw [e2 j (Nat.lt_of_lt_of_le hj p1.grow), p1.same j hj]
    · exact fun j v h => m2 j v (p1.mono j v h)
    · exact .cons (m2 a m p1.done) F2

theorem forall₂_right {α β : Type} {R : α → β → Prop} {l : List α} {l' : List β}
    (h : List.Forall₂ R l l') {b : β} (hb : b ∈ l') : ∃ a, R a b := by
  induction h with
  | nil => cases hb
  | cons hd _ ih =>
    rcases List.mem_cons.1 hb with rfl | hb
    · exact ⟨_, hd⟩
    · exact ih hb

theorem forall₂_map {α β γ : Type} {R : α → β → Prop} {l : List α} {l' : List β}
    (h : List.Forall₂ R l l') {f : α → γ} {g : β → γ}
    (hfg : ∀ a ∈ l, ∀ b ∈ l', R a b → g b = f a) : l'.map g = l.map f := by
  induction h with
  | nil => rfl
  | cons hd _ ih =>
    rw [List.map_cons, List.map_cons, hfg _ (by simp) _ (by simp) hd,
      ih fun a ha b hb => hfg a (List.mem_cons_of_mem _ ha) b (List.mem_cons_of_mem _ hb)]

theorem copy_ok {I : Interp V} {H : Heap} (hH : H.Ordered) {E env : String → V}
    {sub : ℕ → Option V} {args : List ℕ} {root : ℕ}
    (hsub : ∀ j, j ∉ args → sub j = none)
    (hfree : ∀ j x b, Within H args root j → j ∉ args → H.node j = .var x b → E x = env x) :
    ∀ (fuel n : ℕ), n < fuel → n < H.size → Within H args root n →
    ∀ s, Inv I H E env sub s → (∀ j ∈ args, ∃ m, s.map j = some m) →
      (∀ j < H.size, ∀ k, H.node j = .table true true k → s.map j ≠ none) →
      ∃ m s', copy fuel n s = some (m, s') ∧ Post I H E env sub n m s s'
  | 0, n, h, _, _, _, _, _, _ => absurd h (by omega)
  | fuel + 1, n, h, hn, hw, s, J, hargs, htab => by
    cases hm : s.map n with
    | some m =>
      exact ⟨m, s, by simp [copy, hm], J, Nat.le_refl _, fun _ _ => rfl, fun _ _ h => h, hm⟩
    | none =>
      have hna : n ∉ args := by
        intro hc; obtain ⟨m, h⟩ := hargs n hc; rw [hm] at h; cases h
      have hs : sub n = none := hsub n hna
      have hnode : s.heap.node n = H.node n := J.old n hn
      have hnlt : n < s.heap.size := Nat.lt_of_lt_of_le hn J.size
      have leaf : ∀ x, x.inputs = [] →
          value I (fun j => if j = s.heap.size then x else s.heap.node j) E (fun _ => none)
            s.heap.size = value I H.node env sub n →
          Post I H E env sub n s.heap.size s (alloc n x s).2 := by
        intro x hx hv
        refine ⟨alloc_inv J n hn x (by rw [hx]; intro a ha; cases ha) hv, by simp [alloc], ?_, ?_, ?_⟩
        · intro j hj; simp [alloc, Nat.ne_of_lt hj]
        · intro j v hj
          have : j ≠ n := by rintro rfl; rw [hm] at hj; cases hj
          simp [alloc, this, hj]
        · simp [alloc]
      cases hk : H.node n with
      | cst c =>
        refine ⟨s.heap.size, (alloc n (.cst c) s).2, ?_, leaf _ rfl ?_⟩
        · simp only [copy, hm, hnode, hk]; rfl
        · rw [value, value, hs, hk]; simp
      | var x b =>
        have hx := hfree n x b hw hna hk
        cases b with
        | true =>
          refine ⟨n, { s with map := fun j => if j = n then some n else s.map j }, ?_, ?_⟩
          · simp only [copy, hm, hnode, hk]
          · refine ⟨⟨J.size, J.old, J.oldT, J.ordered, ?_, J.ins⟩, Nat.le_refl _, fun _ _ => rfl, ?_, ?_⟩
            · intro j m hj
              by_cases hjn : j = n
              · subst hjn
                have : j = m := by simpa using hj
                subst this
                refine ⟨hnlt, fun _ => by rw [hk]; trivial, (J.oldT j hn).2, ?_⟩
                rw [value, value, hs]
                simp only [hnode, hk]
                exact hx
              · exact J.map j m (by simpa [hjn] using hj)
            · intro j v hj
              have : j ≠ n := by rintro rfl; rw [hm] at hj; cases hj
              simp [this, hj]
            · simp
        | false =>
          refine ⟨s.heap.size, (alloc n (.var x false) s).2, ?_, leaf _ rfl ?_⟩
          · simp only [copy, hm, hnode, hk]; rfl
          · rw [value, value, hs, hk]; simpa using hx
      | table nw c k =>
        refine ⟨s.heap.size, (alloc n (.table nw c k) s).2, ?_, leaf _ rfl ?_⟩
        · simp only [copy, hm, hnode, hk]; rfl
        · rw [value, value, hs, hk]; simp
      | op f ins =>
        have hinp : (H.node n).inputs = ins := by rw [hk]; rfl
        obtain ⟨ms, s1, h1, J1, g1, e1, m1, F1⟩ := copyL_ok (I := I) (H := H) (E := E) (env := env)
          (sub := sub) (copy fuel)
          (fun s => (∀ j ∈ args, ∃ m, s.map j = some m) ∧
            (∀ j < H.size, ∀ k, H.node j = .table true true k → s.map j ≠ none))
          (by
            rintro s s' ⟨p1, p2⟩ hmono
            refine ⟨fun j hj => ?_, fun j hj k hk => ?_⟩
            · obtain ⟨m, h⟩ := p1 j hj; exact ⟨m, hmono _ _ h⟩
            · cases h : s.map j with
              | none => exact absurd h (p2 j hj k hk)
              | some v => rw [hmono _ _ h]; simp)
          ins
          (fun a ha s J hp => by
            have hlt := hH n hn a (by rw [hinp]; exact ha)
            exact copy_ok hH hsub hfree fuel a (by omega) (by omega)
              (.step hw hna (by rw [hinp]; exact ha)) s J hp.1 hp.2)
          s J ⟨hargs, htab⟩
        have hms : ∀ b ∈ ms, b < s1.heap.size ∧ (b < H.size → Shared (H.node b)) := by
          intro b hb
          obtain ⟨a, hab⟩ := forall₂_right F1 hb
          exact ⟨(J1.map a b hab).1, (J1.map a b hab).2.1⟩
        have hlow : ∀ m < s1.heap.size, value I (alloc n (.op f ms) s1).2.heap.node E
            (fun _ => none) m = value I s1.heap.node E (fun _ => none) m :=
          value_congr I E _ s1.heap.size (fun j hj => by simp [alloc, Nat.ne_of_lt hj])
        have hv : value I (alloc n (.op f ms) s1).2.heap.node E (fun _ => none) s1.heap.size =
            value I H.node env sub n := by
          have hself : (alloc n (.op f ms) s1).2.heap.node s1.heap.size = .op f ms := by
            simp [alloc]
          rw [value, value, hs, hk]
          simp only [hself]
          congr 1
          have hins : ∀ a ∈ ins, a < n := fun a ha => hH n hn a (by rw [hinp]; exact ha)
          refine forall₂_map F1 fun a ha b hb hab => ?_
          rw [dif_pos (hms b hb).1, dif_pos (hins a ha), hlow b (hms b hb).1]
          exact (J1.map a b hab).2.2.2
        refine ⟨s1.heap.size, (alloc n (.op f ms) s1).2, ?_, ?_⟩
        · simp only [copy, hm, hnode, hk, h1]; rfl
        · refine ⟨alloc_inv J1 n hn (.op f ms) hms hv, ?_, ?_, ?_, ?_⟩
          · have : (alloc n (.op f ms) s1).2.heap.size = s1.heap.size + 1 := rfl
            omega
          · intro j hj
            rw [← e1 j hj]
            have : j ≠ s1.heap.size := by omega
            simp [alloc, this]
          · intro j v hj
            have : j ≠ n := by rintro rfl; rw [hm] at hj; cases hj
            simp [alloc, this, m1 j v hj]
          · simp [alloc]

theorem addArgs_params {H : Heap} : ∀ (args : List ℕ) (i : ℕ) (s : St),
    (∀ a ∈ args, a < H.size) → H.size ≤ s.heap.size →
    (∀ n < H.size, s.heap.node n = H.node n ∧ s.heap.tag n = H.tag n ∧ s.heap.fmt n = H.fmt n) →
    (addArgs i args s).1 = args.mapIdx fun k a =>
      ((getTag H a).getD ("arg_" ++ toString (i + k)), H.fmt a)
  | [], _, _, _, _, _ => rfl
  | a :: l, i, s, ha, hz, hs => by
    have hal := ha a (by simp)
    have ih := addArgs_params (H := H) l (i + 1)
      (alloc a (.var ((getTag s.heap a).getD ("arg_" ++ toString i)) true) s).2
      (fun b hb => ha b (List.mem_cons_of_mem _ hb)) (by simp [alloc]; omega)
      (by
        intro n hn
        have : n ≠ s.heap.size := by omega
        simpa [alloc, this] using hs n hn)
    have hg : getTag s.heap a = getTag H a := by
      unfold getTag; rw [(hs a hal).1, (hs a hal).2.1]
    rw [hg] at ih
    have hfun : (fun (k : ℕ) (a : ℕ) => ((getTag H a).getD ("arg_" ++ toString (i + (k + 1))),
        H.fmt a)) = fun k a => ((getTag H a).getD ("arg_" ++ toString (i + 1 + k)), H.fmt a) := by
      funext k a
      rw [show i + (k + 1) = i + 1 + k by omega]
    simp only [addArgs, List.mapIdx_cons, hg, (hs a hal).2.2, Nat.add_zero]
    rw [hfun, ih]

theorem addArgs_inv {I : Interp V} {H : Heap} {E env : String → V} {sub : ℕ → Option V}
    (vals : ℕ → V) : ∀ (args : List ℕ) (i : ℕ) (s : St), Inv I H E env sub s →
    (∀ a ∈ args, a < H.size) → (∀ a ∈ args, sub a = some (vals a)) →
    (∀ (k a : ℕ), args[k]? = some a → E ((getTag H a).getD ("arg_" ++ toString (i + k))) = vals a) →
    Inv I H E env sub (addArgs i args s).2 ∧
      (∀ j, s.map j ≠ none → (addArgs i args s).2.map j ≠ none) ∧
      ∀ j ∈ args, (addArgs i args s).2.map j ≠ none
  | [], _, s, J, _, _, _ => ⟨J, fun _ h => h, by intro j h; cases h⟩
  | a :: l, i, s, J, ha, hsub, hE => by
    have hal := ha a (by simp)
    have hg : getTag s.heap a = getTag H a := by
      unfold getTag; rw [J.old a hal, (J.oldT a hal).1]
    obtain ⟨x, hx⟩ : ∃ x, x = (getTag s.heap a).getD ("arg_" ++ toString i) := ⟨_, rfl⟩
    have hEx : E x = vals a := by
      have := hE 0 a (by simp)
      rw [hx, hg]; simpa using this
    have J1 : Inv I H E env sub (alloc a (.var x true) s).2 := by
      refine alloc_inv J a hal _ (by intro b hb; cases hb) ?_
      rw [value, value, hsub a (by simp)]
      simp [alloc, hEx]
    obtain ⟨J2, m2, a2⟩ := addArgs_inv vals l (i + 1) _ J1
      (fun b hb => ha b (List.mem_cons_of_mem _ hb))
      (fun b hb => hsub b (List.mem_cons_of_mem _ hb))
      (by
        intro k b hk
        have := hE (k + 1) b (by simpa using hk)
        rw [show i + 1 + k = i + (k + 1) by omega]; exact this)
    have hself : (alloc a (.var x true) s).2.map a ≠ none := by simp [alloc]
    simp only [addArgs, ← hx]
    refine ⟨J2, fun j hj => m2 j ?_, ?_⟩
    · by_cases h : j = a
      · rw [h]; exact hself
      · simpa [alloc, h] using hj
    · intro j hj
      rcases List.mem_cons.1 hj with rfl | hj
      · exact m2 _ hself
      · exact a2 j hj

/-- Everything about a call of `generate` for one interpretation. -/
theorem generate_ok (arith : ℕ → Bool) (H : Heap) (hH : H.Ordered) (root : ℕ)
    (hr : root < H.size) (args : List ℕ) (ha : ∀ a ∈ args, a < H.size) (result : Option ℕ)
    (out : ℕ) (hout : result.or (H.fmt root) = some out)
    (hT : ∀ a ∈ args, ∀ k, H.node a ≠ .table true true k)
    (I : Interp V) (E env : String → V) (vals : ℕ → V)
    (hE : ∀ (k a : ℕ), args[k]? = some a → E ((getTag H a).getD ("arg_" ++ toString k)) = vals a)
    (hfree : ∀ j x b, Within H args root j → j ∉ args → H.node j = .var x b → E x = env x) :
    ∃ F s, generate arith H root args result = some (F, s.heap) ∧ F.out = out ∧
      F.params = (args.mapIdx fun k a =>
        ((getTag H a).getD ("arg_" ++ toString k), H.fmt a)) ∧
      F.returns = isArith arith (H.node root) ∧
      Inv I H E env (fun j => if j ∈ args then some (vals j) else none) s ∧
      s.map root = some F.body := by
  have J0 : Inv I H E env (fun j => if j ∈ args then some (vals j) else none)
      ⟨H, fun _ => none⟩ :=
    ⟨Nat.le_refl _, fun _ _ => rfl, fun _ _ => ⟨rfl, rfl⟩, hH,
      (by intro n m h; cases h), (by intro m h h'; exact absurd h (by simp at h'; omega))⟩
  obtain ⟨J1, _, a1⟩ := addArgs_inv vals args 0 _ J0 ha (by intro a h; simp [h])
    (by simpa using hE)
  have hps := addArgs_params (H := H) args 0 ⟨H, fun _ => none⟩ ha (Nat.le_refl _)
    (fun _ _ => ⟨rfl, rfl, rfl⟩)
  obtain ⟨s1, hs1⟩ : ∃ s1, s1 = (addArgs 0 args ⟨H, fun _ => none⟩).2 := ⟨_, rfl⟩
  rw [← hs1] at J1 a1
  have hother : ∀ j, (∀ k, H.node j = .table true true k → ¬ j < H.size) →
      (addTables H s1).map j = s1.map j := by
    intro j hj
    simp only [addTables]
    split
    · next k hk => rw [if_neg (hj k hk)]
    · rfl
  have htab : ∀ j < H.size, ∀ k, H.node j = .table true true k →
      (addTables H s1).map j = some j := by
    intro j hj k hk; simp [addTables, hk, hj]
  have J2 : Inv I H E env (fun j => if j ∈ args then some (vals j) else none)
      (addTables H s1) := by
    refine ⟨J1.size, J1.old, J1.oldT, J1.ordered, ?_, J1.ins⟩
    intro n m hm
    by_cases h : ∃ k, H.node n = .table true true k ∧ n < H.size
    · obtain ⟨k, hk, hn⟩ := h
      have hnm : n = m := by
        have := htab n hn k hk
        rw [hm] at this; exact (Option.some.inj this).symm
      subst hnm
      refine ⟨Nat.lt_of_lt_of_le hn J1.size, fun _ => by rw [hk]; trivial, (J1.oldT n hn).2, ?_⟩
      have hna : n ∉ args := fun hc => hT n hc k hk
      have hold : (addTables H s1).heap.node n = H.node n := J1.old n hn
      rw [value, value, hold, hk]
      simp [hna]
    · rw [hother n (fun k hk hn => h ⟨k, hk, hn⟩)] at hm
      exact J1.map n m hm
  obtain ⟨m, s2, h2, p2⟩ := copy_ok hH (args := args) (root := root) (by intro j hj; simp [hj])
    hfree (root + 1) root (by omega) hr .root _ J2
    (by
      intro j hj
      have := a1 j hj
      rw [hother j (fun k hk _ => hT j hj k hk)]
      cases h : s1.map j with
      | none => exact absurd h this
      | some v => exact ⟨v, rfl⟩)
    (by intro j hj k hk; rw [htab j hj k hk]; simp)
  refine ⟨⟨(addArgs 0 args ⟨H, fun _ => none⟩).1, out, m, isArith arith (H.node root)⟩, s2,
    ?_, rfl, by simpa using hps, rfl, p2.inv, p2.done⟩
  cases result with
  | some f =>
    obtain rfl : f = out := by simpa using hout
    simp only [generate]
    rw [← hs1, h2]
  | none =>
    have ho : H.fmt root = some out := by simpa using hout
    simp only [generate, ho]
    rw [← hs1, h2]

/-- **C134**: a function can be made from every expression graph whose result format is
known.  Its parameters are the arguments in order, with their formats, and it is declared
with the format asked for, or else the one of the expression.  Called with any values
for the arguments, it computes the expression in which the arguments have these values,
provided the variables which are not arguments have the same value in the function.
What is missing: arguments which are constant tables, expressions which are not
arithmetic operations, parameters with the same name; see the theorems below. -/
theorem C134_call_partial (arith : ℕ → Bool) (H : Heap) (hH : H.Ordered) (root : ℕ)
    (hr : root < H.size) (args : List ℕ) (ha : ∀ a ∈ args, a < H.size) (result : Option ℕ)
    (out : ℕ) (hout : result.or (H.fmt root) = some out)
    (hT : ∀ a ∈ args, ∀ k, H.node a ≠ .table true true k) :
    ∃ F H', generate arith H root args result = some (F, H') ∧
      F.out = out ∧ F.params.map (·.2) = args.map H.fmt ∧ H'.fmt F.body = H.fmt root ∧
      ∀ {V : Type} [Inhabited V] (I : Interp V) (E env : String → V) (vals : ℕ → V),
        (∀ (k a : ℕ) p, args[k]? = some a → F.params[k]? = some p → E p.1 = vals a) →
        (∀ j x b, Within H args root j → j ∉ args → H.node j = .var x b → E x = env x) →
        value I H'.node E (fun _ => none) F.body =
          value I H.node env (fun j => if j ∈ args then some (vals j) else none) root := by
  obtain ⟨F, s, h, ho, hp, _, J, hm⟩ := generate_ok (V := Unit) arith H hH root hr args ha
    result out hout hT ⟨fun _ => (), fun _ => (), fun _ _ => ()⟩ (fun _ => ()) (fun _ => ())
    (fun _ => ()) (fun _ _ _ => rfl) (fun _ _ _ _ _ _ => rfl)
  refine ⟨F, s.heap, h, ho, ?_, (J.map _ _ hm).2.2.1, ?_⟩
  · rw [hp]
    apply List.ext_getElem?
    intro i
    cases h : args[i]? <;> simp [h]
  · intro V _ I E env vals hE hfree
    obtain ⟨F', s', h', _, hp', _, J', hm'⟩ := generate_ok arith H hH root hr args ha
      result out hout hT I E env vals
      (by
        intro k a hk
        have := hE k a _ hk (by rw [hp]; simp [hk]; rfl)
        simpa using this) hfree
    rw [h] at h'
    have hF : F = F' := by injection h' with h'; injection h'
    have hs : s.heap = s'.heap := by injection h' with h'; injection h'
    rw [hF, hs]
    exact (J'.map _ _ hm').2.2.2

theorem value_sub (I : Interp V) (node : ℕ → Node) (env : String → V) (args : List ℕ) (n : ℕ) :
    value I node env (fun j => if j ∈ args then some (value I node env (fun _ => none) j)
      else none) n = value I node env (fun _ => none) n := by
  induction n using Nat.strongRecOn with
  | ind n ih =>
    by_cases h : n ∈ args
    · rw [value]; simp [h]
    · rw [value]; conv_rhs => rw [value]
      simp only [if_neg h]
      cases node n with
      | op f ins =>
        simp only
        congr 1
        refine List.map_congr_left fun a _ => ?_
        by_cases ha : a < n
        · rw [dif_pos ha, dif_pos ha]; exact ih a ha
        · rw [dif_neg ha, dif_neg ha]
      | _ => rfl

/-- **C134**: replacing the expression by a call with the arguments' own values changes
nothing. -/
theorem C134_call_site_partial (arith : ℕ → Bool) (H : Heap) (hH : H.Ordered) (root : ℕ)
    (hr : root < H.size) (args : List ℕ) (ha : ∀ a ∈ args, a < H.size) (result : Option ℕ)
    (out : ℕ) (hout : result.or (H.fmt root) = some out)
    (hT : ∀ a ∈ args, ∀ k, H.node a ≠ .table true true k) :
    ∃ F H', generate arith H root args result = some (F, H') ∧
      ∀ {V : Type} [Inhabited V] (I : Interp V) (E env : String → V),
        (∀ (k a : ℕ) p, args[k]? = some a → F.params[k]? = some p →
          E p.1 = value I H.node env (fun _ => none) a) →
        (∀ j x b, Within H args root j → j ∉ args → H.node j = .var x b → E x = env x) →
        value I H'.node E (fun _ => none) F.body = value I H.node env (fun _ => none) root := by
  obtain ⟨F, H', h, _, _, _, hv⟩ := C134_call_partial arith H hH root hr args ha result out hout hT
  refine ⟨F, H', h, fun {V} _ I E env hE hfree => ?_⟩
  rw [hv I E env _ hE hfree, value_sub]

/-- **C134**: the original graph is not modified, and the function has only input
variables and constant tables in common with it: whatever is done to the function later
does not touch the original operations. -/
theorem C134_separate (arith : ℕ → Bool) (H : Heap) (hH : H.Ordered) (root : ℕ)
    (hr : root < H.size) (args : List ℕ) (ha : ∀ a ∈ args, a < H.size) (result : Option ℕ)
    (out : ℕ) (hout : result.or (H.fmt root) = some out)
    (hT : ∀ a ∈ args, ∀ k, H.node a ≠ .table true true k) :
    ∃ F H', generate arith H root args result = some (F, H') ∧
      (∀ n < H.size, H'.node n = H.node n ∧ H'.tag n = H.tag n ∧ H'.fmt n = H.fmt n) ∧
      ∀ m, Below H' F.body m → m < H.size →
        (∃ x, H.node m = .var x true) ∨ ∃ k, H.node m = .table true true k := by
  obtain ⟨F, s, h, ho, hp, _, J, hm⟩ := generate_ok (V := Unit) arith H hH root hr args ha
    result out hout hT ⟨fun _ => (), fun _ => (), fun _ _ => ()⟩ (fun _ => ()) (fun _ => ())
    (fun _ => ()) (fun _ _ _ => rfl) (fun _ _ _ _ _ _ => rfl)
  refine ⟨F, s.heap, h, fun n hn => ⟨J.old n hn, J.oldT n hn⟩, ?_⟩
  have key : ∀ m, Below s.heap F.body m → m < s.heap.size ∧ (m < H.size → Shared (H.node m)) := by
    intro m hb
    induction hb with
    | root => exact ⟨(J.map _ _ hm).1, (J.map _ _ hm).2.1⟩
    | step _ hi ih =>
      rename_i n a _
      have hlt := J.ordered n ih.1 a hi
      refine ⟨by omega, fun hal => ?_⟩
      by_cases hn : n < H.size
      · have := ih.2 hn
        rw [J.old n hn] at hi
        cases hk : H.node n with
        | op f ins => rw [hk] at this; exact absurd this (by simp [Shared])
        | _ => rw [hk] at hi; cases hi
      · exact J.ins n (by omega) ih.1 a hi hal
  intro m hb hlt
  have := (key m hb).2 hlt
  cases hk : H.node m with
  | cst c => rw [hk] at this; exact absurd this (by simp [Shared])
  | op f ins => rw [hk] at this; exact absurd this (by simp [Shared])
  | var x b => cases b with
    | true => exact Or.inl ⟨x, rfl⟩
    | false => rw [hk] at this; exact absurd this (by simp [Shared])
  | table nw c k =>
    cases nw <;> cases c <;> rw [hk] at this
    · exact absurd this (by simp [Shared])
    · exact absurd this (by simp [Shared])
    · exact absurd this (by simp [Shared])
    · exact Or.inr ⟨k, rfl⟩

/-- Nothing is generated when no format is known for the result. -/
theorem C134_no_format (arith : ℕ → Bool) (H : Heap) (root : ℕ) (args : List ℕ)
    (h : H.fmt root = none) : generate arith H root args none = none := by
  simp [generate, h]

/-- When all the arguments have tags, and different ones, these are the names of the
parameters and no two parameters have the same name.
What is missing: C134_same_name_wrong. -/
theorem C134_names_partial (arith : ℕ → Bool) (H : Heap) (hH : H.Ordered) (root : ℕ)
    (hr : root < H.size) (args : List ℕ) (ha : ∀ a ∈ args, a < H.size) (result : Option ℕ)
    (out : ℕ) (hout : result.or (H.fmt root) = some out)
    (hT : ∀ a ∈ args, ∀ k, H.node a ≠ .table true true k) (tags : List String)
    (ht : args.map (getTag H) = tags.map some) (hd : tags.Nodup) :
    ∃ F H', generate arith H root args result = some (F, H') ∧ F.params.map (·.1) = tags ∧
      (F.params.map (·.1)).Nodup := by
  obtain ⟨F, s, h, ho, hp, _, J, hm⟩ := generate_ok (V := Unit) arith H hH root hr args ha
    result out hout hT ⟨fun _ => (), fun _ => (), fun _ _ => ()⟩ (fun _ => ()) (fun _ => ())
    (fun _ => ()) (fun _ _ _ => rfl) (fun _ _ _ _ _ _ => rfl)
  have hn : F.params.map (·.1) = tags := by
    rw [hp]
    apply List.ext_getElem?
    intro i
    have := congrArg (fun l => l[i]?) ht
    simp only [List.getElem?_map] at this
    simp only [List.getElem?_map, List.getElem?_mapIdx, Option.map_map]
    cases h1 : args[i]? with
    | none => cases h2 : tags[i]? with
      | none => rfl
      | some t => rw [h1, h2] at this; cases this
    | some a => cases h2 : tags[i]? with
      | none => rw [h1, h2] at this; cases this
      | some t =>
        rw [h1, h2] at this
        have hg : getTag H a = some t := by simpa using this
        simp [hg]
  exact ⟨F, s.heap, h, hn, by rw [hn]; exact hd⟩

/-- Two different arguments can give two parameters of the same name. -/
theorem C134_same_name_wrong : ∃ (H : Heap) (root : ℕ) (args : List ℕ) (F : Fn) (H' : Heap),
    H.Ordered ∧ root < H.size ∧ (∀ a ∈ args, a < H.size) ∧ args.Nodup ∧
    generate (fun _ => true) H root args none = some (F, H') ∧
    ¬ (F.params.map (·.1)).Nodup := by
  refine ⟨⟨fun n => match n with
      | 0 => .var "x" true
      | 1 => .var "arg_2" true
      | 2 => .op 0 [0]
      | _ => .op 1 [0, 1, 2], fun _ => none, fun _ => some 32, 4⟩, 3, [0, 1, 2], _, _, ?_,
    by decide, by decide, by decide, rfl, by decide⟩
  intro n hn a ha
  match n with
  | 0 => cases ha
  | 1 => cases ha
  | 2 => simp [Node.inputs] at ha; omega
  | 3 => simp [Node.inputs] at ha; omega
  | n + 4 => exact absurd hn (by simp)

/-- The function returns its result exactly when the expression is an arithmetic
operation. -/
theorem C134_return_partial (arith : ℕ → Bool) (H : Heap) (root : ℕ) (args : List ℕ)
    (result : Option ℕ) (F : Fn) (H' : Heap)
    (h : generate arith H root args result = some (F, H')) :
    F.returns = true ↔ ∃ f ins, H.node root = .op f ins ∧ arith f = true := by
  have hret : F.returns = isArith arith (H.node root) := by
    unfold generate at h
    split at h
    · cases h
    · simp only at h
      split at h
      · cases h
      · injection h with h; injection h with h _; rw [← h]
  rw [hret]
  cases H.node root <;> simp [isArith]

/-- The function made from a variable, a constant, a table or a call to another function
(operation 3 below, not of an arithmetic class) returns nothing, though the format of
its result is declared. -/
theorem C134_no_return_wrong : ∃ (H : Heap) (F : Fn) (H' : Heap),
    H.Ordered ∧ H.node 1 = .op 3 [0] ∧
    generate (fun f => f ≠ 3) H 1 [0] none = some (F, H') ∧ F.out = 32 ∧ F.returns = false := by
  refine ⟨⟨fun n => match n with
      | 0 => .var "x" true
      | _ => .op 3 [0], fun _ => none, fun _ => some 32, 2⟩, _, _, ?_, rfl, rfl, rfl, by decide⟩
  intro n hn a ha
  match n with
  | 0 => cases ha
  | 1 => simp [Node.inputs] at ha; omega
  | n + 2 => exact absurd hn (by simp)

/-- A constant table given as an argument is not replaced by the parameter: the function
computes with the table whatever it is called with. -/
theorem C134_table_argument_wrong : ∃ (H : Heap) (root t : ℕ) (F : Fn) (H' : Heap),
    H.Ordered ∧ root < H.size ∧ t < H.size ∧
    generate (fun _ => true) H root [t] none = some (F, H') ∧
    ∀ {V : Type} [Inhabited V] (I : Interp V) (E : String → V),
      value I H'.node E (fun _ => none) F.body = I.op 0 [I.table 5] := by
  refine ⟨⟨fun n => match n with
      | 0 => .table true true 5
      | _ => .op 0 [0], fun _ => some "t", fun _ => some 32, 2⟩, 1, 0, _, _, ?_, by decide,
    by decide, rfl, ?_⟩
  · intro n hn a ha
    match n with
    | 0 => cases ha
    | 1 => simp [Node.inputs] at ha; omega
    | n + 2 => exact absurd hn (by simp)
  · intro V _ I E
    rw [value]
    simp [alloc, addArgs, addTables]
    rw [value]
    simp

/-- A table which is written is duplicated: the function reads and writes a table of its
own. -/
theorem C134_mutable_table_wrong : ∃ (H : Heap) (root t : ℕ) (F : Fn) (H' : Heap),
    H.Ordered ∧ root < H.size ∧ H.node t = .table true false 5 ∧ Below H root t ∧
    generate (fun _ => true) H root [] none = some (F, H') ∧
    ∃ f t', H'.node F.body = .op f [t'] ∧ H'.node t' = .table true false 5 ∧ t' ≠ t := by
  refine ⟨⟨fun n => match n with
      | 0 => .table true false 5
      | _ => .op 0 [0], fun _ => none, fun _ => some 32, 2⟩, 1, 0, _, _, ?_, by decide,
    rfl, .step .root (by decide), rfl, 0, 2, rfl, rfl, by decide⟩
  intro n hn a ha
  match n with
  | 0 => cases ha
  | 1 => simp [Node.inputs] at ha; omega
  | n + 2 => exact absurd hn (by simp)

/-- The method of the externalizer object always fails: it gives the tag twice. -/
theorem C134_externalizer_wrong (factory optree args tag result : ℕ) :
    externalizerCall factory optree args tag result = none := by
  simp [externalizerCall, bind]

/-! A non-trivial case: `(x * x) + table[x]`, with `x * x` as the argument and `x` free. -/

def sample : Heap :=
  ⟨fun n => match n with
    | 0 => .var "x" true
    | 1 => .op 0 [0, 0]
    | 2 => .table true true 5
    | 3 => .op 1 [2, 0]
    | _ => .op 2 [1, 3], fun n => if n = 1 then some "sq" else none, fun _ => some 32, 5⟩

example : sample.Ordered := by
  intro n hn a ha
  match n with
  | 0 => cases ha
  | 1 => simp [sample, Node.inputs] at ha; omega
  | 2 => cases ha
  | 3 => simp [sample, Node.inputs] at ha; omega
  | 4 => simp [sample, Node.inputs] at ha; omega
  | n + 5 => exact absurd hn (by simp [sample])
example : (generate (fun _ => true) sample 4 [1] none).map (fun p => (p.1.params, p.1.out,
    p.1.body, p.2.node 5, p.2.node 6, p.2.node 7)) =
    some ([("sq", some 32)], 32, 7, .var "sq" true, .op 1 [2, 0], .op 2 [5, 6]) := by decide
example : (4 < sample.size) ∧ (∀ a ∈ [1], a < sample.size) ∧
    (none : Option ℕ).or (sample.fmt 4) = some 32 ∧
    [1].map (getTag sample) = ["sq"].map some := by decide

end Verif.Extern
