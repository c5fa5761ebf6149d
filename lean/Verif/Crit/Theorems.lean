import Verif.Crit.Model
import Mathlib.Order.Bounds.Basic
import Mathlib.Tactic.Linarith
import Mathlib.Tactic.NormNum

/-! # Theorems about the critical path report (property C91) -/

namespace Verif.Crit

theorem N.ind {P : N → Prop} {Q : List N → Prop} (hc : P .cst) (hs : ∀ x, P (.sig x)) (ho : ∀ i k args, Q args → P (.op i k args)) (hn : Q [])
    (hcons : ∀ e es, P e → Q es → Q (e :: es)) : (∀ e, P e) ∧ ∀ es, Q es := by
  constructor
  · intro e
    exact N.rec (motive_1 := P) (motive_2 := Q) hc hs ho hn hcons e
  · intro es
    induction es with
    | nil => exact hn
    | cons e es ih => exact hcons e es (N.rec (motive_1 := P) (motive_2 := Q) hc hs ho hn hcons e) ih

theorem foldl_max (ls : List ℝ) : ∀ a : ℝ, (ls.foldl max a = a ∨ ls.foldl max a ∈ ls) ∧ a ≤ ls.foldl max a ∧ ∀ b ∈ ls, b ≤ ls.foldl max a := by
  induction ls with
  | nil => intro a; simp
  | cons c ls ih =>
    intro a
    obtain ⟨h1, h2, h3⟩ := ih (max a c)
    simp only [List.foldl_cons]
    refine ⟨?_, le_trans (le_max_left a c) h2, ?_⟩
    · rcases h1 with h | h
      · rw [h]
        rcases max_choice a c with h' | h' <;> rw [h'] <;> simp
      · right; simp [h]
    · intro b hb
      rcases List.mem_cons.mp hb with rfl | hb
      · exact le_trans (le_max_right a b) h2
      · exact h3 b hb

theorem maxL_spec (ls : List ℝ) (h : ls ≠ []) : maxL ls ∈ ls ∧ ∀ b ∈ ls, b ≤ maxL ls := by
  cases ls with
  | nil => exact absurd rfl h
  | cons a ls =>
    obtain ⟨h1, h2, h3⟩ := foldl_max ls a
    simp only [maxL]
    refine ⟨?_, ?_⟩
    · rcases h1 with h | h
      · rw [h]; simp
      · simp [h]
    · intro b hb
      rcases List.mem_cons.mp hb with rfl | hb
      · exact h2
      · exact h3 b hb

/-! ## Every reported latency is that of a path -/

/-- what the map holds are paths -/
structure Sound (C : Circuit) (U : N → Prop) (m : M) : Prop where
  op : ∀ i k args l, U (.op i k args) → m.op i = some l → Path delay C (.op i k args) l
  sig : ∀ x l, m.sig x = some l → Path delay C (.sig x) l
  best : ∃ a, (a = .cst ∨ U a ∨ ∃ p ∈ C, a = .sig p.1) ∧ Path delay C a m.best

theorem ev_sound (C : Circuit) (U : N → Prop) (hU : ∀ i k args k' args', U (.op i k args) → U (.op i k' args') → k = k' ∧ args = args')
    (hF : ∀ i k args, U (.op i k args) → args ≠ []) :
    (∀ e : N, ∀ m, (∀ a ∈ e.ops, U a) → Sound C U m → Sound C U (ev e m).1 ∧ Path delay C e (ev e m).2) ∧
    ∀ es : List N, ∀ m, (∀ a ∈ N.opsL es, U a) → Sound C U m → Sound C U (evL es m).1 ∧ List.Forall₂ (Path delay C) es (evL es m).2 := by
  refine N.ind ?_ ?_ ?_ ?_ ?_
  · intro m _ h
    exact ⟨h, .cst⟩
  · intro x m _ h
    refine ⟨h, ?_⟩
    simp only [ev]
    cases hx : m.sig x with
    | none => exact .start x
    | some l => exact h.sig x l hx
  · intro i k args ih m hops h
    have hUo : U (.op i k args) := hops _ (by simp [N.ops])
    cases hm : m.op i with
    | some l =>
      have hl : ev (.op i k args) m = (m, l) := by simp only [ev, hm]
      rw [hl]
      exact ⟨h, h.op i k args l hUo hm⟩
    | none =>
      obtain ⟨h1, h2⟩ := ih m (fun a ha => hops a (by simp [N.ops, ha])) h
      have hl : ev (.op i k args) m = ({ (evL args m).1 with op := Function.update (evL args m).1.op i (some (delay k + maxL (evL args m).2)), best := max (evL args m).1.best (delay k + maxL (evL args m).2) },
          delay k + maxL (evL args m).2) := by simp only [ev, hm]
      rw [hl]
      generalize evL args m = r at h1 h2
      have hp : Path delay C (.op i k args) (delay k + maxL r.2) := by
        have hne : r.2 ≠ [] := by
          intro h0
          rw [h0] at h2
          cases h2
          exact hF i k [] hUo rfl
        obtain ⟨h3, _⟩ := maxL_spec r.2 hne
        have hex : ∃ a ∈ args, Path delay C a (maxL r.2) := by
          clear hne hl ih hops hUo h hm
          generalize maxL r.2 = v at h3
          generalize r.2 = ls at h2 h3
          induction h2 with
          | nil => cases h3
          | cons hp _ ih =>
            rcases List.mem_cons.mp h3 with rfl | h3
            · exact ⟨_, by simp, hp⟩
            · obtain ⟨a, ha, hpa⟩ := ih h3
              exact ⟨a, by simp [ha], hpa⟩
        obtain ⟨a, ha, hpa⟩ := hex
        exact .op i k args a _ ha hpa
      refine ⟨⟨?_, h1.sig, ?_⟩, hp⟩
      · intro j k' args' l hUj hj
        simp only [Function.update_apply] at hj
        split_ifs at hj with hji
        · cases hj
          subst hji
          obtain ⟨rfl, rfl⟩ := hU j k' args' k args hUj hUo
          exact hp
        · exact h1.op j k' args' l hUj hj
      · simp only
        rcases max_choice r.1.best (delay k + maxL r.2) with h' | h' <;> rw [h']
        · exact h1.best
        · exact ⟨_, Or.inr (Or.inl hUo), hp⟩
  · intro m _ h
    exact ⟨h, .nil⟩
  · intro e es h1 h2 m hops h
    obtain ⟨g1, g2⟩ := h1 m (fun a ha => hops a (by simp [N.opsL, ha])) h
    obtain ⟨g3, g4⟩ := h2 (ev e m).1 (fun a ha => hops a (by simp [N.opsL, ha])) g1
    simp only [evL]
    exact ⟨g3, .cons g2 g4⟩

mutual
theorem ops_trans : ∀ (e : N) (i : ℕ) (k : Kind) (args : List N), N.op i k args ∈ e.ops → ∀ a ∈ N.opsL args, a ∈ e.ops
  | .cst, i, k, args, h, a, ha => by simp [N.ops] at h
  | .sig x, i, k, args, h, a, ha => by simp [N.ops] at h
  | .op j k' as, i, k, args, h, a, ha => by
    simp only [N.ops, List.mem_cons] at h ⊢
    rcases h with h | h
    · cases h; exact Or.inr ha
    · exact Or.inr (opsL_trans as i k args h a ha)
theorem opsL_trans : ∀ (es : List N) (i : ℕ) (k : Kind) (args : List N), N.op i k args ∈ N.opsL es → ∀ a ∈ N.opsL args, a ∈ N.opsL es
  | [], i, k, args, h, a, ha => by simp [N.opsL] at h
  | e :: es, i, k, args, h, a, ha => by
    simp only [N.opsL, List.mem_append] at h ⊢
    rcases h with h | h
    · exact Or.inl (ops_trans e i k args h a ha)
    · exact Or.inr (opsL_trans es i k args h a ha)
end

theorem mem_opsL (es : List N) (a e : N) (he : e ∈ es) (ha : a ∈ e.ops) : a ∈ N.opsL es := by
  induction es with
  | nil => cases he
  | cons b es ih =>
    simp only [N.opsL, List.mem_append]
    rcases List.mem_cons.mp he with rfl | he
    · exact Or.inl ha
    · exact Or.inr (ih he)

/-- the operation nodes of a circuit -/
def Of (C : Circuit) (a : N) : Prop := ∃ p ∈ C, a ∈ p.2.ops

/-- every node popped is a node of the circuit -/
theorem bfs_sub (C : Circuit) : ∀ (n : ℕ) (q done : List N), (∀ a ∈ q, ∀ b ∈ a.ops, Of C b) → (∀ a ∈ done, ∀ b ∈ a.ops, Of C b) →
    ∀ a ∈ bfs n q done, ∀ b ∈ a.ops, Of C b := by
  intro n
  induction n with
  | zero => intro q done _ hd a ha; exact hd a ha
  | succ n ih =>
    intro q done hq hd a ha
    cases q with
    | nil => exact hd a ha
    | cons c q =>
      simp only [bfs] at ha
      split_ifs at ha with hc
      · exact ih q done (fun a ha => hq a (by simp [ha])) hd a ha
      · refine ih (q ++ c.inputs) (done ++ [c]) ?_ ?_ a ha
        · intro d hd' b hb
          rcases List.mem_append.mp hd' with h | h
          · exact hq d (by simp [h]) b hb
          · refine hq c (by simp) b ?_
            cases c with
            | cst => cases h
            | sig x => cases h
            | op i k args =>
              simp only [N.ops, List.mem_cons]
              exact Or.inr (mem_opsL args b d h hb)
        · intro d hd' b hb
          rcases List.mem_append.mp hd' with h | h
          · exact hd d h b hb
          · rw [List.mem_singleton] at h
            subst h
            exact hq d (by simp) b hb

theorem below_sub (C : Circuit) : ∀ a ∈ below C, ∀ b ∈ a.ops, Of C b := by
  refine bfs_sub C _ _ [] ?_ (by intro a h; cases h)
  intro a ha b hb
  rw [List.mem_flatMap] at ha
  obtain ⟨p, hp, ha⟩ := ha
  simp only [List.mem_cons, List.not_mem_nil, or_false] at ha
  rcases ha with rfl | rfl
  · simp [N.ops] at hb
  · exact ⟨p, hp, hb⟩

theorem of_same {C : Circuit} (hS : Same C) : ∀ i k args k' args', Of C (.op i k args) → Of C (.op i k' args') → k = k' ∧ args = args' := by
  rintro i k args k' args' ⟨p, hp, h⟩ ⟨q, hq, h'⟩
  exact hS p hp q hq i k args k' args' h h'

theorem of_full {C : Circuit} (hF : Full C) : ∀ i k args, Of C (.op i k args) → args ≠ [] := by
  rintro i k args ⟨p, hp, h⟩
  exact hF p hp i k args h

theorem assigns_sound (C : Circuit) (hF : Full C) (hS : Same C) : ∀ (l : List (ℕ × N)) (m : M), (∀ p ∈ l, p ∈ C) → Sound C (Of C) m → Sound C (Of C) (l.foldl evAssign m) := by
  intro l
  induction l with
  | nil => intro m _ h; exact h
  | cons p l ih =>
    intro m hl h
    simp only [List.foldl_cons]
    refine ih _ (fun q hq => hl q (by simp [hq])) ?_
    obtain ⟨h1, h2⟩ := (ev_sound C (Of C) (of_same hS) (of_full hF)).1 p.2 m (fun a ha => ⟨p, hl p (by simp), ha⟩) h
    have hp : Path delay C (.sig p.1) (ev p.2 m).2 := .driven p.1 p.2 _ (hl p (by simp)) h2
    unfold evAssign
    refine ⟨h1.op, ?_, ?_⟩
    · intro x l' hx
      simp only [Function.update_apply] at hx
      split_ifs at hx with hxp
      · cases hx; subst hxp; exact hp
      · exact h1.sig x l' hx
    · simp only
      rcases max_choice (ev p.2 m).1.best (ev p.2 m).2 with h' | h' <;> rw [h']
      · exact h1.best
      · exact ⟨_, Or.inr (Or.inr ⟨p, hl p (by simp), rfl⟩), hp⟩

/-- C91.  Whatever the circuit, the latency reported for a signal is the delay of a path that reaches it, and the longest one reported is the delay of a path of the circuit. -/
theorem C91_reported_is_a_path (C : Circuit) (hF : Full C) (hS : Same C) :
    (∀ x l, (report C).sig x = some l → Path delay C (.sig x) l) ∧
    ∃ a, (a = .cst ∨ (∃ p ∈ C, a ∈ p.2.ops) ∨ ∃ p ∈ C, a = .sig p.1) ∧ Path delay C a (report C).best := by
  have h0 : Sound C (Of C) M.init := ⟨fun _ _ _ _ _ h => (by cases h), fun _ _ h => (by cases h), .cst, Or.inl rfl, .cst⟩
  have h1 : Sound C (Of C) ((below C).reverse.foldl (fun m a => (ev a m).1) M.init) := by
    have : ∀ (l : List N) (m : M), (∀ a ∈ l, ∀ b ∈ a.ops, Of C b) → Sound C (Of C) m → Sound C (Of C) (l.foldl (fun m a => (ev a m).1) m) := by
      intro l
      induction l with
      | nil => intro m _ h; exact h
      | cons a l ih =>
        intro m hl h
        simp only [List.foldl_cons]
        exact ih _ (fun b hb => hl b (by simp [hb])) ((ev_sound C (Of C) (of_same hS) (of_full hF)).1 a m (hl a (by simp)) h).1
    exact this _ _ (fun a ha => below_sub C a (List.mem_reverse.mp ha)) h0
  have h2 := assigns_sound C hF hS C.reverse _ (fun p hp => List.mem_reverse.mp hp) h1
  exact ⟨h2.sig, h2.best⟩

/-! ## What is reported exactly: the paths of each expression alone -/

theorem ev_sig : (∀ e m, (ev e m).1.sig = m.sig) ∧ ∀ es m, (evL es m).1.sig = m.sig := by
  refine N.ind ?_ ?_ ?_ ?_ ?_
  · intro m; rfl
  · intro x m; rfl
  · intro i k args ih m
    cases hm : m.op i with
    | some l => simp only [ev, hm]
    | none => simp only [ev, hm, ih]
  · intro m; rfl
  · intro e es h1 h2 m
    simp only [evL, h2, h1]

theorem ev_keep : (∀ e m i l, m.op i = some l → (ev e m).1.op i = some l) ∧ ∀ es m i l, m.op i = some l → (evL es m).1.op i = some l := by
  refine N.ind ?_ ?_ ?_ ?_ ?_
  · intro m i l h; exact h
  · intro x m i l h; exact h
  · intro j k args ih m i l h
    cases hm : m.op j with
    | some l => simp only [ev, hm, h]
    | none =>
      simp only [ev, hm, Function.update_apply]
      rw [if_neg (by rintro rfl; rw [hm] at h; cases h)]
      exact ih m i l h
  · intro m i l h; exact h
  · intro e es h1 h2 m i l h
    simp only [evL]
    exact h2 _ i l (h1 m i l h)

/-- the map holds the greatest delay of the paths inside each operation -/
def Top (U : N → Prop) (m : M) : Prop := ∀ i k args l, U (.op i k args) → m.op i = some l → IsGreatest {v | Path delay [] (.op i k args) v} l

theorem path_nil_sig (x : ℕ) (l : ℝ) (h : Path delay [] (.sig x) l) : l = 0 := by
  cases h with
  | start => rfl
  | driven _ e _ hm _ => cases hm

theorem ev_top (U : N → Prop) (hU : ∀ i k args k' args', U (.op i k args) → U (.op i k' args') → k = k' ∧ args = args') (hF : ∀ i k args, U (.op i k args) → args ≠ []) :
    (∀ e : N, ∀ m, (∀ a ∈ e.ops, U a) → (∀ x, m.sig x = none) → Top U m → Top U (ev e m).1 ∧ IsGreatest {v | Path delay [] e v} (ev e m).2) ∧
    ∀ es : List N, ∀ m, (∀ a ∈ N.opsL es, U a) → (∀ x, m.sig x = none) → Top U m →
      Top U (evL es m).1 ∧ List.Forall₂ (fun e v => IsGreatest {v | Path delay [] e v} v) es (evL es m).2 := by
  refine N.ind ?_ ?_ ?_ ?_ ?_
  · intro m _ _ h
    refine ⟨h, .cst, ?_⟩
    intro v hv
    cases hv
    exact le_refl _
  · intro x m _ hs h
    refine ⟨h, ?_⟩
    simp only [ev, hs x, Option.getD_none]
    refine ⟨.start x, ?_⟩
    intro v hv
    rw [path_nil_sig x v hv]
  · intro i k args ih m hops hs h
    have hUo : U (.op i k args) := hops _ (by simp [N.ops])
    cases hm : m.op i with
    | some l =>
      have hl : ev (.op i k args) m = (m, l) := by simp only [ev, hm]
      rw [hl]
      exact ⟨h, h i k args l hUo hm⟩
    | none =>
      obtain ⟨h1, h2⟩ := ih m (fun a ha => hops a (by simp [N.ops, ha])) hs h
      have hl : ev (.op i k args) m = ({ (evL args m).1 with op := Function.update (evL args m).1.op i (some (delay k + maxL (evL args m).2)), best := max (evL args m).1.best (delay k + maxL (evL args m).2) },
          delay k + maxL (evL args m).2) := by simp only [ev, hm]
      rw [hl]
      generalize evL args m = r at h1 h2
      have hp : IsGreatest {v | Path delay [] (.op i k args) v} (delay k + maxL r.2) := by
        have hne : r.2 ≠ [] := by
          intro h0
          rw [h0] at h2
          cases h2
          exact hF i k [] hUo rfl
        obtain ⟨h3, h4⟩ := maxL_spec r.2 hne
        constructor
        · have hex : ∃ a ∈ args, Path delay [] a (maxL r.2) := by
            clear hne hl ih hops hUo h hm h4
            generalize maxL r.2 = v at h3
            generalize r.2 = ls at h2 h3
            induction h2 with
            | nil => cases h3
            | cons hp _ ih =>
              rcases List.mem_cons.mp h3 with rfl | h3
              · exact ⟨_, by simp, hp.1⟩
              · obtain ⟨a, ha, hpa⟩ := ih h3
                exact ⟨a, by simp [ha], hpa⟩
          obtain ⟨a, ha, hpa⟩ := hex
          exact .op i k args a _ ha hpa
        · intro v hv
          cases hv with
          | op _ _ _ a l ha hpa =>
            have hex : ∃ w ∈ r.2, l ≤ w := by
              clear hne hl ih hops hUo h hm h4 h3
              generalize r.2 = ls at h2
              induction h2 with
              | nil => cases ha
              | cons hp _ ih =>
                rcases List.mem_cons.mp ha with rfl | ha
                · exact ⟨_, by simp, hp.2 hpa⟩
                · obtain ⟨w, hw, hlw⟩ := ih ha
                  exact ⟨w, by simp [hw], hlw⟩
            obtain ⟨w, hw, hlw⟩ := hex
            have := h4 w hw
            linarith
      refine ⟨?_, hp⟩
      intro j k' args' l hUj hj
      simp only [Function.update_apply] at hj
      split_ifs at hj with hji
      · cases hj
        subst hji
        obtain ⟨rfl, rfl⟩ := hU j k' args' k args hUj hUo
        exact hp
      · exact h1 j k' args' l hUj hj
  · intro m _ _ h
    exact ⟨h, .nil⟩
  · intro e es h1 h2 m hops hs h
    obtain ⟨g1, g2⟩ := h1 m (fun a ha => hops a (by simp [N.opsL, ha])) hs h
    obtain ⟨g3, g4⟩ := h2 (ev e m).1 (fun a ha => hops a (by simp [N.opsL, ha])) (fun x => by rw [ev_sig.1, hs]) g1
    simp only [evL]
    exact ⟨g3, .cons g2 g4⟩

theorem ev_memo (i : ℕ) (k : Kind) (args : List N) (m : M) : ∃ l, (ev (.op i k args) m).1.op i = some l := by
  cases hm : m.op i with
  | some l => exact ⟨l, by simp only [ev, hm]⟩
  | none => exact ⟨delay k + maxL (evL args m).2, by simp only [ev, hm, Function.update_self]⟩

theorem sizeL_append (q r : List N) : N.sizeL (q ++ r) = N.sizeL q + N.sizeL r := by
  induction q with
  | nil => simp [N.sizeL]
  | cons a q ih => simp only [List.cons_append, N.sizeL, ih]; omega

theorem bfs_done : ∀ (n : ℕ) (q done : List N) (a : N), a ∈ done → a ∈ bfs n q done := by
  intro n
  induction n with
  | zero => intro q done a h; exact h
  | succ n ih =>
    intro q done a h
    cases q with
    | nil => exact h
    | cons c q =>
      simp only [bfs]
      split_ifs
      · exact ih q done a h
      · exact ih _ _ a (by simp [h])

theorem bfs_mem : ∀ (n : ℕ) (q done : List N), N.sizeL q < n → ∀ i k args, N.op i k args ∈ q → ∃ k' args', N.op i k' args' ∈ bfs n q done := by
  intro n
  induction n with
  | zero => intro q done h; omega
  | succ n ih =>
    intro q done h i k args ha
    cases q with
    | nil => cases ha
    | cons c q =>
      simp only [bfs]
      have hc : 1 ≤ c.size := by cases c <;> simp [N.size]
      have hi : N.sizeL c.inputs + 1 ≤ c.size := by
        cases c with
        | cst => simp [N.inputs, N.size, N.sizeL]
        | sig x => simp [N.inputs, N.size, N.sizeL]
        | op j k' as => simp only [N.inputs, N.size]; omega
      simp only [N.sizeL] at h
      split_ifs with hin
      · rcases List.mem_cons.mp ha with rfl | ha
        · unfold N.isIn at hin
          rw [List.any_eq_true] at hin
          obtain ⟨b, hb, heq⟩ := hin
          cases b with
          | cst => cases heq
          | sig x => cases heq
          | op j k' as =>
            simp only [beq_iff_eq] at heq
            subst heq
            exact ⟨k', as, bfs_done _ _ _ _ hb⟩
        · exact ih q done (by omega) i k args ha
      · rcases List.mem_cons.mp ha with rfl | ha
        · exact ⟨k, args, bfs_done _ _ _ _ (by simp)⟩
        · exact ih _ _ (by rw [sizeL_append]; omega) i k args (by simp [ha])

theorem below_fold (C : Circuit) (hF : Full C) (hS : Same C) :
    let m := (below C).reverse.foldl (fun m a => (ev a m).1) M.init
    Top (Of C) m ∧ (∀ p ∈ C, ∀ i k args, p.2 = .op i k args → ∃ l, m.op i = some l) := by
  have hgen : ∀ (l : List N) (m : M), (∀ a ∈ l, ∀ b ∈ a.ops, Of C b) → (∀ x, m.sig x = none) → Top (Of C) m →
      Top (Of C) (l.foldl (fun m a => (ev a m).1) m) ∧ (∀ i l', m.op i = some l' → (l.foldl (fun m a => (ev a m).1) m).op i = some l') ∧
      ∀ i k args, N.op i k args ∈ l → ∃ l', (l.foldl (fun m a => (ev a m).1) m).op i = some l' := by
    intro l
    induction l with
    | nil => intro m _ _ h; exact ⟨h, fun _ _ h => h, fun _ _ _ h => by cases h⟩
    | cons a l ih =>
      intro m hl hs h
      simp only [List.foldl_cons]
      obtain ⟨g1, g2, g3⟩ := ih (ev a m).1 (fun b hb => hl b (by simp [hb])) (fun x => by rw [ev_sig.1, hs])
        ((ev_top (Of C) (of_same hS) (of_full hF)).1 a m (hl a (by simp)) hs h).1
      refine ⟨g1, fun i l' hi => g2 i l' (ev_keep.1 a m i l' hi), ?_⟩
      intro i k args hi
      rcases List.mem_cons.mp hi with rfl | hi
      · obtain ⟨l', hl'⟩ := ev_memo i k args m
        exact ⟨l', g2 i l' hl'⟩
      · exact g3 i k args hi
  obtain ⟨h1, _, h3⟩ := hgen (below C).reverse M.init (fun a ha => below_sub C a (List.mem_reverse.mp ha)) (fun _ => rfl) (fun _ _ _ _ _ h => by cases h)
  refine ⟨h1, ?_⟩
  intro p hp i k args he
  obtain ⟨k', args', hin⟩ := bfs_mem (N.sizeL (C.flatMap fun p => [.sig p.1, p.2]) + 1) (C.flatMap fun p => [.sig p.1, p.2]) [] (by omega) i k args
    (by rw [List.mem_flatMap]; exact ⟨p, hp, by simp [he]⟩)
  exact h3 i k' args' (List.mem_reverse.mpr hin)

theorem evAssign_fold (C : Circuit) : ∀ (l : List (ℕ × N)) (m : M), (l.map Prod.fst).Nodup → (∀ p ∈ l, p ∈ C) → (∀ p ∈ l, ∀ x, p.2 ≠ .sig x) → Top (Of C) m →
    (∀ p ∈ C, ∀ i k args, p.2 = .op i k args → ∃ v, m.op i = some v) →
    (∀ p ∈ l, ∃ v, (l.foldl evAssign m).sig p.1 = some v ∧ IsGreatest {v | Path delay [] p.2 v} v) ∧
    (∀ x, x ∉ l.map Prod.fst → (l.foldl evAssign m).sig x = m.sig x) := by
  intro l
  induction l with
  | nil => intro m _ _ _ _ _; exact ⟨fun _ h => (by cases h), fun _ _ => rfl⟩
  | cons p l ih =>
    intro m hnd hl hns ht hm
    simp only [List.map_cons, List.nodup_cons] at hnd
    have hev : ∃ v, ev p.2 m = (m, v) ∧ IsGreatest {v | Path delay [] p.2 v} v := by
      cases hp : p.2 with
      | cst =>
        refine ⟨0, rfl, .cst, ?_⟩
        intro v hv
        cases hv
        exact le_refl _
      | sig x => exact absurd hp (hns p (by simp) x)
      | op i k args =>
        obtain ⟨v, hv⟩ := hm p (hl p (by simp)) i k args hp
        exact ⟨v, by simp only [ev, hv], ht i k args v ⟨p, hl p (by simp), by rw [hp]; simp [N.ops]⟩ hv⟩
    obtain ⟨v, hv, hg⟩ := hev
    have ha : evAssign m p = { m with sig := Function.update m.sig p.1 (some v), best := max m.best v } := by
      simp only [evAssign, hv]
    obtain ⟨g1, g2⟩ := ih (evAssign m p) hnd.2 (fun q hq => hl q (by simp [hq])) (fun q hq => hns q (by simp [hq])) (by rw [ha]; exact ht) (by rw [ha]; exact hm)
    simp only [List.foldl_cons]
    constructor
    · intro q hq
      rcases List.mem_cons.mp hq with rfl | hq
      · refine ⟨v, ?_, hg⟩
        rw [g2 q.1 hnd.1, ha]
        simp
      · exact g1 q hq
    · intro x hx
      simp only [List.map_cons, List.mem_cons, not_or] at hx
      rw [g2 x hx.2, ha]
      simp [Function.update_of_ne hx.1]

/-- For every circuit in which each signal is driven once, by an expression that is not a mere signal, the latency reported for a signal is the longest path inside the expression
that drives it: the paths that come through other driven signals are not seen. -/
theorem C91_reported_local (C : Circuit) (hF : Full C) (hS : Same C) (hnd : (C.map Prod.fst).Nodup) (hns : ∀ p ∈ C, ∀ x, p.2 ≠ .sig x) (p : ℕ × N) (hp : p ∈ C) :
    ∃ l, (report C).sig p.1 = some l ∧ IsGreatest {v | Path delay [] p.2 v} l := by
  obtain ⟨h1, h2⟩ := below_fold C hF hS
  have h3 := (evAssign_fold C C.reverse _ (by rw [List.map_reverse, List.nodup_reverse]; exact hnd) (fun p hp => List.mem_reverse.mp hp)
    (fun p hp => hns p (List.mem_reverse.mp hp)) h1 h2).1 p (List.mem_reverse.mpr hp)
  exact h3

theorem path_flat (C : Circuit) : (∀ e : N, (∀ q ∈ C, q.1 ∉ e.sigs) → ∀ l, Path delay C e l ↔ Path delay [] e l) ∧
    ∀ es : List N, (∀ q ∈ C, q.1 ∉ N.sigsL es) → ∀ e ∈ es, ∀ l, Path delay C e l ↔ Path delay [] e l := by
  refine N.ind ?_ ?_ ?_ ?_ ?_
  · intro _ l
    constructor
    · intro h; cases h; exact .cst
    · intro h; cases h; exact .cst
  · intro x hx l
    constructor
    · intro h
      cases h with
      | start => exact .start x
      | driven _ e _ hm _ => exact absurd (by simp [N.sigs]) (hx (x, e) hm)
    · intro h
      cases h with
      | start => exact .start x
      | driven _ e _ hm _ => cases hm
  · intro i k args ih hx l
    constructor
    · intro h
      cases h with
      | op _ _ _ a l' ha hp => exact .op i k args a l' ha ((ih hx a ha l').mp hp)
    · intro h
      cases h with
      | op _ _ _ a l' ha hp => exact .op i k args a l' ha ((ih hx a ha l').mpr hp)
  · intro _ e he; cases he
  · intro e es h1 h2 hx f hf l
    rcases List.mem_cons.mp hf with rfl | hf
    · exact h1 (fun q hq h => hx q hq (by simp [N.sigsL, h])) l
    · exact h2 (fun q hq h => hx q hq (by simp [N.sigsL, h])) f hf l

/-- C91, when no expression reads a driven signal: the latency reported for a signal is the delay of the longest path that reaches it. -/
theorem C91_flat_partial (C : Circuit) (hF : Full C) (hS : Same C) (hnd : (C.map Prod.fst).Nodup) (hns : ∀ p ∈ C, ∀ x, p.2 ≠ .sig x) (hflat : Flat C) (p : ℕ × N) (hp : p ∈ C) :
    ∃ l, (report C).sig p.1 = some l ∧ IsGreatest {v | Path delay C p.2 v} l := by
  obtain ⟨l, h1, h2⟩ := C91_reported_local C hF hS hnd hns p hp
  refine ⟨l, h1, ?_⟩
  have : {v | Path delay C p.2 v} = {v | Path delay [] p.2 v} := by
    ext v
    exact (path_flat C).1 p.2 (fun q hq => hflat p hp q hq) v
  rw [this]
  exact h2

/-- `(a + b) * c` and `a + b`, sharing the addition -/
def flatC : Circuit := [(10, .op 1 (.mul 8 8 16) [.op 0 (.add 8) [.sig 0, .sig 1], .sig 2]), (11, .op 0 (.add 8) [.sig 0, .sig 1])]

example : Full flatC ∧ Same flatC ∧ (flatC.map Prod.fst).Nodup ∧ (∀ p ∈ flatC, ∀ x, p.2 ≠ .sig x) ∧ Flat flatC := by
  refine ⟨?_, ?_, by decide, ?_, ?_⟩
  · intro p hp i k args h
    simp only [flatC, List.mem_cons, List.not_mem_nil, or_false] at hp
    rcases hp with rfl | rfl <;> simp [N.ops, N.opsL] at h
    · rcases h with ⟨_, _, rfl⟩ | ⟨_, _, rfl⟩ <;> simp
    · rcases h with ⟨_, _, rfl⟩; simp
  · intro p hp q hq i k args k' args' h h'
    simp only [flatC, List.mem_cons, List.not_mem_nil, or_false] at hp hq
    rcases hp with rfl | rfl <;> rcases hq with rfl | rfl <;> simp [N.ops, N.opsL] at h h'
    · rcases h with ⟨rfl, rfl, rfl⟩ | ⟨rfl, rfl, rfl⟩ <;> rcases h' with ⟨h0, rfl, rfl⟩ | ⟨h0, rfl, rfl⟩ <;> first | exact ⟨rfl, rfl⟩ | omega
    · rcases h with ⟨rfl, rfl, rfl⟩ | ⟨rfl, rfl, rfl⟩ <;> rcases h' with ⟨h0, rfl, rfl⟩ <;> first | exact ⟨rfl, rfl⟩ | omega
    · rcases h with ⟨rfl, rfl, rfl⟩ <;> rcases h' with ⟨h0, rfl, rfl⟩ | ⟨h0, rfl, rfl⟩ <;> first | exact ⟨rfl, rfl⟩ | omega
    · rcases h with ⟨rfl, rfl, rfl⟩; rcases h' with ⟨h0, rfl, rfl⟩; exact ⟨rfl, rfl⟩
  · intro p hp x
    simp only [flatC, List.mem_cons, List.not_mem_nil, or_false] at hp
    rcases hp with rfl | rfl <;> simp
  · intro p hp q hq
    simp only [flatC, List.mem_cons, List.not_mem_nil, or_false] at hp hq
    rcases hp with rfl | rfl <;> rcases hq with rfl | rfl <;> simp [N.sigs, N.sigsL]

/-! ## Where the report is wrong -/

/-- a chain of `n` additions, each through a signal -/
def chain (w n : ℕ) : Circuit := (List.range n).map fun i => (i + 1, .op i (.add w) [.sig i, .cst])

theorem mem_chain (w n : ℕ) (p : ℕ × N) : p ∈ chain w n ↔ ∃ i < n, p = (i + 1, .op i (.add w) [.sig i, .cst]) := by
  simp only [chain, List.mem_map, List.mem_range]
  constructor
  · rintro ⟨i, hi, rfl⟩; exact ⟨i, hi, rfl⟩
  · rintro ⟨i, hi, rfl⟩; exact ⟨i, hi, rfl⟩

/-- The chain of `n` additions is reported as one addition, whatever `n` is. -/
theorem C91_signal_wrong (w n : ℕ) :
    (∀ i, i < n → (report (chain w n)).sig (i + 1) = some (addCp w)) ∧ ∀ i, i ≤ n → Path delay (chain w n) (.sig i) (i * addCp w) := by
  have hops : ∀ p ∈ chain w n, ∀ j k args, N.op j k args ∈ p.2.ops → k = .add w ∧ args = [.sig j, .cst] := by
    intro p hp j k args h
    obtain ⟨i, _, rfl⟩ := (mem_chain w n p).mp hp
    simp [N.ops, N.opsL] at h
    obtain ⟨rfl, rfl, rfl⟩ := h
    exact ⟨rfl, rfl⟩
  have hF : Full (chain w n) := by
    intro p hp j k args h
    rw [(hops p hp j k args h).2]; simp
  have hS : Same (chain w n) := by
    intro p hp q hq j k args k' args' h h'
    rw [(hops p hp j k args h).1, (hops p hp j k args h).2, (hops q hq j k' args' h').1, (hops q hq j k' args' h').2]
    exact ⟨rfl, rfl⟩
  have hnd : ((chain w n).map Prod.fst).Nodup := by
    have : (chain w n).map Prod.fst = (List.range n).map (· + 1) := by simp [chain]
    rw [this]
    exact List.nodup_range.map (fun a b h => by simpa using h)
  constructor
  · intro i hi
    obtain ⟨l, h1, h2, h3⟩ := C91_reported_local (chain w n) hF hS hnd (by
      intro p hp x
      obtain ⟨i, _, rfl⟩ := (mem_chain w n p).mp hp
      simp) (i + 1, .op i (.add w) [.sig i, .cst]) ((mem_chain w n _).mpr ⟨i, hi, rfl⟩)
    rw [h1]
    congr 1
    cases h2 with
    | op _ _ _ a l ha hp =>
      simp only [List.mem_cons, List.not_mem_nil, or_false] at ha
      rcases ha with rfl | rfl
      · rw [path_nil_sig _ _ hp]; simp [delay]
      · cases hp; simp [delay]
  · intro i
    induction i with
    | zero => intro _; simpa using Path.start 0
    | succ i ih =>
      intro hi
      refine .driven (i + 1) (.op i (.add w) [.sig i, .cst]) _ ((mem_chain w n _).mpr ⟨i, by omega, rfl⟩) ?_
      have := Path.op (delay := delay) (C := chain w n) i (.add w) [.sig i, .cst] (.sig i) _ (by simp) (ih (by omega))
      have he : ((i + 1 : ℕ) : ℝ) * addCp w = delay (.add w) + i * addCp w := by
        simp only [delay]; push_cast; ring
      rw [he]
      exact this

/-- A comparison of operands of any size, whose result is one bit, is given no delay when it orders them and one gate when it tests their equality. -/
theorem C91_comparison_wrong (n : ℕ) : delay (.cmp false n 1) = 0 ∧ delay (.cmp true n 1) = 3 / 2 := by
  constructor
  · simp [delay, cmpCp, addCp, cpLog2]
  · simp [delay, cmpCp, treeCp, cpLog2]

/-- A shift is given the delay of its data size, whatever the number of bits of the amount. -/
theorem C91_shift_wrong (n r : ℕ) (hn : 1 ≤ n) : delay (.shift n r) = 3 / 2 * cpLog2 n := by
  simp only [delay, shiftCp, max_self]
  rw [min_eq_right]
  unfold cpLog2
  have h1 : (0 : ℝ) < n := by exact_mod_cast hn
  rw [Real.logb_le_iff_le_rpow (by norm_num) h1, Real.rpow_natCast]
  exact_mod_cast (Nat.lt_two_pow_self).le

end Verif.Crit
