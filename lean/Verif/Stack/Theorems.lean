import Verif.Stack.Model
import Mathlib.Tactic.Push

/-!
# C22: default-attribute stacks
-/

namespace Verif.Stack

variable {V : Type}

/-- The call did not raise. -/
def Outcome.Fine : Outcome V → Prop
  | .done => True
  | .built _ => True
  | .exception => False
  | .indexError => False

/-- Effect of the events on one stack. -/
def apply (l : List V) : List (Option V) → List V
  | [] => l
  | some v :: e => apply (v :: l) e
  | none :: e => apply l.tail e

/-- A stack of `n` elements never runs empty. -/
def Keeps : ℕ → List (Option V) → Prop
  | n, [] => 1 ≤ n
  | n, some _ :: e => 1 ≤ n ∧ Keeps (n + 1) e
  | n, none :: e => 2 ≤ n ∧ Keeps (n - 1) e

theorem apply_append (l : List V) (a b : List (Option V)) :
    apply l (a ++ b) = apply (apply l a) b := by
  induction a generalizing l with
  | nil => rfl
  | cons e a ih => cases e <;> simp only [List.cons_append, apply, ih]

theorem apply_nested {e : List (Option V)} (h : Nested e) (l : List V) : apply l e = l := by
  induction h generalizing l with
  | nil => rfl
  | wrap ha hb iha ihb =>
    simp only [List.cons_append, apply, apply_append, iha, List.tail_cons, ihb]

theorem keeps_nested {e : List (Option V)} (h : Nested e) {n : ℕ} {r : List (Option V)}
    (hn : 1 ≤ n) (hr : Keeps n r) : Keeps n (e ++ r) := by
  induction h generalizing n r with
  | nil => exact hr
  | wrap ha hb iha ihb =>
    simp only [List.cons_append, List.append_assoc, Keeps]
    refine ⟨hn, iha (by omega) ?_⟩
    simp only [Keeps]
    exact ⟨by omega, by simpa using ihb (by omega) hr⟩

theorem keeps_pos {n : ℕ} {e : List (Option V)} (h : Keeps n e) : 1 ≤ n := by
  cases e with
  | nil => exact h
  | cons x e => cases x with
    | none => exact Nat.le_trans (by decide) h.1
    | some v => exact h.1

theorem keeps_iff (n : ℕ) (e : List (Option V)) :
    Keeps n e ↔ ∀ pre, pre <+: e →
      pre.countP (fun e => e.isNone) + 1 ≤ pre.countP (fun e => e.isSome) + n := by
  induction e generalizing n with
  | nil => simp [Keeps, List.prefix_nil]
  | cons x e ih =>
    constructor
    · intro h pre hpre
      cases pre with
      | nil => simpa using keeps_pos h
      | cons y pre =>
        obtain ⟨rfl, hp⟩ := List.cons_prefix_cons.1 hpre
        cases y with
        | none => have := (ih _).1 h.2 pre hp; have := h.1; simp; omega
        | some v => have := (ih _).1 h.2 pre hp; simp; omega
    · intro h
      have h0 := h [] (List.nil_prefix)
      cases x with
      | none =>
        refine ⟨?_, (ih _).2 fun pre hp => ?_⟩
        · have := h [none] (List.cons_prefix_cons.2 ⟨rfl, List.nil_prefix⟩)
          simp at this; omega
        · have h1 := h [none] (List.cons_prefix_cons.2 ⟨rfl, List.nil_prefix⟩)
          have := h (none :: pre) (List.cons_prefix_cons.2 ⟨rfl, hp⟩)
          simp at this h1; omega
      | some v =>
        refine ⟨by simpa using h0, (ih _).2 fun pre hp => ?_⟩
        have := h (some v :: pre) (List.cons_prefix_cons.2 ⟨rfl, hp⟩)
        simp at this; omega

theorem run_state (s : State V) (ops : List (Op V)) (k : Kind) :
    (run s ops).2 k = apply (s k) (events k ops) := by
  induction ops generalizing s with
  | nil => rfl
  | cons op ops ih =>
    show (run (step s op).2 ops).2 k = _
    rw [ih]
    cases op with
    | set k' v =>
      simp only [step, upd, events]
      by_cases hk : k' = k
      · subst hk; simp [apply]
      · rw [if_neg hk, if_neg (fun h => hk h.symm)]
    | unset k' =>
      have hs : (step s (.unset k')).2 k = if k = k' then (s k').tail else s k := by
        simp only [step]
        split <;> rename_i h <;> simp only [upd] <;> split <;> simp_all
      rw [hs]
      simp only [events]
      by_cases hk : k' = k
      · subst hk; simp [apply]
      · rw [if_neg hk, if_neg (fun h => hk h.symm)]
    | node g =>
      have hs : (step s (.node g)).2 = s := by
        simp only [step]; split <;> rfl
      rw [hs]; rfl

theorem run_append (s : State V) (a b : List (Op V)) :
    run s (a ++ b) = ((run s a).1 ++ (run (run s a).2 b).1, (run (run s a).2 b).2) := by
  induction a generalizing s with
  | nil => rfl
  | cons op a ih =>
    show ((step s op).1 :: (run (step s op).2 (a ++ b)).1, (run (step s op).2 (a ++ b)).2) = _
    rw [ih]; rfl

theorem fine_iff (s : State V) (hs : ∀ k, s k ≠ []) (ops : List (Op V)) :
    (∀ o ∈ (run s ops).1, o.Fine) ↔ ∀ k, Keeps (s k).length (events k ops) := by
  induction ops generalizing s with
  | nil =>
    simp only [run, events, Keeps, List.not_mem_nil, false_imp_iff, implies_true, true_iff]
    exact fun k => List.length_pos_iff.2 (hs k)
  | cons op ops ih =>
    have hrun : (run s (op :: ops)).1 = (step s op).1 :: (run (step s op).2 ops).1 := rfl
    rw [hrun, List.forall_mem_cons]
    cases op with
    | set k v =>
      have h1 : ∀ k', (step s (.set k v)).2 k' ≠ [] := by
        intro k'; simp only [step, upd]; split
        · simp
        · exact hs k'
      rw [ih _ h1]
      simp only [step, Outcome.Fine, true_and, events]
      refine forall_congr' fun k' => ?_
      by_cases hk : k = k'
      · subst hk
        simp only [upd, if_true, List.length_cons, Keeps]
        have := List.length_pos_iff.2 (hs k)
        exact ⟨fun h => ⟨this, h⟩, fun h => h.2⟩
      · simp only [upd]
        rw [if_neg hk, if_neg (fun h => hk h.symm)]
    | unset k =>
      rcases hk : s k with _ | ⟨x, _ | ⟨y, l⟩⟩
      · exact absurd hk (hs k)
      · have hst : (step s (.unset k)).1 = .exception := by simp only [step, hk]
        rw [hst]
        simp only [Outcome.Fine, false_and, false_iff]
        intro h
        have := h k
        simp only [events, if_true, hk, Keeps, List.length_cons, List.length_nil] at this
        omega
      · have hst : step s (.unset k) = (.done, upd s k (y :: l)) := by simp only [step, hk]
        rw [hst]
        have h1 : ∀ k', upd s k (y :: l) k' ≠ [] := by
          intro k'; simp only [upd]; split
          · simp
          · exact hs k'
        rw [ih _ h1]
        simp only [Outcome.Fine, true_and, events]
        refine forall_congr' fun k' => ?_
        by_cases hk' : k = k'
        · subst hk'
          simp only [upd, if_true, List.length_cons, Keeps, hk]
          simp
        · simp only [upd]
          rw [if_neg hk', if_neg (fun h => hk' h.symm)]
    | node g =>
      rcases hp : s .precision with _ | ⟨p, lp⟩
      · exact absurd hp (hs _)
      rcases hq : s .silent with _ | ⟨q, lq⟩
      · exact absurd hq (hs _)
      rcases hr : s .roundingMode with _ | ⟨r, lr⟩
      · exact absurd hr (hs _)
      have hst : (step s (.node g)).1.Fine ∧ (step s (.node g)).2 = s := by
        simp only [step, hp, hq, hr]; exact ⟨trivial, trivial⟩
      rw [hst.2, ih s hs]
      simp only [hst.1, true_and, events]

theorem prefix_events {k : Kind} {ops : List (Op V)} :
    ∀ {e : List (Option V)}, e <+: events k ops → ∃ pre, pre <+: ops ∧ events k pre = e := by
  induction ops with
  | nil => intro e he; exact ⟨[], List.prefix_rfl, (List.prefix_nil.1 he).symm⟩
  | cons op ops ih =>
    intro e he
    have skip : events k (op :: ops) = events k ops → (∀ l, events k (op :: l) = events k l) →
        ∃ pre, pre <+: op :: ops ∧ events k pre = e := by
      intro h1 h2
      obtain ⟨pre, hp, h⟩ := ih (h1 ▸ he)
      exact ⟨op :: pre, List.cons_prefix_cons.2 ⟨rfl, hp⟩, by rw [h2, h]⟩
    have keep : ∀ x, (∀ l, events k (op :: l) = x :: events k l) →
        ∃ pre, pre <+: op :: ops ∧ events k pre = e := by
      intro x h
      cases e with
      | nil => exact ⟨[], List.nil_prefix, rfl⟩
      | cons y e =>
        rw [h] at he
        obtain ⟨rfl, he2⟩ := List.cons_prefix_cons.1 he
        obtain ⟨pre, hp, h'⟩ := ih he2
        exact ⟨op :: pre, List.cons_prefix_cons.2 ⟨rfl, hp⟩, by rw [h, h']⟩
    cases op with
    | set k' v =>
      by_cases hk : k' = k
      · exact keep (some v) fun l => by simp [events, hk]
      · exact skip (by simp [events, hk]) fun l => by simp [events, hk]
    | unset k' =>
      by_cases hk : k' = k
      · exact keep none fun l => by simp [events, hk]
      · exact skip (by simp [events, hk]) fun l => by simp [events, hk]
    | node g => exact skip rfl fun l => rfl

theorem events_append (k : Kind) (a b : List (Op V)) :
    events k (a ++ b) = events k a ++ events k b := by
  induction a with
  | nil => rfl
  | cons op a ih =>
    cases op <;> simp only [List.cons_append, events, ih]
    all_goals split <;> simp

/-- **C22, restore.**  A history whose sets and unsets are properly nested for each attribute
(attributes may interleave freely, nodes may be built anywhere) raises nothing and leaves all the
defaults as they were, whatever the (non-empty) stacks were. -/
theorem C22_restore (s : State V) (hs : ∀ k, s k ≠ []) (ops : List (Op V))
    (hn : ∀ k, Nested (events k ops)) :
    (∀ o ∈ (run s ops).1, o.Fine) ∧ (run s ops).2 = s := by
  refine ⟨(fine_iff s hs ops).2 fun k => ?_, funext fun k => ?_⟩
  · have h1 := List.length_pos_iff.2 (hs k)
    have := keeps_nested (hn k) (r := []) h1 h1
    simpa using this
  · rw [run_state, apply_nested (hn k)]

/-- **C22, current default.**  After setting a default and then any history nested for that
attribute, a node built without an explicit value gets that default, and one built with an explicit
value gets the explicit value. -/
theorem C22_current (s : State V) (hs : ∀ k, s k ≠ []) (k : Kind) (v : V) (ops : List (Op V))
    (hn : ∀ k, Nested (events k ops)) (given : Kind → Option V) :
    ∃ attrs, (step (run s (.set k v :: ops)).2 (.node given)).1 = .built attrs ∧
      attrs k = (given k).getD v ∧
      ∀ k', k' ≠ k → given k' = none → (s k').head? = some (attrs k') := by
  have hst : (run s (.set k v :: ops)).2 = upd s k (v :: s k) := by
    funext k'
    show (run (step s (.set k v)).2 ops).2 k' = _
    rw [run_state, apply_nested (hn k')]; rfl
  rw [hst]
  rcases hp : s .precision with _ | ⟨p, lp⟩
  · exact absurd hp (hs _)
  rcases hq : s .silent with _ | ⟨q, lq⟩
  · exact absurd hq (hs _)
  rcases hr : s .roundingMode with _ | ⟨r, lr⟩
  · exact absurd hr (hs _)
  cases k <;> simp only [step, upd, hp, hq, hr, if_true, reduceCtorEq, if_false] <;>
    refine ⟨_, rfl, rfl, ?_⟩ <;> intro k' hk' hg <;> cases k' <;> simp_all

/-- **C22, rejection.**  Starting from the initial defaults, a history raises an exception exactly
when at some point an attribute has been unset more often than set. -/
theorem C22_reject (d : Kind → V) (ops : List (Op V)) :
    (∀ o ∈ (run (initial d) ops).1, o.Fine) ↔ ∀ k, NeverBelow k ops := by
  rw [fine_iff (initial d) (fun k => by simp [initial])]
  refine forall_congr' fun k => ?_
  rw [keeps_iff]
  constructor
  · intro h pre hp
    obtain ⟨r, rfl⟩ := hp
    have := h (events k pre) (by rw [events_append]; exact List.prefix_append _ _)
    simpa [initial] using this
  · intro h e he
    obtain ⟨pre, hp, rfl⟩ := prefix_events he
    simpa [initial] using h pre hp

/-- **C22, the rejected unset is destructive.**  The unset without matching set that raises has
already removed the initial default: from then on, until a set of that attribute, *no* node can be
built, even one that gives the attribute explicitly. -/
theorem C22_rejected_unset_poisons (d : Kind → V) (k : Kind) (given : Kind → Option V) :
    (step (initial d) (.unset k)).1 = .exception ∧
    (step (step (initial d) (.unset k)).2 (.node given)).1 = .indexError := by
  cases k <;> exact ⟨rfl, rfl⟩

/-- Non-vacuity: two interleaved attributes, nested twice for one of them. -/
def sample : List (Op ℕ) :=
  [.set .precision 32, .set .silent 1, .set .precision 64, .node (fun _ => none),
   .unset .precision, .unset .silent, .unset .precision]

example : (∀ k, Nested (events k sample)) ∧ (∀ k, NeverBelow k (sample.take 4)) ∧
    ¬ NeverBelow .silent (sample ++ [.unset .silent]) := by
  have hN : ∀ k, Nested (events k sample) := by
    intro k
    cases k
    · exact Nested.wrap (v := 32) (Nested.wrap (v := 64) .nil .nil) .nil
    · exact .nil
    · exact Nested.wrap (v := 1) .nil .nil
  refine ⟨hN, ?_, fun h => ?_⟩
  · refine (C22_reject (fun _ => 0) _).1 ?_
    intro o ho
    simp [sample, run, step, initial, upd] at ho
    rcases ho with rfl | rfl <;> trivial
  · have := h _ List.prefix_rfl
    simp [sample, events] at this

end Verif.Stack
