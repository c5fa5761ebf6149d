import Verif.Logic.Model
import Mathlib.Algebra.BigOperators.Group.List.Basic
import Mathlib.Tactic.Ring

/-!
# Property theorems on reductions and logical simplification: C12, C13
-/

namespace Verif.Logic

/-! ## C13 -/

theorem reduceQ_leaves {α : Type} : ∀ (n : ℕ) (l : List (Tree α)), l.length = n → l ≠ [] →
    ∃ t, reduceQ Tree.node l = .ok t ∧ t.leaves.Perm (l.flatMap Tree.leaves) := by
  intro n
  induction n using Nat.strong_induction_on with
  | _ n ih =>
    intro l hl hne
    match l, hne with
    | [a], _ => exact ⟨a, by rw [reduceQ], by simp⟩
    | a :: b :: rest, _ =>
      simp only [List.length_cons] at hl
      obtain ⟨t, h1, h2⟩ := ih (rest.length + 1) (by omega) (rest ++ [.node a b]) (by simp) (by simp)
      refine ⟨t, by rw [reduceQ]; exact h1, h2.trans ?_⟩
      simp only [List.flatMap_append, List.flatMap_cons, List.flatMap_nil, Tree.leaves, List.append_nil]
      rw [← List.append_assoc (a.leaves)]
      exact List.perm_append_comm

/-- C13: reducing any non-empty operand list builds a tree that uses every operand exactly as often as it occurs in the list. -/
theorem C13_reduce_uses_each_once {α : Type} (l : List α) (hne : l ≠ []) :
    ∃ t, reduceQ Tree.node (l.map Tree.leaf) = .ok t ∧ t.leaves.Perm l := by
  obtain ⟨t, h1, h2⟩ := reduceQ_leaves _ (l.map Tree.leaf) rfl (by simpa using hne)
  refine ⟨t, h1, h2.trans ?_⟩
  have : (l.map Tree.leaf).flatMap Tree.leaves = l := by
    rw [List.flatMap_map]
    induction l with
    | nil => rfl
    | cons a t ih => simp [Tree.leaves]
  rw [this]

theorem value_any {α : Type} (v : α → Bool) : ∀ t : Tree α, t.value (fun a b => a || b) v = t.leaves.any v
  | .leaf a => by simp [Tree.value, Tree.leaves]
  | .node l r => by simp [Tree.value, Tree.leaves, value_any v l, value_any v r]

theorem value_all {α : Type} (v : α → Bool) : ∀ t : Tree α, t.value (fun a b => a && b) v = t.leaves.all v
  | .leaf a => by simp [Tree.value, Tree.leaves]
  | .node l r => by simp [Tree.value, Tree.leaves, value_all v l, value_all v r]

theorem value_sum {α β : Type} [AddCommMonoid β] (v : α → β) : ∀ t : Tree α, t.value (fun a b => a + b) v = (t.leaves.map v).sum
  | .leaf a => by simp [Tree.value, Tree.leaves]
  | .node l r => by simp [Tree.value, Tree.leaves, value_sum v l, value_sum v r]

/-- C13: the value of the reduction is the disjunction, the conjunction or the sum of all operands. -/
theorem C13_reduce_value {α : Type} (l : List α) (hne : l ≠ []) :
    ∃ t, reduceQ Tree.node (l.map Tree.leaf) = .ok t ∧
      (∀ v : α → Bool, t.value (fun a b => a || b) v = true ↔ ∃ a ∈ l, v a = true) ∧
      (∀ v : α → Bool, t.value (fun a b => a && b) v = true ↔ ∀ a ∈ l, v a = true) ∧
      (∀ (β : Type) [AddCommMonoid β] (v : α → β), t.value (fun a b => a + b) v = (l.map v).sum) := by
  obtain ⟨t, h1, h2⟩ := C13_reduce_uses_each_once l hne
  refine ⟨t, h1, fun v => ?_, fun v => ?_, fun β _ v => ?_⟩
  · rw [value_any, List.any_eq_true]
    exact ⟨fun ⟨a, ha, h⟩ => ⟨a, h2.mem_iff.1 ha, h⟩, fun ⟨a, ha, h⟩ => ⟨a, h2.mem_iff.2 ha, h⟩⟩
  · rw [value_all, List.all_eq_true]
    exact ⟨fun h a ha => h a (h2.mem_iff.2 ha), fun h a ha => h a (h2.mem_iff.1 ha)⟩
  · rw [value_sum]; exact (h2.map v).sum_eq

example : reduceQ Tree.node ([1, 2, 3].map Tree.leaf) = .ok (.node (.leaf 3) (.node (.leaf 1) (.leaf 2))) := by
  simp [reduceQ]

/-- C13: the reduction of an empty list raises. -/
theorem C13_reduce_empty {α : Type} : reduceQ (α := Tree α) Tree.node [] = .error .indexError := by rw [reduceQ]

/-- C13, condition merging of the vectorizer: the tree uses the conditions in order, each once, hence is their conjunction. -/
theorem C13_merge_conditions {α : Type} : ∀ (n : ℕ) (l : List α), l.length = n → l ≠ [] →
    ∃ t, mergeHalves Tree.node (l.map Tree.leaf) = .ok t ∧ t.leaves = l ∧
      ∀ v : α → Bool, t.value (fun a b => a && b) v = true ↔ ∀ a ∈ l, v a = true := by
  intro n
  induction n using Nat.strong_induction_on with
  | _ n ih =>
    intro l hl hne
    match l, hne with
    | [a], _ => exact ⟨.leaf a, by simp [mergeHalves], rfl, fun v => by simp [Tree.value]⟩
    | a :: b :: rest, _ =>
      set l := a :: b :: rest with hld
      have hlen : 2 ≤ l.length := by simp [hld]
      obtain ⟨t1, h1, h1', _⟩ := ih (l.length / 2) (by omega) (l.take (l.length / 2)) (by simp; omega)
        (by intro h; have := congrArg List.length h; simp at this; omega)
      obtain ⟨t2, h2, h2', _⟩ := ih (l.length - l.length / 2) (by omega) (l.drop (l.length / 2)) (by simp)
        (by intro h; have := congrArg List.length h; simp at this; omega)
      have hleaves : (Tree.node t1 t2).leaves = l := by
        simp only [Tree.leaves, h1', h2', List.take_append_drop]
      refine ⟨.node t1 t2, ?_, hleaves, fun v => ?_⟩
      · have : (l.map Tree.leaf) = Tree.leaf a :: Tree.leaf b :: rest.map Tree.leaf := rfl
        rw [this, mergeHalves, ← this]
        simp only [bind, Except.bind, List.length_map, ← List.map_take, ← List.map_drop, h1, h2]
        rfl
      · rw [value_all, hleaves, List.all_eq_true]

example : mergeHalves Tree.node ([1, 2, 3].map Tree.leaf) = .ok (.node (.leaf 1) (.node (.leaf 2) (.leaf 3))) := by
  simp [mergeHalves]; rfl

/-! ## C12 -/

/-- Conjunction trees whose leaves are all negations. -/
def AndNotTree : Expr → Prop
  | .not _ => True
  | .and a b => AndNotTree a ∧ AndNotTree b
  | _ => False

/-- The leftmost operand of a nest of conjunctions. -/
def firstConjunct : Expr → Expr
  | .and a _ => firstConjunct a
  | e => e

/-- The leftmost operand of a nest of disjunctions. -/
def firstDisjunct : Expr → Expr
  | .or a _ => firstDisjunct a
  | e => e

/-- Sub-expressions on which the pass is right: no disjunction starting with a negation, and each conjunction that starts
with a negation consists of negations only. -/
def Handled : Expr → Prop
  | .atom _ => True
  | .not a => Handled a
  | .and a b => ((∃ x, firstConjunct a = .not x) → AndNotTree (.and a b)) ∧ Handled a ∧ Handled b
  | .or a b => (∀ x, firstDisjunct a ≠ .not x) ∧ Handled a ∧ Handled b
  | .op _ a b => Handled a ∧ Handled b

theorem isAndNot_iff (b : Expr) : ∀ a, isAndNot (.and a b) = true ↔ ∃ x, firstConjunct a = .not x := by
  intro a
  induction a generalizing b with
  | and a c iha _ => rw [firstConjunct, ← iha c]; simp [isAndNot]
  | _ => simp [isAndNot, firstConjunct]

theorem isOrNot_iff (b : Expr) : ∀ a, isOrNot (.or a b) = true ↔ ∃ x, firstDisjunct a = .not x := by
  intro a
  induction a generalizing b with
  | or a c iha _ => rw [firstDisjunct, ← iha c]; simp [isOrNot]
  | _ => simp [isOrNot, firstDisjunct]

theorem reduceQ_or (ρ : Env) : ∀ (n : ℕ) (l : List Expr), l.length = n → l ≠ [] →
    ∃ r, reduceQ Expr.or l = .ok r ∧ eval ρ r = l.any (eval ρ) := by
  intro n
  induction n using Nat.strong_induction_on with
  | _ n ih =>
    intro l hl hne
    match l, hne with
    | [a], _ => exact ⟨a, by rw [reduceQ], by simp⟩
    | a :: b :: rest, _ =>
      simp only [List.length_cons] at hl
      obtain ⟨t, h1, h2⟩ := ih (rest.length + 1) (by omega) (rest ++ [.or a b]) (by simp) (by simp)
      refine ⟨t, by rw [reduceQ]; exact h1, ?_⟩
      rw [h2]
      simp only [List.any_append, List.any_cons, List.any_nil, eval, Bool.or_false]
      cases eval ρ a <;> cases eval ρ b <;> simp

/-- Success and value of the simplification of `e`, and of the collection of its leaves. -/
def Good (ρ : Env) (e : Expr) : Prop :=
  (∃ r, simp e = .ok r ∧ eval ρ r = eval ρ e) ∧
  (AndNotTree e → ∃ l, andLeaves e = .ok l ∧ l ≠ [] ∧ l.any (eval ρ) = !eval ρ e)

theorem good (ρ : Env) : ∀ e : Expr, Handled e → Good ρ e := by
  intro e
  induction e with
  | atom n => intro _; exact ⟨⟨_, by rw [simp], rfl⟩, fun h => h.elim⟩
  | not a iha =>
    intro h
    obtain ⟨⟨r, h1, h2⟩, _⟩ := iha h
    refine ⟨⟨.not r, ?_, ?_⟩, fun _ => ⟨[r], ?_, by simp, ?_⟩⟩
    · rw [simp, h1]; rfl
    · simp only [eval, h2]
    · rw [andLeaves, h1]; rfl
    · simp only [List.any_cons, List.any_nil, Bool.or_false, h2, eval, Bool.not_not]
  | and a b iha ihb =>
    rintro ⟨h0, ha, hb⟩
    rw [← isAndNot_iff b a] at h0
    obtain ⟨⟨ra, a1, a2⟩, a3⟩ := iha ha
    obtain ⟨⟨rb, b1, b2⟩, b3⟩ := ihb hb
    have hleaves : AndNotTree (.and a b) → ∃ la lb, andLeaves a = .ok la ∧ andLeaves b = .ok lb ∧ la ++ lb ≠ [] ∧
        (la ++ lb).any (eval ρ) = !eval ρ (.and a b) := by
      rintro ⟨ta, tb⟩
      obtain ⟨la, p1, p2, p3⟩ := a3 ta
      obtain ⟨lb, q1, q2, q3⟩ := b3 tb
      refine ⟨la, lb, p1, q1, by simp [p2], ?_⟩
      rw [List.any_append, p3, q3, eval]
      cases eval ρ a <;> cases eval ρ b <;> rfl
    constructor
    · rw [simp]
      by_cases hi : isAndNot (.and a b) = true
      · rw [if_pos hi]
        obtain ⟨la, lb, p1, q1, hne, hany⟩ := hleaves (h0 hi)
        obtain ⟨r, r1, r2⟩ := reduceQ_or ρ _ (la ++ lb) rfl hne
        refine ⟨.not r, ?_, ?_⟩
        · rw [p1, q1]; simp only [bind, Except.bind, r1]; rfl
        · rw [eval, r2, hany, Bool.not_not]
      · rw [if_neg hi]
        exact ⟨.and ra rb, by rw [a1, b1]; rfl, by simp only [eval, a2, b2]⟩
    · intro ht
      obtain ⟨la, lb, p1, q1, hne, hany⟩ := hleaves ht
      exact ⟨la ++ lb, by rw [andLeaves, p1, q1]; rfl, hne, hany⟩
  | or a b iha ihb =>
    rintro ⟨h0, ha, hb⟩
    obtain ⟨⟨ra, a1, a2⟩, _⟩ := iha ha
    obtain ⟨⟨rb, b1, b2⟩, _⟩ := ihb hb
    refine ⟨⟨.or ra rb, ?_, by simp only [eval, a2, b2]⟩, fun h => h.elim⟩
    rw [simp, if_neg (by rw [isOrNot_iff]; rintro ⟨x, hx⟩; exact h0 x hx), a1, b1]; rfl
  | op k a b iha ihb =>
    rintro ⟨ha, hb⟩
    obtain ⟨⟨ra, a1, a2⟩, _⟩ := iha ha
    obtain ⟨⟨rb, b1, b2⟩, _⟩ := ihb hb
    exact ⟨⟨.op k ra rb, by rw [simp, a1, b1]; rfl, by simp only [eval, a2, b2]⟩, fun h => h.elim⟩

/-- C12: on handled expressions the pass succeeds and the result has the same truth value under every assignment.  Missing for
the full claim: disjunctions starting with a negation (the result is wrong, below) and conjunctions mixing negations with other
operands (the pass raises, below). -/
theorem C12_simplify_partial (e : Expr) (h : Handled e) : ∃ r, simp e = .ok r ∧ ∀ ρ, eval ρ r = eval ρ e := by
  obtain ⟨⟨r, h1, _⟩, _⟩ := good ⟨fun _ => true, fun _ _ _ => true⟩ e h
  refine ⟨r, h1, fun ρ => ?_⟩
  obtain ⟨⟨r', h1', h2⟩, _⟩ := good ρ e h
  rw [h1] at h1'
  simp only [Except.ok.injEq] at h1'
  rw [h1']; exact h2

example : Handled (.op 3 (.and (.not (.atom 0)) (.and (.not (.atom 1)) (.not (.or (.atom 2) (.atom 3))))) (.atom 4)) := by
  simp [Handled, AndNotTree, firstConjunct, firstDisjunct]

example : simp (.and (.not (.atom 0)) (.and (.not (.atom 1)) (.not (.atom 2)))) =
    .ok (.not (.or (.atom 2) (.or (.atom 0) (.atom 1)))) := by
  simp [simp, andLeaves, isAndNot, bind, Except.bind, pure, Except.pure, reduceQ]

/-- C12 fails on disjunctions of negations: for all atoms the result of simplifying `¬p ∨ ¬q` means `p ∨ q`. -/
theorem C12_or_not_wrong (p q : ℕ) : ∃ r, simp (.or (.not (.atom p)) (.not (.atom q))) = .ok r ∧
    (∀ ρ, eval ρ r = (ρ.atom p || ρ.atom q)) ∧ ∃ ρ, eval ρ r ≠ eval ρ (.or (.not (.atom p)) (.not (.atom q))) := by
  have h : simp (.or (.not (.atom p)) (.not (.atom q))) = .ok (.not (.and (.not (.atom p)) (.not (.atom q)))) := by
    simp [simp, orLeaves, isOrNot, bind, Except.bind, pure, Except.pure, reduceQ]
  refine ⟨_, h, fun ρ => by simp [eval], ⟨fun _ => true, fun _ _ _ => true⟩, by simp [eval]⟩

/-- C12 fails on conjunctions of one negation and any atom or disjunction: the pass raises. -/
theorem C12_mixed_and_raises (a : Expr) (ha : ∃ r, simp a = .ok r) (b : Expr) (hb : ∀ x, b ≠ .not x) (hb' : ∀ x y, b ≠ .and x y) :
    simp (.and (.not a) b) = .error .notImplemented := by
  obtain ⟨r, hr⟩ := ha
  have h : andLeaves b = .error .notImplemented := by
    cases b with
    | not x => exact absurd rfl (hb x)
    | and x y => exact absurd rfl (hb' x y)
    | _ => rw [andLeaves] <;> simp
  rw [simp, if_pos (by simp [isAndNot]), andLeaves, hr, h]
  rfl

example : simp (.and (.not (.atom 0)) (.atom 1)) = .error .notImplemented :=
  C12_mixed_and_raises _ ⟨_, by rw [simp]⟩ _ (by simp) (by simp)

end Verif.Logic
