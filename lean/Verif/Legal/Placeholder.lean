import Mathlib.Data.List.Basic
import Mathlib.Data.List.Count
import Mathlib.Tactic.Push

/-!
# C54: extraction of placeholder statements (`extract_placeholder`, core/legalizer.py:849-902)
-/

namespace Verif.Legal.Place

/-- Expression graphs, unfolded; equal `id`s stand for the same object.  `ctrl` is any node whose
class derives from `ControlFlowOperation`: loops, condition blocks and also statements
(ml_operations.py:841, 1298, 1324, 1719). -/
inductive N where
  | leaf (id : ℕ)
  | ctrl (id : ℕ)
  | ph (id : ℕ) (head : N) (extra : List N)
  | op (id : ℕ) (inputs : List N)

def N.id : N → ℕ
  | .leaf i | .ctrl i | .ph i _ _ | .op i _ => i

/-- Results: placeholder-free node (`None` for control flow) and extracted statements. -/
abbrev Res := Option N × List ℕ

/-- The memoization map. -/
abbrev Memo := ℕ → Option Res

/-- An input that the code replaces by `None` is dropped here; it only happens to control flow used as
an operand of an arithmetic node. -/
def setInputs (l : List (Option N)) : List N := l.filterMap id

mutual
/-- `extract_placeholder` (core/legalizer.py:849-902).  The branch of lines 883-890 (`Statement`) cannot be reached, a statement
being a `ControlFlowOperation` (line 881).  Operands are replaced in place (898): the memo returns the
modified node. -/
def extract (memo : Memo) : N → Res × Memo
  | .ctrl i => ((memo i).getD (none, [i]), memo)
  | .leaf i =>
    match memo i with
    | some r => (r, memo)
    | none => ((some (.leaf i), []), Function.update memo i (some (some (.leaf i), [])))
  | .ph i head extra =>
    match memo i with
    | some r => (r, memo)
    | none =>
      let e := extractL memo extra
      let h := extract e.2 head
      let r : Res := (h.1.1, e.1.flatMap Prod.snd ++ h.1.2)
      (r, Function.update h.2 i (some r))
  | .op i inputs =>
    match memo i with
    | some r => (r, memo)
    | none =>
      let e := extractL memo inputs
      let r : Res := (some (.op i (setInputs (e.1.map Prod.fst))), e.1.flatMap Prod.snd)
      (r, Function.update e.2 i (some r))
/-- The loops over operands. -/
def extractL (memo : Memo) : List N → List Res × Memo
  | [] => ([], memo)
  | n :: l =>
    let r := extract memo n
    let rs := extractL r.2 l
    (r.1 :: rs.1, rs.2)
end

/-! ## Specification -/

mutual
/-- The expression with every placeholder replaced by its main input. -/
def N.strip : N → Option N
  | .leaf i => some (.leaf i)
  | .ctrl _ => none
  | .ph _ h _ => h.strip
  | .op i l => some (.op i (stripL l))
def stripL : List N → List N
  | [] => []
  | n :: l => (match n.strip with | some m => [m] | none => []) ++ stripL l
end

mutual
/-- Number of times control-flow node `c` is carried, following every path from the root. -/
def N.carried (c : ℕ) : N → ℕ
  | .leaf _ => 0
  | .ctrl i => if i = c then 1 else 0
  | .ph _ h l => h.carried c + carriedL c l
  | .op _ l => carriedL c l
def carriedL (c : ℕ) : List N → ℕ
  | [] => 0
  | n :: l => n.carried c + carriedL c l
end

mutual
/-- All nodes at and below a node. -/
def N.subs : N → List N
  | .leaf i => [.leaf i]
  | .ctrl i => [.ctrl i]
  | .ph i h l => .ph i h l :: (h.subs ++ subsL l)
  | .op i l => .op i l :: subsL l
def subsL : List N → List N
  | [] => []
  | n :: l => n.subs ++ subsL l
end

/-- Same object, same node. -/
def Consistent (l : List N) : Prop := ∀ a ∈ l, ∀ b ∈ l, a.id = b.id → a = b

mutual
/-- Statements in order: those of the extra operands of a placeholder, then those of its main input; those of the
operands from left to right. -/
def N.stmts : N → List ℕ
  | .leaf _ => []
  | .ctrl i => [i]
  | .ph _ h l => stmtsL l ++ h.stmts
  | .op _ l => stmtsL l
def stmtsL : List N → List ℕ
  | [] => []
  | n :: l => n.stmts ++ stmtsL l
end

mutual
theorem count_stmts (c : ℕ) : ∀ n : N, n.stmts.count c = n.carried c
  | .leaf _ => rfl
  | .ctrl i => by
    rw [N.stmts, N.carried, List.count_singleton]
    by_cases h : i = c <;> simp [h]
  | .ph _ h l => by rw [N.stmts, N.carried, List.count_append, count_stmts c h, count_stmtsL c l, Nat.add_comm]
  | .op _ l => by rw [N.stmts, N.carried, count_stmtsL c l]
theorem count_stmtsL (c : ℕ) : ∀ l : List N, (stmtsL l).count c = carriedL c l
  | [] => rfl
  | n :: l => by rw [stmtsL, carriedL, List.count_append, count_stmts c n, count_stmtsL c l]
end

theorem mem_self (n : N) : n ∈ n.subs := by cases n <;> simp [N.subs]

/-- The memo only holds right answers, about nodes of `U`. -/
def Good (U : List N) (memo : Memo) : Prop :=
  ∀ i r, memo i = some r → ∃ n ∈ U, n.id = i ∧ r = (n.strip, n.stmts)

theorem good_update {U : List N} {memo : Memo} (h : Good U memo) (n : N) (hn : n ∈ U) :
    Good U (Function.update memo n.id (some (n.strip, n.stmts))) := by
  intro i r hr
  by_cases hi : i = n.id
  · subst hi
    rw [Function.update_self] at hr
    cases hr
    exact ⟨n, hn, rfl, rfl⟩
  · rw [Function.update_of_ne hi] at hr
    exact h i r hr

mutual
theorem extract_eq (U : List N) (hU : Consistent U) : ∀ (n : N) (memo : Memo), (∀ m ∈ n.subs, m ∈ U) →
    Good U memo → (extract memo n).1 = (n.strip, n.stmts) ∧ Good U (extract memo n).2
  | n, memo, hn, hg => by
    have hmem : ∀ r, memo n.id = some r → r = (n.strip, n.stmts) := by
      intro r hr
      obtain ⟨m, hm, hid, rfl⟩ := hg _ _ hr
      rw [hU m hm n (hn n (mem_self n)) hid]
    match n with
    | .ctrl i =>
      rw [extract]
      cases hm : memo i with
      | some r => exact ⟨hmem r hm, hg⟩
      | none => exact ⟨rfl, hg⟩
    | .leaf i =>
      rw [extract]
      cases hm : memo i with
      | some r => exact ⟨hmem r hm, hg⟩
      | none => exact ⟨rfl, good_update hg (.leaf i) (hn _ (mem_self _))⟩
    | .ph i h l =>
      rw [extract]
      cases hm : memo i with
      | some r => exact ⟨hmem r hm, hg⟩
      | none =>
        dsimp only
        have hl := extractL_eq U hU l memo (fun m hm' => hn m (by simp [N.subs, hm'])) hg
        have hh := extract_eq U hU h (extractL memo l).2 (fun m hm' => hn m (by simp [N.subs, hm'])) hl.2.2
        have e : (extract (extractL memo l).2 h).1 = (h.strip, h.stmts) := hh.1
        have hr : ((extract (extractL memo l).2 h).1.1,
            (extractL memo l).1.flatMap Prod.snd ++ (extract (extractL memo l).2 h).1.2) =
            ((N.ph i h l).strip, (N.ph i h l).stmts) := by
          rw [e, hl.2.1, N.strip, N.stmts]
        refine ⟨hr, ?_⟩
        have := good_update hh.2 (.ph i h l) (hn _ (mem_self _))
        rw [← hr] at this
        exact this
    | .op i l =>
      rw [extract]
      cases hm : memo i with
      | some r => exact ⟨hmem r hm, hg⟩
      | none =>
        dsimp only
        have hl := extractL_eq U hU l memo (fun m hm' => hn m (by simp [N.subs, hm'])) hg
        have hr : (some (N.op i (setInputs ((extractL memo l).1.map Prod.fst))), (extractL memo l).1.flatMap Prod.snd) =
            ((N.op i l).strip, (N.op i l).stmts) := by
          rw [hl.1, hl.2.1, N.strip, N.stmts]
        refine ⟨hr, ?_⟩
        have := good_update hl.2.2 (.op i l) (hn _ (mem_self _))
        rw [← hr] at this
        exact this
  termination_by n => (sizeOf n, 1)
theorem extractL_eq (U : List N) (hU : Consistent U) : ∀ (l : List N) (memo : Memo), (∀ m ∈ subsL l, m ∈ U) →
    Good U memo → setInputs ((extractL memo l).1.map Prod.fst) = stripL l ∧
      (extractL memo l).1.flatMap Prod.snd = stmtsL l ∧ Good U (extractL memo l).2
  | [], memo, _, hg => by rw [extractL]; exact ⟨rfl, rfl, hg⟩
  | n :: l, memo, hn, hg => by
    have h1 := extract_eq U hU n memo (fun m hm => hn m (by simp [subsL, hm])) hg
    have h2 := extractL_eq U hU l (extract memo n).2 (fun m hm => hn m (by simp [subsL, hm])) h1.2
    rw [extractL]
    dsimp only
    refine ⟨?_, ?_, h2.2.2⟩
    · rw [List.map_cons, h1.1, stripL, ← h2.1]
      unfold setInputs
      rw [List.filterMap_cons]
      cases n.strip <;> simp
    · rw [List.flatMap_cons, h1.1, h2.2.1, stmtsL]
  termination_by l => (sizeOf l, 0)
end

/-- **C54.**  For every expression graph, sharing included: the node returned is the expression with each placeholder
replaced by its main input, and the statements are those carried by the placeholders, in order of appearance, once
per path that leads to them; so exactly once each when nothing is shared.

Partial: a shared placeholder has its statements repeated (`C54_shared_repeats`), and an extra operand that is not
control flow is lost (`C54_assignment_lost`). -/
theorem C54_extract_partial (n : N) (hc : Consistent n.subs) :
    (extract (fun _ => none) n).1.1 = n.strip ∧
    (extract (fun _ => none) n).1.2 = n.stmts ∧
    ∀ c, (extract (fun _ => none) n).1.2.count c = n.carried c := by
  have h := (extract_eq n.subs hc n (fun _ => none) (fun _ h => h) (by intro i r h; cases h)).1
  rw [h]
  exact ⟨rfl, rfl, fun c => count_stmts c n⟩

mutual
/-- Contains no placeholder. -/
def N.Free : N → Prop
  | .ph _ _ _ => False
  | .op _ l => FreeL l
  | _ => True
def FreeL : List N → Prop
  | [] => True
  | n :: l => n.Free ∧ FreeL l
end

theorem freeL_append : ∀ a b : List N, FreeL a → FreeL b → FreeL (a ++ b)
  | [], _, _, h => h
  | _ :: l, b, ⟨h1, h2⟩, h => ⟨h1, freeL_append l b h2 h⟩

mutual
theorem strip_free : ∀ (n m : N), n.strip = some m → m.Free
  | .leaf _, m, h => by rw [N.strip] at h; cases h; trivial
  | .ctrl _, m, h => by rw [N.strip] at h; cases h
  | .ph _ h' _, m, h => strip_free h' m (by rwa [N.strip] at h)
  | .op _ l, m, h => by rw [N.strip] at h; cases h; exact stripL_free l
theorem stripL_free : ∀ l : List N, FreeL (stripL l)
  | [] => trivial
  | n :: l => by
    rw [stripL]
    apply freeL_append
    · cases h : n.strip with
      | none => trivial
      | some m => exact ⟨strip_free n m h, trivial⟩
    · exact stripL_free l
end

/-- **C54** (second part).  The node returned contains no placeholder. -/
theorem C54_free (n m : N) (hc : Consistent n.subs) (h : (extract (fun _ => none) n).1.1 = some m) : m.Free :=
  strip_free n m (by rw [← (C54_extract_partial n hc).1, h])

/-- A graph with two placeholders, one nested in the main input of the other. -/
def sample : N := .op 0 [.ph 1 (.op 2 [.ph 3 (.leaf 4) [.ctrl 5], .leaf 4]) [.ctrl 6, .ctrl 7], .leaf 8]
example : Consistent sample.subs := by
  simp [Consistent, sample, N.subs, subsL, N.id]
example : sample.stmts = [6, 7, 5] := by simp [sample, N.stmts, stmtsL]

/-- A placeholder used twice has its statement extracted twice. -/
theorem C54_shared_repeats :
    (extract (fun _ => none) (.op 0 [.ph 1 (.leaf 2) [.ctrl 3], .ph 1 (.leaf 2) [.ctrl 3]])).1.2 = [3, 3] ∧
    Consistent (N.subs (.op 0 [.ph 1 (.leaf 2) [.ctrl 3], .ph 1 (.leaf 2) [.ctrl 3]])) := by
  have hc : Consistent (N.subs (.op 0 [.ph 1 (.leaf 2) [.ctrl 3], .ph 1 (.leaf 2) [.ctrl 3]])) := by
    simp [Consistent, N.subs, subsL, N.id]
  exact ⟨(C54_extract_partial _ hc).2.1.trans (by simp [N.stmts, stmtsL]), hc⟩

/-- An assignment (not a control-flow node) carried by a placeholder disappears. -/
theorem C54_assignment_lost :
    (extract (fun _ => none) (.ph 0 (.leaf 1) [.op 2 [.leaf 3, .leaf 4]])).1.2 = [] := by
  have hc : Consistent (N.subs (.ph 0 (.leaf 1) [.op 2 [.leaf 3, .leaf 4]])) := by
    simp [Consistent, N.subs, subsL, N.id]
  exact (C54_extract_partial _ hc).2.1.trans (by simp [N.stmts, stmtsL])

end Verif.Legal.Place
