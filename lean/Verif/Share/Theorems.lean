import Verif.Share.Lemmas

/-! # C101: factorizing sub-expressions shared between branches -/

namespace Verif.Share

/-- **C101, partial.** The program in which shared sub-expressions have been factorized, as the code generated for it runs, does what the program does, on every input for which
no operation that depends on inputs only fails, if no node that returns a value or raises an exception is used in two places. -/
theorem C101_preserves_partial (S : Sem) (inp : ℕ → ℤ) (N : ℕ) (P : Stmt) (hc : Coherent P.nodes) (hclean : P.clean) (heff : P.effects.Nodup)
    (hdisj : ∀ i f a, Expr.op i f a ∈ P.nodes → i ∉ P.effects) (htot : ∀ e ∈ P.nodes, hasVar e = false → eval S inp (fun _ => 0) e ≠ none) (vars : ℕ → ℤ) (fl : List ℕ) :
    execM S inp N [] (share P) vars fl = exec S inp N P vars fl := by
  obtain ⟨hI, -⟩ := look_inv hc hdisj P true [] (fun _ h => h) (fun _ h => h) heff ⟨[], [], []⟩ ⟨by simp, by simp⟩ (by simp)
  refine execM_insert hc (anc := hoisted P) ?_ P (m := []) (by intro i v h; simp at h) (fun _ h => h) hclean vars fl
  intro p hp
  obtain ⟨i, f, args, h1, h2, h3⟩ := hI.anc p hp
  refine ⟨.op i f args, h1, fun x hx => stmt_nodes_sub P _ h2 x hx, by simpa [hasVar] using h3, fun v => ?_⟩
  rw [eval_indep S inp v (fun _ => 0) _ (by simpa [hasVar] using h3)]
  exact htot _ h2 (by simpa [hasVar] using h3)

/-- **C101.** A node that depends on inputs only and is returned by both branches of a conditional is computed once, before the conditional. -/
theorem C101_factors (k r1 r2 i f : ℕ) (args : List Expr) (c : Expr) (hleaf : nodes c = []) (hv : hasVarL args = false) (hc : Coherent (nodes (.op i f args))) (hr : r1 ≠ r2)
    (h1 : ∀ g a, Expr.op r1 g a ∉ nodes (.op i f args)) (h2 : ∀ g a, Expr.op r2 g a ∉ nodes (.op i f args)) :
    ∃ l s, share (.block false [.cond k c (.ret r1 (.op i f args)) (.ret r2 (.op i f args))]) = .block false (l ++ [s]) ∧ Stmt.expr (.op i f args) ∈ l := by
  have hlc : ∀ top ps st, lookE top ps c st = st := by
    intro top ps st
    cases c with
    | op => simp [nodes] at hleaf
    | _ => rfl
  have hE : ∀ j g a, Expr.op j g a ∈ nodes (.op i f args) → j ∉ [r1, r2] := by
    intro j g a hj
    simp only [List.mem_cons, List.not_mem_nil, or_false, not_or]
    exact ⟨by rintro rfl; exact h1 g a hj, by rintro rfl; exact h2 g a hj⟩
  have hvo : hasVar (.op i f args) = false := by simpa [hasVar] using hv
  have hir : i ≠ r1 := by rintro rfl; exact h1 f args (by simp [nodes])
  have hmem : (k, Stmt.expr (.op i f args)) ∈ hoisted (.block false [.cond k c (.ret r1 (.op i f args)) (.ret r2 (.op i f args))]) := by
    simp only [hoisted, look, lookL, hlc, Bool.false_eq_true, if_false, List.nil_append, hvo]
    -- the first branch
    obtain ⟨s1, hs1⟩ : ∃ s1, s1 = visit false [k] r1 false (.ret r1 (.op i f args)) (lookE false [k] (.op i f args)) ⟨[], [], []⟩ := ⟨_, rfl⟩
    rw [← hs1]
    have hs1' : s1 = lookE false [k] (.op i f args) ⟨[(r1, [k])], [], []⟩ := by rw [hs1]; rfl
    obtain ⟨-, a2⟩ := lookE_inv hc hE false [k] (.op i f args) (fun _ h => h) ⟨[(r1, [k])], [], []⟩ ⟨by simp, by simp⟩
    rw [← hs1'] at a2
    have hlr2 : s1.sharing.lookup r2 = none := by
      apply lookup_none
      intro p hp
      rcases a2 p hp with h | h
      · simp only [List.mem_singleton] at h
        subst h
        exact hr
      · simp only [List.mem_cons, List.not_mem_nil, or_false, not_or] at h
        exact h.2
    have hli : s1.sharing.lookup i = some [k] ∧ s1.level0 = [] := by
      have : s1 = lookEL false [k] args ⟨[(r1, [k]), (i, [k])], [], []⟩ := by
        rw [hs1']
        simp only [lookE, visit, hv]
        rw [show List.lookup i [(r1, [k])] = none by rw [List.lookup_cons, show (i == r1) = false by simpa using hir]; rfl]
        rfl
      obtain ⟨q1, q2, -⟩ := lookEL_keep [k] args ⟨[(r1, [k]), (i, [k])], [], []⟩
      rw [this]
      refine ⟨q1 i [k] ?_, q2⟩
      show List.lookup i [(r1, [k]), (i, [k])] = some [k]
      rw [List.lookup_cons]
      have : (i == r1) = false := by simpa using hir
      rw [this]
      simp [List.lookup_cons]
    -- the second branch
    have : visit false [k] r2 false (.ret r2 (.op i f args)) (lookE false [k] (.op i f args)) s1 =
        { s1 with sharing := s1.sharing ++ [(r2, [k])], anc := s1.anc ++ [(k, .expr (.op i f args))] } := by
      simp only [visit, hlr2, Bool.false_eq_true, if_false, lookE, lookup_append hli.1, hli.2]
      simp [commonAncestor]
    rw [this]
    simp
  refine ⟨pre (hoisted (.block false [.cond k c (.ret r1 (.op i f args)) (.ret r2 (.op i f args))])) (.cond k c (.ret r1 (.op i f args)) (.ret r2 (.op i f args))),
    .cond k c (.ret r1 (.op i f args)) (.ret r2 (.op i f args)), ?_, ?_⟩
  · simp only [share, insertPre, insertPreL]
  · simp only [pre, List.mem_map, List.mem_filter]
    exact ⟨_, ⟨hmem, by simp⟩, rfl⟩

/-- the table read `T[x]` of a table of 16 entries (operation 0), the test `x < 16` (operation 1) and the addition (operation 2) -/
def toy : Sem
  | 0, [x] => if 0 ≤ x ∧ x < 16 then some (x * x) else none
  | 1, [x] => some (if x < 16 then 1 else 0)
  | 2, [x, y] => some (x + y)
  | _, _ => none

/-- `if (x < 16) return T[x] + (T[x] + x); else return 0;` where the two `T[x]` are the same node -/
def guarded : Stmt := .block false [.cond 1 (.op 2 1 [.inp 0]) (.block false [.ret 3 (.op 4 2 [.op 5 0 [.inp 0], .op 6 2 [.op 5 0 [.inp 0], .inp 0]])]) (.block false [.ret 7 (.cst 0)])]

/-- **C101, a disagreement.** A node used twice inside one branch is computed before the test that guards the branch: the search for a definition in the enclosing levels looks at
the outermost level only.  Here a table is read out of its bounds although the program tests the index. -/
theorem C101_guard_wrong : Coherent guarded.nodes ∧ guarded.effects.Nodup ∧ ∃ inp, ∀ N vars fl,
    exec toy inp N guarded vars fl = .fin vars fl (some 0) ∧ execM toy inp N [] (share guarded) vars fl = .trap := by
  refine ⟨?_, by decide, fun _ => 100, fun N vars fl => ⟨rfl, rfl⟩⟩
  intro i f g a b h1 h2
  simp only [guarded, Stmt.nodes, stmtsNodes, nodes, nodesL, List.mem_append, List.mem_cons, List.not_mem_nil, or_false, false_or, Expr.op.injEq] at h1 h2
  rcases h1 with h1 | h1 | h1 | h1 | h1 <;> rcases h2 with h2 | h2 | h2 | h2 | h2 <;>
    (obtain ⟨rfl, rfl, rfl⟩ := h1; obtain ⟨e1, rfl, rfl⟩ := h2; first | rfl | (exact absurd e1 (by decide)))

/-- `if (x) { return 1; } else { if (y) { return 1; } else { return 2; } }` where the two `return 1` are the same node -/
def sharedReturn : Stmt := .block false [.cond 1 (.inp 0) (.block false [.ret 2 (.cst 1)]) (.block false [.cond 3 (.inp 1) (.block false [.ret 2 (.cst 1)]) (.block false [.ret 4 (.cst 2)])])]

/-- **C101, a disagreement.** A return node (or a node raising an exception) used in two branches is itself put before the conditional: the function then always returns there. -/
theorem C101_return_wrong : ∃ inp, ∀ S N vars fl, exec S inp N sharedReturn vars fl = .fin vars fl (some 2) ∧ execM S inp N [] (share sharedReturn) vars fl = .fin vars fl (some 1) :=
  ⟨fun _ => 0, fun _ _ _ _ => ⟨rfl, rfl⟩⟩

/-- the hypotheses are met: both branches use the sum of the inputs, which is hoisted -/
example : ∃ l s, share (.block false [.cond 9 (.inp 2) (.ret 7 (.op 1 2 [.inp 0, .inp 1])) (.ret 8 (.op 1 2 [.inp 0, .inp 1]))]) = .block false (l ++ [s]) ∧
    Stmt.expr (.op 1 2 [.inp 0, .inp 1]) ∈ l :=
  C101_factors 9 7 8 1 2 [.inp 0, .inp 1] (.inp 2) rfl rfl
    (by
      intro i f g a b h1 h2
      simp only [nodes, nodesL, List.mem_cons, List.append_nil, List.not_mem_nil, or_false] at h1 h2
      rw [h1, h2])
    (by decide) (by intro g a h; simp [nodes, nodesL] at h) (by intro g a h; simp [nodes, nodesL] at h)

example (vars : ℕ → ℤ) : execM toy (fun _ => 5) 0 [] (share guarded) vars [] = .fin vars [] (some 55) := rfl

end Verif.Share
