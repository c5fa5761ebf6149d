import Verif.Rewrite.Lower
import Mathlib.Tactic.FinCases
import Mathlib.Tactic.Ring

/-! # C59: a graph that meets the hypotheses, and a graph that is not lowered completely -/

namespace Verif.Rewrite

/-- Operations of the examples: the input `x`, a square, a cube, a fourth power, a product and a sum. -/
inductive Arith where
  | x | sq | cube | pow4 | mul | add
deriving DecidableEq, Repr

def Arith.arity : Arith → ℕ
  | .x => 0
  | .sq | .cube | .pow4 => 1
  | .mul | .add => 2

/-- meaning of the operations when the input is `a` -/
def Arith.den (a : ℤ) : Arith → List ℤ → ℤ
  | .x, _ => a
  | .sq, [u] => u ^ 2
  | .cube, [u] => u ^ 3
  | .pow4, [u] => u ^ 4
  | .mul, [u, v] => u * v
  | .add, [u, v] => u + v
  | _, _ => 0

/-- a target with a product: `sq x ↦ x * x`, `cube x ↦ sq x * x` -/
def squares : Arith → Option (Recipe Arith)
  | .sq => some ⟨[(.mul, [.inp 0, .inp 0])], .loc 0⟩
  | .cube => some ⟨[(.sq, [.inp 0]), (.mul, [.loc 0, .inp 0])], .loc 1⟩
  | _ => none

/-- the same target with `pow4 x ↦ sq (sq x)` -/
def squares4 : Arith → Option (Recipe Arith)
  | .pow4 => some ⟨[(.sq, [.inp 0]), (.sq, [.loc 0])], .loc 1⟩
  | op => squares op

/-- `s = cube (sq x)`, `s + s`: the node `cube` is shared -/
def shared : Heap Arith := [⟨.x, []⟩, ⟨.sq, [0]⟩, ⟨.cube, [1]⟩, ⟨.add, [2, 2]⟩]

/-- `p = pow4 x`, `p + p` -/
def sharedPow4 : Heap Arith := [⟨.x, []⟩, ⟨.pow4, [0]⟩, ⟨.add, [1, 1]⟩]

theorem len1 {xs : List ℤ} (h : xs.length = 1) : ∃ u, xs = [u] := List.length_eq_one_iff.1 h

theorem squares_sound (a : ℤ) : Sound Arith.arity (Arith.den a) squares := by
  refine ⟨?_, ?_, ?_⟩
  · intro op r h k op' refs hk
    cases op <;> simp only [squares, Option.some.injEq, reduceCtorEq] at h <;> subst h
    · rcases k with _ | k <;> simp at hk
      obtain ⟨rfl, rfl⟩ := hk
      exact ⟨rfl, fun x hx => by fin_cases hx <;> exact Nat.zero_lt_one⟩
    · rcases k with _ | _ | k <;> simp at hk
      · obtain ⟨rfl, rfl⟩ := hk
        exact ⟨rfl, fun x hx => by fin_cases hx; exact Nat.zero_lt_one⟩
      · obtain ⟨rfl, rfl⟩ := hk
        exact ⟨rfl, fun x hx => by fin_cases hx <;> exact Nat.zero_lt_one⟩
  · intro op r h
    cases op <;> simp only [squares, Option.some.injEq, reduceCtorEq] at h <;> subst h
    · exact Nat.zero_lt_one
    · exact Nat.one_lt_two
  · intro op r xs h hl
    cases op <;> simp only [squares, Option.some.injEq, reduceCtorEq] at h <;> subst h <;> obtain ⟨u, rfl⟩ := len1 hl
    · show u * u = u ^ 2; ring
    · show u ^ 2 * u = u ^ 3; ring

theorem squares4_sound (a : ℤ) : Sound Arith.arity (Arith.den a) squares4 := by
  have hs := squares_sound a
  refine ⟨?_, ?_, ?_⟩
  · intro op r h
    cases op
    case pow4 =>
      simp only [squares4, Option.some.injEq] at h; subst h
      intro k op' refs hk
      rcases k with _ | _ | k <;> simp at hk
      · obtain ⟨rfl, rfl⟩ := hk
        exact ⟨rfl, fun x hx => by fin_cases hx; exact Nat.zero_lt_one⟩
      · obtain ⟨rfl, rfl⟩ := hk
        exact ⟨rfl, fun x hx => by fin_cases hx; exact Nat.zero_lt_one⟩
    all_goals exact hs.nodes _ _ h
  · intro op r h
    cases op
    case pow4 => simp only [squares4, Option.some.injEq] at h; subst h; exact Nat.one_lt_two
    all_goals exact hs.result _ _ h
  · intro op r xs h hl
    cases op
    case pow4 =>
      simp only [squares4, Option.some.injEq] at h; subst h
      obtain ⟨u, rfl⟩ := len1 hl
      show (u ^ 2) ^ 2 = u ^ 4; ring
    all_goals exact hs.value _ _ _ h hl

theorem squares4_noCycle : NoCycle squares4 := by
  refine ⟨fun op => match op with | .sq => 1 | .cube => 2 | .pow4 => 2 | _ => 0, fun op r h x hx => ?_⟩
  cases op <;> simp only [squares4, squares, Option.some.injEq, reduceCtorEq] at h <;> subst h <;> fin_cases hx <;> decide

theorem squares_noCycle : NoCycle squares := by
  obtain ⟨w, hw⟩ := squares4_noCycle
  exact ⟨w, fun op r h => hw op r (by cases op <;> first | exact h | cases h)⟩

theorem squares_rootFree : RootFree squares := by
  intro op r h
  cases op <;> simp only [squares, Option.some.injEq, reduceCtorEq] at h <;> subst h
  · exact ⟨0, _, _, rfl, rfl, rfl⟩
  · exact ⟨1, _, _, rfl, rfl, rfl⟩

theorem shared_wf : WF Arith.arity shared := by
  refine ⟨id, fun n nd h => ?_⟩
  rcases n with _ | _ | _ | _ | n <;> simp [shared] at h <;> subst h <;> simp [Arith.arity, shared]

theorem sharedPow4_wf : WF Arith.arity sharedPow4 := by
  refine ⟨id, fun n nd h => ?_⟩
  rcases n with _ | _ | _ | n <;> simp [sharedPow4] at h <;> subst h <;> simp [Arith.arity, sharedPow4]

/-- the hypotheses are met, and this is the lowered graph: two actions on old nodes, one on a new node -/
example : (∀ a, Sound Arith.arity (Arith.den a) squares) ∧ NoCycle squares ∧ RootFree squares ∧ WF Arith.arity shared ∧
    (executeOnGraph squares 10 shared 3).map (fun r => (r.1.heap, r.1.log, r.2)) =
      some ([⟨.x, []⟩, ⟨.sq, [0]⟩, ⟨.cube, [1]⟩, ⟨.add, [5, 5]⟩, ⟨.sq, [1]⟩, ⟨.mul, [6, 7]⟩, ⟨.mul, [7, 7]⟩, ⟨.mul, [0, 0]⟩],
        [2, 4, 1], 3) :=
  ⟨squares_sound, squares_noCycle, squares_rootFree, shared_wf, by decide +kernel⟩

example (a : ℤ) := C59_lower (squares_sound a) squares_noCycle shared_wf (n := 3) (by decide)

example (a : ℤ) (s : St Arith) (h : executeOnGraph squares 10 shared 3 = some (s, 3)) :=
  C59_lower_complete_partial (squares_sound a) squares_noCycle squares_rootFree shared_wf (by decide) h

/-- **C59**, completeness fails without the restriction: actions that preserve values and have no cycle, a graph of three nodes, and
a lowered graph (with the right value) in which a node reachable from the root can still be lowered.  The second use of a lowered
node gets the node recorded for it, which is the result of the first action and not the result of lowering that one. -/
theorem C59_lower_chain_wrong : ∃ (act : Arith → Option (Recipe Arith)) (h : Heap Arith) (s : St Arith) (m : ℕ) (nd : Node Arith),
    (∀ a, Sound Arith.arity (Arith.den a) act) ∧ NoCycle act ∧ WF Arith.arity h ∧
    (∀ fuel, 10 ≤ fuel → executeOnGraph act fuel h 2 = some (s, 2)) ∧
    Below s.heap 2 m ∧ s.heap[m]? = some nd ∧ act nd.op ≠ none := by
  refine ⟨squares4, sharedPow4, ⟨[⟨.x, []⟩, ⟨.pow4, [0]⟩, ⟨.add, [5, 4]⟩, ⟨.sq, [0]⟩, ⟨.sq, [3]⟩, ⟨.mul, [6, 6]⟩, ⟨.mul, [0, 0]⟩],
    [(0, 0), (6, 6), (3, 6), (5, 5), (4, 5), (1, 4), (2, 2)], [1, 4, 3]⟩, 4, ⟨.sq, [3]⟩, squares4_sound, squares4_noCycle, sharedPow4_wf,
    fun fuel hf => ?_, .step (nd := ⟨.add, [5, 4]⟩) .refl rfl (by decide), rfl, by decide⟩
  refine lowerNode_mono hf ?_
  decide +kernel

end Verif.Rewrite
