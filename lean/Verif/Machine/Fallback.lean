import Verif.Machine.Model
import Mathlib.Tactic.Push

/-!
# C28: dropping fall-through jumps
-/

namespace Verif.Machine

variable {S V : Type}

theorem dropJump_other (h : ℕ → List (Ctl S V)) (b c x : ℕ) (hx : x ≠ b) : dropJump h b c x = h x := by
  unfold dropJump
  split
  · exact if_neg (fun hh => hx hh.2)
  · rfl

theorem dropJump_self (h : ℕ → List (Ctl S V)) (b c : ℕ) :
    ((h b).getLast? = some (.goto c) ∧ dropJump h b c b = (h b).dropLast) ∨ dropJump h b c b = h b := by
  unfold dropJump
  split
  · rename_i d hl
    by_cases hd : d = c
    · subst hd
      exact Or.inl ⟨hl, if_pos ⟨rfl, rfl⟩⟩
    · exact Or.inr (if_neg (fun hh => hd hh.1))
  · exact Or.inr rfl

theorem simplifyFallback_outside : ∀ (L : List ℕ) (h : ℕ → List (Ctl S V)) (b : ℕ), b ∉ L →
    simplifyFallback L h b = h b
  | [], _, _, _ => rfl
  | [_], _, _, _ => rfl
  | a :: c :: L, h, b, hb => by
    rw [simplifyFallback, simplifyFallback_outside (c :: L) _ b (fun hh => hb (List.mem_cons_of_mem _ hh))]
    exact dropJump_other h a c b (fun hh => hb (by simp [hh]))

/-- Contents of the block at position `k` after the pass. -/
theorem simplifyFallback_at : ∀ (L : List ℕ) (h : ℕ → List (Ctl S V)), L.Nodup → ∀ k b, L[k]? = some b →
    (∃ d, (h b).getLast? = some (.goto d) ∧ L[k + 1]? = some d ∧
      simplifyFallback L h b = (h b).dropLast) ∨ simplifyFallback L h b = h b
  | [], _, _, k, b, hk => by simp at hk
  | [a], h, _, k, b, hk => Or.inr rfl
  | a :: c :: L, h, hn, k, b, hk => by
    rw [simplifyFallback]
    have ha : a ∉ c :: L := (List.nodup_cons.1 hn).1
    cases k with
    | zero =>
      simp at hk
      subst hk
      rw [simplifyFallback_outside (c :: L) _ a ha]
      rcases dropJump_self h a c with ⟨h1, h2⟩ | h1
      · exact Or.inl ⟨c, h1, rfl, h2⟩
      · exact Or.inr h1
    | succ k =>
      have hk' : (c :: L)[k]? = some b := by simpa using hk
      have hba : b ≠ a := by
        rintro rfl
        exact ha (List.mem_of_getElem? hk')
      have hsame : ∀ h' : ℕ → List (Ctl S V), h' b = h b →
          (∃ d, (h b).getLast? = some (.goto d) ∧ (a :: c :: L)[k + 1 + 1]? = some d ∧
            simplifyFallback (c :: L) h' b = (h b).dropLast) ∨ simplifyFallback (c :: L) h' b = h b := by
        intro h' hh
        rcases simplifyFallback_at (c :: L) h' (List.nodup_cons.1 hn).2 k b hk' with ⟨d, h1, h2, h3⟩ | h1
        · left
          exact ⟨d, by rw [← hh]; exact h1, by simpa using h2, by rw [h3, hh]⟩
        · right; rw [h1, hh]
      exact hsame _ (dropJump_other h a c b hba)

/-- **C28.**  When every block is laid out once, removing the trailing jumps to the next block
leaves every execution unchanged, whatever the start position, instruction and state.

Partial: a block list with repetitions, as basic-block simplification produces, is not covered
(`C28_duplicate_wrong`). -/
theorem C28_fallback_partial (h : ℕ → List (Ctl S V)) (L : List ℕ) (hL : L.Nodup) :
    ∀ (n k i : ℕ) (s : S), runL (simplifyFallback L h) L n k i s = runL h L n k i s := by
  intro n
  induction n with
  | zero => intro k i s; rfl
  | succ n ih =>
    intro k i s
    rw [runL, runL]
    cases hk : L[k]? with
    | none => rfl
    | some b =>
      dsimp only
      rcases simplifyFallback_at L h hL k b hk with ⟨d, h1, h2, h3⟩ | h1
      · rw [h3]
        obtain ⟨pre, hpre⟩ : ∃ pre, h b = pre ++ [.goto d] := by
          refine ⟨(h b).dropLast, ?_⟩
          exact (List.dropLast_append_getLast? _ h1).symm
        rw [hpre, List.dropLast_concat]
        have hidx : L.idxOf d = k + 1 := by
          obtain ⟨hlt, he⟩ := List.getElem?_eq_some_iff.1 h2
          rw [← he]
          exact hL.idxOf_getElem (k + 1) hlt
        have hmem : d ∈ L := List.mem_of_getElem? h2
        by_cases hi : i < pre.length
        · rw [List.getElem?_append_left hi]
          cases pre[i]? with
          | none => exact ih _ _ _
          | some x =>
            cases x with
            | act f => exact ih _ _ _
            | ret e => rfl
            | goto d' => dsimp only; split; exact ih _ _ _; rfl
            | cond c d' =>
              dsimp only
              split
              · split; exact ih _ _ _; rfl
              · exact ih _ _ _
        · rw [List.getElem?_eq_none (by omega)]
          by_cases hi2 : i = pre.length
          · subst hi2
            rw [List.getElem?_append_right (by omega)]
            simp only [Nat.sub_self, List.getElem?_cons_zero, if_pos hmem, hidx]
            exact ih _ _ _
          · rw [List.getElem?_eq_none (by simp; omega)]
            exact ih _ _ _
      · rw [h1]
        cases (h b)[i]? with
        | none => exact ih _ _ _
        | some x =>
          cases x with
          | act f => exact ih _ _ _
          | ret e => rfl
          | goto d' => dsimp only; split; exact ih _ _ _; rfl
          | cond c d' =>
            dsimp only
            split
            · split; exact ih _ _ _; rfl
            · exact ih _ _ _

/-- A block with a droppable jump, in a nodup layout: the pass does drop it. -/
def twoBlocks : ℕ → List (Ctl ℕ ℕ)
  | 0 => [.act (· + 1), .cond (fun s => s > 5) 2, .goto 1]
  | 1 => [.act (· * 2), .goto 2]
  | 2 => [.ret id]
  | _ => []

example : [0, 1, 2].Nodup := by decide
example : (simplifyFallback [0, 1, 2] twoBlocks 0).length = 2 ∧
  (simplifyFallback [0, 1, 2] twoBlocks 1).length = 1 := ⟨rfl, rfl⟩
example : runL (simplifyFallback [0, 1, 2] twoBlocks) [0, 1, 2] 9 0 0 3 = some (.ret 8 8) := rfl

/-- **C28, effect.**  In a list without repetition every jump at the end of a block to the block laid out next is removed, and
nothing else changes. -/
theorem C28_removes_jumps : ∀ (L : List ℕ), L.Nodup → ∀ (h : ℕ → List (Ctl S V)),
    (∀ pre b c post, L = pre ++ b :: c :: post → (h b).getLast? = some (.goto c) →
      simplifyFallback L h b = (h b).dropLast) ∧
    ∀ b, (∀ pre c post, L = pre ++ b :: c :: post → (h b).getLast? ≠ some (.goto c)) → simplifyFallback L h b = h b
  | [], _, h => ⟨fun pre b c post e => by simp at e, fun _ _ => rfl⟩
  | [a], _, h => ⟨fun pre b c post e => by cases pre <;> simp at e, fun _ _ => rfl⟩
  | a :: c :: L, hn, h => by
    have hn' : (c :: L).Nodup := (List.nodup_cons.1 hn).2
    have ha : a ∉ c :: L := (List.nodup_cons.1 hn).1
    have ih := C28_removes_jumps (c :: L) hn' (dropJump h a c)
    have hother : ∀ x, x ≠ a → dropJump h a c x = h x := by
      intro x hx; rw [dropJump]; split <;> simp [hx]
    constructor
    · intro pre b d post e hb
      cases pre with
      | nil =>
        simp only [List.nil_append, List.cons.injEq] at e
        obtain ⟨rfl, rfl, rfl⟩ := e
        rw [simplifyFallback, simplifyFallback_outside _ _ _ ha, dropJump, hb]
        simp
      | cons p pre =>
        simp only [List.cons_append, List.cons.injEq] at e
        obtain ⟨rfl, e⟩ := e
        have hba : b ≠ a := fun h0 => ha (by rw [e, ← h0]; simp)
        rw [simplifyFallback]
        have := ih.1 pre b d post e (by rw [hother b hba]; exact hb)
        rw [this, hother b hba]
    · intro b hb
      rw [simplifyFallback]
      by_cases hba : b = a
      · subst hba
        rw [simplifyFallback_outside _ _ _ ha, dropJump]
        have := hb [] c L rfl
        split
        · rename_i d hd
          have hdc : d ≠ c := fun e => this (by rw [hd, e])
          simp [hdc]
        · rfl
      · have := ih.2 b (fun pre d post e => by
          rw [hother b hba]
          exact hb (a :: pre) d post (by rw [e]; rfl))
        rw [this, hother b hba]

example : (simplifyFallback [0, 1, 2] twoBlocks 0).length = (twoBlocks 0).length - 1 := rfl

/-- The blocks of a diamond whose join does something and jumps on. -/
def joinBlocks : ℕ → List (Ctl ℕ ℕ)
  | 0 => [.cond (fun s => s > 3) 1, .goto 2]
  | 1 => [.goto 3]
  | 2 => [.goto 3]
  | 3 => [.act (· + 1), .goto 4]
  | 4 => [.ret id]
  | _ => []

/-- On the block list basic-block simplification makes of this diamond (each block once per path,
`C26_duplicates`), the pass removes from the shared block the jump that the first occurrence needs:
the join is executed twice. -/
theorem C28_duplicate_wrong :
    runL joinBlocks [0, 1, 2, 3, 3, 4, 4] 20 0 0 0 = some (.ret 1 1) ∧
    runL (simplifyFallback [0, 1, 2, 3, 3, 4, 4] joinBlocks) [0, 1, 2, 3, 3, 4, 4] 20 0 0 0 =
      some (.ret 2 2) := ⟨rfl, rfl⟩

end Verif.Machine
