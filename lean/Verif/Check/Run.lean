import Verif.Check.RunModel
import Mathlib.Tactic.Linarith

/-! # C71: the generated test program fails iff some test case fails -/

namespace Verif.Check

universe u
variable {α : Type u}

theorem lanes_true {ok : α → Bool} {t : List α} {i : ℕ} (ks : List ℕ) (h : ∀ k ∈ ks, i + k < t.length) :
    (lanes ok t i ks = some true ∧ ∀ k ∈ ks, ∀ x, t[i + k]? = some x → ok x = true) ∨
      (lanes ok t i ks = some false ∧ ∃ k ∈ ks, ∃ x, t[i + k]? = some x ∧ ok x = false) := by
  induction ks with
  | nil => left; simp [lanes]
  | cons k ks ih =>
    have hk : i + k < t.length := h k (by simp)
    have hx : t[i + k]? = some t[i + k] := List.getElem?_eq_getElem hk
    simp only [lanes, hx]
    by_cases ho : ok t[i + k] = true
    · rw [if_pos ho]
      rcases ih (fun j hj => h j (by simp [hj])) with ⟨h1, h2⟩ | ⟨h1, j, hj, x, h2⟩
      · left
        refine ⟨h1, ?_⟩
        intro j hj x hjx
        rcases List.mem_cons.1 hj with rfl | hj
        · rw [hx, Option.some.injEq] at hjx; rw [← hjx]; exact ho
        · exact h2 j hj x hjx
      · right; exact ⟨h1, j, by simp [hj], x, h2⟩
    · right
      rw [if_neg ho]
      exact ⟨rfl, k, by simp, _, hx, by simpa using ho⟩

/-- the loop from entry `i` -/
theorem vectorRun_eq {ok : α → Bool} {t : List α} {vs : ℕ} (hvs : 1 ≤ vs) (hd : vs ∣ t.length) :
    ∀ fuel i, t.length ≤ i + fuel → vs ∣ i →
      vectorRun ok t vs fuel i = if ∀ x ∈ t.drop i, ok x = true then some 0 else some 1 := by
  intro fuel
  induction fuel with
  | zero =>
    intro i hf _
    have : ¬ i < t.length := by omega
    simp [vectorRun, this, List.drop_eq_nil_of_le (by omega : t.length ≤ i)]
  | succ fuel ih =>
    intro i hf hi
    by_cases hlt : i < t.length
    · -- a full group of lanes
      obtain ⟨a, ha⟩ := hd
      obtain ⟨b, hb⟩ := hi
      have hfull : i + vs ≤ t.length := by
        have : b < a := by
          by_contra hc
          have := Nat.mul_le_mul_left vs (not_lt.1 hc)
          omega
        have := Nat.mul_le_mul_left vs (this : b + 1 ≤ a)
        rw [ha, hb]; linarith [Nat.mul_succ vs b]
      simp only [vectorRun, hlt, if_true]
      have hsplit : t.drop i = (t.drop i).take vs ++ t.drop (i + vs) := by
        rw [← List.drop_drop, List.take_append_drop]
      have hmem : ∀ x, x ∈ (t.drop i).take vs ↔ ∃ k ∈ List.range vs, t[i + k]? = some x := by
        intro x
        rw [List.mem_iff_getElem?]
        simp only [List.getElem?_take, List.getElem?_drop, List.mem_range]
        constructor
        · rintro ⟨k, hk⟩
          split_ifs at hk with h
          exact ⟨k, h, hk⟩
        · rintro ⟨k, h, hk⟩
          exact ⟨k, by rw [if_pos h]; exact hk⟩
      rcases lanes_true (ok := ok) (t := t) (i := i) (List.range vs) (fun k hk => by have := List.mem_range.1 hk; omega) with
        ⟨h1, h2⟩ | ⟨h1, k, hk, x, hx, hox⟩
      · rw [h1]
        show vectorRun ok t vs fuel (i + vs) = _
        rw [ih (i + vs) (by omega) ⟨b + 1, by rw [hb]; ring⟩]
        congr 1
        apply propext
        conv_rhs => rw [hsplit]
        constructor
        · intro h x hx
          rcases List.mem_append.1 hx with hx | hx
          · obtain ⟨k, hk, e⟩ := (hmem x).1 hx
            exact h2 k hk x e
          · exact h x hx
        · intro h x hx
          exact h x (List.mem_append.2 (Or.inr hx))
      · rw [h1]
        rw [if_neg]
        intro h
        have := h x (by rw [hsplit]; exact List.mem_append.2 (Or.inl ((hmem x).2 ⟨k, hk, hx⟩)))
        rw [hox] at this
        exact absurd this (by simp)
    · simp [vectorRun, hlt, List.drop_eq_nil_of_le (by omega : t.length ≤ i)]

theorem scalarRun_eq {ok : α → Bool} {t : List α} :
    ∀ fuel i, t.length ≤ i + fuel → scalarRun ok false t fuel i = if ∀ x ∈ t.drop i, ok x = true then some 0 else some 1 := by
  intro fuel
  induction fuel with
  | zero =>
    intro i hf
    have : ¬ i < t.length := by omega
    simp [scalarRun, this, List.drop_eq_nil_of_le (by omega : t.length ≤ i)]
  | succ fuel ih =>
    intro i hf
    by_cases hlt : i < t.length
    · have hx : t[i]? = some t[i] := List.getElem?_eq_getElem hlt
      simp only [scalarRun, hlt, if_true, hx, and_true]
      have hdrop : t.drop i = t[i] :: t.drop (i + 1) := List.drop_eq_getElem_cons hlt
      rw [ih (i + 1) (by omega)]
      have hall : (∀ x ∈ t.drop i, ok x = true) ↔ ok t[i] = true ∧ ∀ x ∈ t.drop (i + 1), ok x = true := by
        rw [hdrop]; exact List.forall_mem_cons
      by_cases ho : ok t[i] = true
      · rw [if_neg (by simp [ho])]
        congr 1
        apply propext
        rw [hall]
        exact ⟨fun h => ⟨ho, h⟩, fun h => h.2⟩
      · rw [if_pos (by simpa using ho), if_neg (fun h => ho (hall.1 h).1)]
    · simp [scalarRun, hlt, List.drop_eq_nil_of_le (by omega : t.length ≤ i)]

theorem table_eq (c : Cfg α) (prep : α → α) (rand : ℕ → α) : c.table prep rand = some (c.cases prep rand) ∧
    (c.cases prep rand).length = c.total := by
  have : (c.cases prep rand).length = c.total := by
    simp only [Cfg.cases, Cfg.total, Cfg.count, Cfg.fixed, List.length_append, List.length_map, List.length_range]
    cases c.autoStd <;> cases c.values.isEmpty <;> simp <;> omega
  exact ⟨by simp [Cfg.table, this], this⟩

theorem total_dvd (c : Cfg α) (hvs : 1 ≤ c.vs) : c.vs ∣ c.total ∧ c.diff < c.vs := by
  have hlt : c.diff < c.vs := Nat.mod_lt _ (by omega)
  refine ⟨?_, hlt⟩
  have hm := Nat.mod_lt c.count (by omega : 0 < c.vs)
  rw [Nat.dvd_iff_mod_eq_zero]
  unfold Cfg.total
  by_cases h : c.count % c.vs = 0
  · have : c.diff = 0 := by simp [Cfg.diff, h]
    simp [this, h]
  · have : c.diff = c.vs - c.count % c.vs := by unfold Cfg.diff; exact Nat.mod_eq_of_lt (by omega)
    rw [this, Nat.add_mod, Nat.mod_eq_of_lt (by omega : c.vs - c.count % c.vs < c.vs), show c.count % c.vs + (c.vs - c.count % c.vs) = c.vs by omega]
    exact Nat.mod_self _

theorem cases_all (c : Cfg α) (prep : α → α) (rand : ℕ → α) (P : α → Prop) :
    (∀ x ∈ c.cases prep rand, P x) ↔
      (c.autoStd = true → ∀ x ∈ c.std, P (prep x)) ∧ (∀ x ∈ c.values, P (prep x)) ∧ ∀ i < c.testNum + c.diff, P (rand i) := by
  have hv : (if c.values.isEmpty then [] else c.values) = c.values := by
    cases h : c.values <;> simp
  simp only [Cfg.cases, Cfg.fixed, hv]
  cases c.autoStd <;> simp [or_imp, forall_and, and_assoc]

/-- **C71** (vector implementations) The test program returns 0 iff every standard case (when they are enabled), every case the user
gave and every one of the random cases passes; there are at least as many random cases as requested, and less than a vector more. It
returns 1 otherwise, and never reads out of the tables. -/
theorem C71_vector (c : Cfg α) (hvs : 1 ≤ c.vs) (prep : α → α) (rand : ℕ → α) (ok : α → Bool) :
    ∃ n, c.testNum ≤ n ∧ n < c.testNum + c.vs ∧
      (c.vectorTest prep rand ok = some 0 ↔
        (c.autoStd = true → ∀ x ∈ c.std, ok (prep x) = true) ∧ (∀ x ∈ c.values, ok (prep x) = true) ∧ ∀ i < n, ok (rand i) = true) ∧
      (c.vectorTest prep rand ok = some 0 ∨ c.vectorTest prep rand ok = some 1) := by
  obtain ⟨h1, h2⟩ := table_eq c prep rand
  obtain ⟨hd, hlt⟩ := total_dvd c hvs
  have hrun : c.vectorTest prep rand ok = if ∀ x ∈ c.cases prep rand, ok x = true then some 0 else some 1 := by
    simp only [Cfg.vectorTest, h1, Option.bind_some]
    rw [vectorRun_eq hvs (by rw [h2]; exact hd) _ 0 (by omega) (by simp)]
    simp
  refine ⟨c.testNum + c.diff, by omega, by omega, ?_, ?_⟩
  · rw [hrun, ← cases_all c prep rand (fun x => ok x = true)]
    by_cases h : ∀ x ∈ c.cases prep rand, ok x = true
    · simp only [if_pos h]; exact ⟨fun _ => h, fun _ => trivial⟩
    · simp only [if_neg h, Option.some.injEq, one_ne_zero, false_iff]; exact h
  · rw [hrun]; split_ifs <;> simp

/-- three lanes, one standard case, a failing user value -/
example : (⟨true, [1], [7], 2, 3⟩ : Cfg ℕ).vectorTest id (fun i => i + 100) (· != 7) = some 1 ∧
    (⟨true, [1], [7], 2, 3⟩ : Cfg ℕ).vectorTest id (fun i => i + 100) (fun _ => true) = some 0 ∧
    (⟨true, [1], [7], 2, 3⟩ : Cfg ℕ).total = 6 := by decide

/-- **C71** (scalar implementations) The same with exactly the requested number of random cases, when the test stops at the first error.
Missing: the option that goes on after an error, see `C71_break_error_wrong`. -/
theorem C71_scalar_partial (c : Cfg α) (hvs : c.vs = 1) (prep : α → α) (rand : ℕ → α) (ok : α → Bool) :
    (c.scalarTest prep rand ok false = some 0 ↔
        (c.autoStd = true → ∀ x ∈ c.std, ok (prep x) = true) ∧ (∀ x ∈ c.values, ok (prep x) = true) ∧
          ∀ i < c.testNum, ok (rand i) = true) ∧
      (c.scalarTest prep rand ok false = some 0 ∨ c.scalarTest prep rand ok false = some 1) := by
  obtain ⟨h1, h2⟩ := table_eq c prep rand
  have hdiff : c.diff = 0 := by simp [Cfg.diff, hvs, Nat.mod_one]
  have hrun : c.scalarTest prep rand ok false = if ∀ x ∈ c.cases prep rand, ok x = true then some 0 else some 1 := by
    simp only [Cfg.scalarTest, h1, Option.bind_some]
    rw [scalarRun_eq _ 0 (by omega)]
    simp
  constructor
  · have hall := cases_all c prep rand (fun x => ok x = true)
    rw [hdiff, Nat.add_zero] at hall
    rw [hrun, ← hall]
    by_cases h : ∀ x ∈ c.cases prep rand, ok x = true
    · simp only [if_pos h]; exact ⟨fun _ => h, fun _ => trivial⟩
    · simp only [if_neg h, Option.some.injEq, one_ne_zero, false_iff]; exact h
  · rw [hrun]; split_ifs <;> simp

example : (⟨false, [1], [7], 2, 1⟩ : Cfg ℕ).scalarTest id (fun i => i + 100) (· != 101) false = some 1 := by decide

/-- C71 is false with the option that goes on after an error: the program reports success whatever fails. -/
theorem C71_break_error_wrong (c : Cfg α) (prep : α → α) (rand : ℕ → α) (ok : α → Bool) : c.scalarTest prep rand ok true = some 0 := by
  obtain ⟨h1, h2⟩ := table_eq c prep rand
  simp only [Cfg.scalarTest, h1, Option.bind_some]
  generalize c.cases prep rand = t
  have : ∀ fuel i, t.length ≤ i + fuel → scalarRun ok true t fuel i = some 0 := by
    intro fuel
    induction fuel with
    | zero => intro i hf; have : ¬ i < t.length := by omega
              simp [scalarRun, this]
    | succ fuel ih =>
      intro i hf
      by_cases hlt : i < t.length
      · simp only [scalarRun, hlt, if_true, List.getElem?_eq_getElem hlt, Bool.true_eq_false, and_false, if_false]
        exact ih _ (by omega)
      · simp [scalarRun, hlt]
  exact this _ 0 (by omega)

end Verif.Check
