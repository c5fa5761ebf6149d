import Verif.ChkPass.Model
import Mathlib.Data.Finset.Card
import Mathlib.Tactic.Ring

/-! # Theorems about the checks of operation graphs (property C115) -/

namespace Verif.ChkPass

theorem find_none {memo : List (ℕ × Bool)} {n : ℕ} (h : memo.find? (fun p => p.1 == n) = none) : n ∉ memo.map Prod.fst := by
  rw [List.find?_eq_none] at h
  intro hm
  obtain ⟨p, hp, rfl⟩ := List.mem_map.mp hm
  exact h p hp (by simp)

theorem find_some {memo : List (ℕ × Bool)} {n : ℕ} {p : ℕ × Bool} (h : memo.find? (fun p => p.1 == n) = some p) : p ∈ memo ∧ p.1 = n :=
  ⟨List.mem_of_find?_eq_some h, by simpa using List.find?_some h⟩

/-- What a visit does to the map, and its result. -/
structure Visit (G : Graph) (check : ℕ → Bool) (memo memo' : List (ℕ × Bool)) : Prop where
  keep : ∀ n ∈ memo.map Prod.fst, n ∈ memo'.map Prod.fst
  vals : ∀ p ∈ memo', p.2 = check p.1
  closed : ∀ n ∈ memo'.map Prod.fst, n ∉ memo.map Prod.fst → ∀ m ∈ G n, m ∈ memo'.map Prod.fst

theorem exec_visit (G : Graph) (check : ℕ → Bool) : ∀ k,
    (∀ memo n r memo', (∀ p ∈ memo, p.2 = check p.1) → exec G check k memo n = some (r, memo') →
      Visit G check memo memo' ∧ n ∈ memo'.map Prod.fst ∧ (∀ m ∈ memo'.map Prod.fst, m ∉ memo.map Prod.fst → Reach G n m) ∧
      (r = true → check n = true ∧ ∀ m ∈ memo'.map Prod.fst, m ∉ memo.map Prod.fst → check m = true) ∧
      (r = false → ∃ m ∈ memo'.map Prod.fst, check m = false)) ∧
    (∀ memo acc ms r memo', (∀ p ∈ memo, p.2 = check p.1) → execL G check k memo acc ms = some (r, memo') →
      Visit G check memo memo' ∧ (∀ m ∈ ms, m ∈ memo'.map Prod.fst) ∧ (∀ m ∈ memo'.map Prod.fst, m ∉ memo.map Prod.fst → ∃ a ∈ ms, Reach G a m) ∧
      (r = true → acc = true ∧ ∀ m ∈ memo'.map Prod.fst, m ∉ memo.map Prod.fst → check m = true) ∧
      (r = false → acc = false ∨ ∃ m ∈ memo'.map Prod.fst, check m = false)) := by
  have reach_trans : ∀ a b c, Reach G a b → Reach G b c → Reach G a c := by
    intro a b c h1 h2
    induction h2 with
    | root => exact h1
    | step _ hm ih => exact .step ih hm
  intro k
  induction k with
  | zero =>
    refine ⟨fun memo n r memo' _ h => by simp [exec] at h, ?_⟩
    intro memo acc ms r memo' hv h
    cases ms with
    | cons m ms => simp [execL] at h
    | nil =>
      simp only [execL, Option.some.injEq, Prod.mk.injEq] at h
      obtain ⟨rfl, rfl⟩ := h
      exact ⟨⟨fun _ h => h, hv, fun n h h' => absurd h h'⟩, (by intro m hm; cases hm), fun m h h' => absurd h h', fun h => ⟨h, fun m h h' => absurd h h'⟩, fun h => Or.inl h⟩
  | succ k ih =>
    obtain ⟨ih1, ih2⟩ := ih
    constructor
    · intro memo n r memo' hv h
      simp only [exec] at h
      cases hf : memo.find? (fun p => p.1 == n) with
      | some p =>
        rw [hf] at h
        simp only [Option.some.injEq, Prod.mk.injEq] at h
        obtain ⟨rfl, rfl⟩ := h
        obtain ⟨hp, rfl⟩ := find_some hf
        have hmem : p.1 ∈ memo.map Prod.fst := List.mem_map.mpr ⟨p, hp, rfl⟩
        refine ⟨⟨fun _ h => h, hv, fun n h h' => absurd h h'⟩, hmem, fun m h h' => absurd h h', fun h => ⟨?_, fun m h h' => absurd h h'⟩, fun h => ⟨p.1, hmem, ?_⟩⟩
        · rw [← hv p hp]; exact h
        · rw [← hv p hp]; exact h
      | none =>
        rw [hf] at h
        simp only at h
        have hn := find_none hf
        obtain ⟨h1, h2, h3, h4, h5⟩ := ih2 ((n, check n) :: memo) (check n) (G n) r memo' (by
          intro p hp
          rcases List.mem_cons.mp hp with rfl | hp
          · rfl
          · exact hv p hp) h
        have hnm : n ∈ memo'.map Prod.fst := h1.keep n (by simp)
        have new : ∀ m, m ≠ n → m ∉ memo.map Prod.fst → m ∉ ((n, check n) :: memo).map Prod.fst := by
          intro m hmn hm h
          rw [List.map_cons, List.mem_cons] at h
          rcases h with h | h
          · exact hmn h
          · exact hm h
        refine ⟨⟨fun m hm => h1.keep m (by rw [List.map_cons]; exact List.mem_cons_of_mem _ hm), h1.vals, ?_⟩, hnm, ?_, ?_, ?_⟩
        · intro m hm hm' c hc
          by_cases hmn : m = n
          · subst hmn; exact h2 c hc
          · exact h1.closed m hm (new m hmn hm') c hc
        · intro m hm hm'
          by_cases hmn : m = n
          · subst hmn; exact .root
          · obtain ⟨a, ha, hr⟩ := h3 m hm (new m hmn hm')
            exact reach_trans _ _ _ (.step .root ha) hr
        · intro hr
          obtain ⟨h6, h7⟩ := h4 hr
          refine ⟨h6, fun m hm hm' => ?_⟩
          by_cases hmn : m = n
          · subst hmn; exact h6
          · exact h7 m hm (new m hmn hm')
        · intro hr
          rcases h5 hr with h6 | h6
          · exact ⟨n, hnm, h6⟩
          · exact h6
    · intro memo acc ms r memo' hv h
      cases ms with
      | nil =>
        simp only [execL, Option.some.injEq, Prod.mk.injEq] at h
        obtain ⟨rfl, rfl⟩ := h
        exact ⟨⟨fun _ h => h, hv, fun n h h' => absurd h h'⟩, (by intro m hm; cases hm), fun m h h' => absurd h h', fun h => ⟨h, fun m h h' => absurd h h'⟩, fun h => Or.inl h⟩
      | cons a ms =>
        simp only [execL] at h
        cases he : exec G check k memo a with
        | none => rw [he] at h; cases h
        | some res =>
          obtain ⟨r1, memo1⟩ := res
          rw [he] at h
          simp only at h
          obtain ⟨g1, g2, g3, g4, g5⟩ := ih1 memo a r1 memo1 hv he
          obtain ⟨h1, h2, h3, h4, h5⟩ := ih2 memo1 (acc && r1) ms r memo' g1.vals h
          refine ⟨⟨fun m hm => h1.keep m (g1.keep m hm), h1.vals, ?_⟩, ?_, ?_, ?_, ?_⟩
          · intro m hm hm' c hc
            by_cases hx : m ∈ memo1.map Prod.fst
            · exact h1.keep c (g1.closed m hx hm' c hc)
            · exact h1.closed m hm hx c hc
          · intro m hm
            rcases List.mem_cons.mp hm with rfl | hm
            · exact h1.keep m g2
            · exact h2 m hm
          · intro m hm hm'
            by_cases hx : m ∈ memo1.map Prod.fst
            · exact ⟨a, by simp, g3 m hx hm'⟩
            · obtain ⟨b, hb, hr⟩ := h3 m hm hx
              exact ⟨b, by simp [hb], hr⟩
          · intro hr
            obtain ⟨h6, h7⟩ := h4 hr
            rw [Bool.and_eq_true] at h6
            refine ⟨h6.1, fun m hm hm' => ?_⟩
            by_cases hx : m ∈ memo1.map Prod.fst
            · exact (g4 h6.2).2 m hx hm'
            · exact h7 m hm hx
          · intro hr
            rcases h5 hr with h6 | h6
            · rw [Bool.and_eq_false_iff] at h6
              rcases h6 with h6 | h6
              · exact Or.inl h6
              · obtain ⟨m, hm, hc⟩ := g5 h6
                exact Or.inr ⟨m, h1.keep m hm, hc⟩
            · exact Or.inr h6

theorem reach_closed {G : Graph} {root : ℕ} {L : List ℕ} (h0 : root ∈ L) (hc : ∀ n ∈ L, ∀ m ∈ G n, m ∈ L) : ∀ n, Reach G root n → n ∈ L := by
  intro n h
  induction h with
  | root => exact h0
  | step _ hm ih => exact hc _ ih _ hm

/-- **C115**.  The first execution of a check pass, on any graph, with or without cycles: when it ends, the result is true exactly when the check of every node of the graph is. -/
theorem C115_first_check (G : Graph) (check : ℕ → Bool) (k root : ℕ) (r : Bool) (memo : List (ℕ × Bool)) (h : exec G check k [] root = some (r, memo)) :
    r = true ↔ ∀ n, Reach G root n → check n = true := by
  obtain ⟨h1, h2, h3, h4, h5⟩ := (exec_visit G check k).1 [] root r memo (by intro p hp; cases hp) h
  have hall : ∀ n, Reach G root n → n ∈ memo.map Prod.fst := reach_closed h2 (fun n hn m hm => h1.closed n hn (by simp) m hm)
  constructor
  · intro hr n hn
    exact (h4 hr).2 n (hall n hn) (by simp)
  · intro hc
    cases hr : r with
    | true => rfl
    | false =>
      obtain ⟨m, hm, hcm⟩ := h5 hr
      rw [hc m (h3 m hm (by simp))] at hcm
      cases hcm

/-! ## The check ends -/

theorem exec_mono (G : Graph) (check : ℕ → Bool) : ∀ k,
    (∀ memo n x, exec G check k memo n = some x → exec G check (k + 1) memo n = some x) ∧
    (∀ memo acc ms x, execL G check k memo acc ms = some x → execL G check (k + 1) memo acc ms = some x) := by
  intro k
  induction k with
  | zero =>
    refine ⟨fun memo n x h => by simp [exec] at h, ?_⟩
    intro memo acc ms x h
    cases ms with
    | nil => simpa [execL] using h
    | cons m ms => simp [execL] at h
  | succ k ih =>
    obtain ⟨ih1, ih2⟩ := ih
    constructor
    · intro memo n x h
      rw [exec] at h ⊢
      cases hf : memo.find? (fun p => p.1 == n) with
      | some p => rw [hf] at h; exact h
      | none => rw [hf] at h; exact ih2 _ _ _ _ h
    · intro memo acc ms x h
      cases ms with
      | nil => simpa [execL] using h
      | cons m ms =>
        rw [execL] at h ⊢
        cases he : exec G check k memo m with
        | none => rw [he] at h; cases h
        | some r =>
          rw [he] at h
          rw [ih1 _ _ _ he]
          exact ih2 _ _ _ _ h

theorem exec_le {G : Graph} {check : ℕ → Bool} {k k' : ℕ} (hk : k ≤ k') {memo : List (ℕ × Bool)} {n : ℕ} {x : Bool × List (ℕ × Bool)} (h : exec G check k memo n = some x) :
    exec G check k' memo n = some x := by
  induction hk with
  | refl => exact h
  | step _ ih => exact (exec_mono G check _).1 _ _ _ ih

theorem execL_le {G : Graph} {check : ℕ → Bool} {k k' : ℕ} (hk : k ≤ k') {memo : List (ℕ × Bool)} {acc : Bool} {ms : List ℕ} {x : Bool × List (ℕ × Bool)}
    (h : execL G check k memo acc ms = some x) : execL G check k' memo acc ms = some x := by
  induction hk with
  | refl => exact h
  | step _ ih => exact (exec_mono G check _).2 _ _ _ _ ih

/-- the nodes of `N` that are not in the map -/
def left (N : Finset ℕ) (memo : List (ℕ × Bool)) : Finset ℕ := N.filter (fun n => n ∉ memo.map Prod.fst)

theorem left_mono {N : Finset ℕ} {memo memo' : List (ℕ × Bool)} (h : ∀ n ∈ memo.map Prod.fst, n ∈ memo'.map Prod.fst) : (left N memo').card ≤ (left N memo).card := by
  refine Finset.card_le_card ?_
  intro n hn
  simp only [left, Finset.mem_filter] at hn ⊢
  exact ⟨hn.1, fun hm => hn.2 (h n hm)⟩

theorem exec_ends (G : Graph) (check : ℕ → Bool) (N : Finset ℕ) (hN : ∀ n ∈ N, ∀ m ∈ G n, m ∈ N) : ∀ (d : ℕ),
    (∀ memo n, (∀ p ∈ memo, p.2 = check p.1) → n ∈ N → (left N memo).card ≤ d → ∃ k x, exec G check k memo n = some x) ∧
    (∀ ms memo acc, (∀ p ∈ memo, p.2 = check p.1) → (∀ m ∈ ms, m ∈ N) → (left N memo).card ≤ d → ∃ k x, execL G check k memo acc ms = some x) := by
  intro d
  induction d with
  | zero =>
    have node : ∀ memo n, (∀ p ∈ memo, p.2 = check p.1) → n ∈ N → (left N memo).card ≤ 0 → ∃ k, ∃ b, exec G check k memo n = some (b, memo) := by
      intro memo n hv hn hd
      cases hf : memo.find? (fun p => p.1 == n) with
      | some p => exact ⟨1, p.2, by simp only [exec, hf]⟩
      | none =>
        have : n ∈ left N memo := Finset.mem_filter.mpr ⟨hn, find_none hf⟩
        rw [Finset.card_eq_zero.mp (Nat.le_zero.mp hd)] at this
        cases this
    refine ⟨fun memo n hv hn hd => by obtain ⟨k, b, h⟩ := node memo n hv hn hd; exact ⟨k, _, h⟩, ?_⟩
    intro ms
    induction ms with
    | nil => intro memo acc _ _ _; exact ⟨0, (acc, memo), by simp [execL]⟩
    | cons m ms ih =>
      intro memo acc hv hms hd
      obtain ⟨k1, b, h1⟩ := node memo m hv (hms m (by simp)) hd
      obtain ⟨k2, x, h2⟩ := ih memo (acc && b) hv (fun a ha => hms a (by simp [ha])) hd
      refine ⟨max k1 k2 + 1, x, ?_⟩
      rw [execL, exec_le (le_max_left k1 k2) h1]
      exact execL_le (le_max_right k1 k2) h2
  | succ d ihd =>
    have node : ∀ memo n, (∀ p ∈ memo, p.2 = check p.1) → n ∈ N → (left N memo).card ≤ d + 1 → ∃ k x, exec G check k memo n = some x := by
      intro memo n hv hn hd
      cases hf : memo.find? (fun p => p.1 == n) with
      | some p => exact ⟨1, (p.2, memo), by simp only [exec, hf]⟩
      | none =>
        have hmem : n ∈ left N memo := Finset.mem_filter.mpr ⟨hn, find_none hf⟩
        have hlt : (left N ((n, check n) :: memo)).card ≤ d := by
          have : (left N ((n, check n) :: memo)).card < (left N memo).card := by
            refine Finset.card_lt_card ⟨?_, ?_⟩
            · intro m hm
              simp only [left, Finset.mem_filter, List.map_cons, List.mem_cons, not_or] at hm ⊢
              exact ⟨hm.1, hm.2.2⟩
            · intro hsub
              have := hsub hmem
              simp [left] at this
          omega
        obtain ⟨k, x, h⟩ := ihd.2 (G n) ((n, check n) :: memo) (check n) (by
          intro p hp
          rcases List.mem_cons.mp hp with rfl | hp
          · rfl
          · exact hv p hp) (hN n hn) hlt
        exact ⟨k + 1, x, by simp only [exec, hf]; exact h⟩
    refine ⟨node, ?_⟩
    intro ms
    induction ms with
    | nil => intro memo acc _ _ _; exact ⟨0, (acc, memo), by simp [execL]⟩
    | cons m ms ih =>
      intro memo acc hv hms hd
      obtain ⟨k1, ⟨b, memo1⟩, h1⟩ := node memo m hv (hms m (by simp)) hd
      have hvis := ((exec_visit G check k1).1 memo m b memo1 hv h1).1
      obtain ⟨k2, x, h2⟩ := ih memo1 (acc && b) hvis.vals (fun a ha => hms a (by simp [ha])) (le_trans (left_mono hvis.keep) hd)
      refine ⟨max k1 k2 + 1, x, ?_⟩
      rw [execL, exec_le (le_max_left k1 k2) h1]
      exact execL_le (le_max_right k1 k2) h2

/-- **C115**.  A check pass ends on every finite graph, even when the graph has cycles. -/
theorem C115_first_check_ends (G : Graph) (check : ℕ → Bool) (root : ℕ) (N : Finset ℕ) (hN : ∀ n, Reach G root n → n ∈ N) : ∃ k x, exec G check k [] root = some x := by
  classical
  obtain ⟨k, x, h⟩ := (exec_ends G check (N.filter (fun n => Reach G root n)) (by
    intro n hn m hm
    rw [Finset.mem_filter] at hn ⊢
    exact ⟨hN m (hn.2.step hm), hn.2.step hm⟩) _).1 [] root (by intro p hp; cases hp) (Finset.mem_filter.mpr ⟨hN root .root, .root⟩) (le_refl _)
  exact ⟨k, x, h⟩

/-- **C115**, wrong: the map of a pass keeps the check of each node alone, and the pass keeps its map.  Executed again on a node it has met, a pass gives the check of this node alone, whatever the
nodes below it are. -/
theorem C115_second_check_wrong (G : Graph) (check : ℕ → Bool) (k root : ℕ) (r : Bool) (memo : List (ℕ × Bool)) (h : exec G check k [] root = some (r, memo))
    (n : ℕ) (hn : Reach G root n) (k' : ℕ) : exec G check (k' + 1) memo n = some (check n, memo) := by
  obtain ⟨h1, h2, _⟩ := (exec_visit G check k).1 [] root r memo (by intro p hp; cases hp) h
  have hall := reach_closed h2 (fun n hn m hm => h1.closed n hn (by simp) m hm) n hn
  obtain ⟨p, hp, hpn⟩ := List.mem_map.mp hall
  simp only [exec]
  cases hf : memo.find? (fun p => p.1 == n) with
  | none => exact absurd hall (find_none hf)
  | some q =>
    obtain ⟨hq, rfl⟩ := find_some hf
    simp only [h1.vals q hq]

/-- non-vacuity: a graph with a cycle whose node 2 fails: the first execution says so, the second one does not -/
def cyc : Graph := fun n => if n = 0 then [1, 2] else if n = 1 then [0] else []

example : execAll cyc (fun n => n != 2) 9 [] [0, 0] = some [false, true] := by
  simp [execAll, exec, execL, cyc]

/-! ## The support of a target -/

/-- the outcome of the visit of nodes for a language: every node of `V` passes -/
theorem support_sound (G : Graph) (T : Target) : ∀ k,
    (∀ lang memo n memo', support G T lang k memo n = some (.ok memo') →
      (∀ m ∈ memo, m ∈ memo') ∧ n ∈ memo' ∧ (∀ m ∈ memo', m ∉ memo → m ≠ n → T.free m = true ∨ T.sup 0 m = true) ∧
      (n ∉ memo → n ∈ memo' → T.free n = true ∨ T.sup lang n = true ∨ T.sup 0 n = true) ∧ (∀ m ∈ memo', m ∉ memo → ∀ c ∈ G m, c ∈ memo')) ∧
    (∀ memo ms memo', supportL G T k memo ms = some (.ok memo') →
      (∀ m ∈ memo, m ∈ memo') ∧ (∀ m ∈ ms, m ∈ memo') ∧ (∀ m ∈ memo', m ∉ memo → T.free m = true ∨ T.sup 0 m = true) ∧ (∀ m ∈ memo', m ∉ memo → ∀ c ∈ G m, c ∈ memo')) := by
  intro k
  induction k with
  | zero =>
    refine ⟨fun lang memo n memo' h => by simp [support] at h, ?_⟩
    intro memo ms memo' h
    cases ms with
    | cons m ms => simp [supportL] at h
    | nil =>
      simp only [supportL, Option.some.injEq, Res.ok.injEq] at h
      subst h
      exact ⟨fun _ h => h, (by intro m hm; cases hm), fun m h h' => absurd h h', fun m h h' => absurd h h'⟩
  | succ k ih =>
    obtain ⟨ih1, ih2⟩ := ih
    constructor
    · intro lang memo n memo' h
      rw [support] at h
      by_cases hn : n ∈ memo
      · rw [if_pos hn] at h
        simp only [Option.some.injEq, Res.ok.injEq] at h
        subst h
        exact ⟨fun _ h => h, hn, fun m h h' => absurd h h', fun h _ => absurd hn h, fun m h h' => absurd h h'⟩
      · rw [if_neg hn] at h
        cases hL : supportL G T k memo (G n) with
        | none => rw [hL] at h; cases h
        | some res =>
          cases res with
          | error m => rw [hL] at h; cases h
          | ok memo1 =>
            rw [hL] at h
            simp only at h
            obtain ⟨h1, h2, h3, h4⟩ := ih2 memo (G n) memo1 hL
            by_cases hs : (T.free n || T.sup lang n) = true
            · rw [if_pos hs] at h
              simp only [Option.some.injEq, Res.ok.injEq] at h
              subst h
              rw [Bool.or_eq_true] at hs
              refine ⟨fun m hm => by simp [h1 m hm], by simp, ?_, fun _ _ => ?_, ?_⟩
              · intro m hm hm' hne
                rcases List.mem_cons.mp hm with rfl | hm
                · exact absurd rfl hne
                · exact h3 m hm hm'
              · tauto
              · intro m hm hm' c hc
                rcases List.mem_cons.mp hm with rfl | hm
                · exact List.mem_cons_of_mem _ (h2 c hc)
                · exact List.mem_cons_of_mem _ (h4 m hm hm' c hc)
            · rw [if_neg hs] at h; cases h
    · intro memo ms memo' h
      cases ms with
      | nil =>
        simp only [supportL, Option.some.injEq, Res.ok.injEq] at h
        subst h
        exact ⟨fun _ h => h, (by intro m hm; cases hm), fun m h h' => absurd h h', fun m h h' => absurd h h'⟩
      | cons a ms =>
        rw [supportL] at h
        cases he : support G T 0 k memo a with
        | none => rw [he] at h; cases h
        | some res =>
          cases res with
          | error m => rw [he] at h; cases h
          | ok memo1 =>
            rw [he] at h
            simp only at h
            obtain ⟨g1, g2, g3, g4, g5⟩ := ih1 0 memo a memo1 he
            obtain ⟨h1, h2, h3, h4⟩ := ih2 memo1 ms memo' h
            refine ⟨fun m hm => h1 m (g1 m hm), ?_, ?_, ?_⟩
            · intro m hm
              rcases List.mem_cons.mp hm with rfl | hm
              · exact h1 m g2
              · exact h2 m hm
            · intro m hm hm'
              by_cases hx : m ∈ memo1
              · by_cases hma : m = a
                · subst hma
                  rcases g4 hm' hx with h | h | h
                  · exact Or.inl h
                  · exact Or.inr h
                  · exact Or.inr h
                · exact g3 m hx hm' hma
              · exact h3 m hm hx
            · intro m hm hm' c hc
              by_cases hx : m ∈ memo1
              · exact h1 c (g5 m hx hm' c hc)
              · exact h4 m hm hx c hc

/-- an error is on a node of the graph that is not supported, for the language at the root, for C below -/
theorem support_error (G : Graph) (T : Target) : ∀ k,
    (∀ lang memo n m, support G T lang k memo n = some (.error m) → Reach G n m ∧ T.free m = false ∧ (T.sup 0 m = false ∨ m = n ∧ T.sup lang m = false)) ∧
    (∀ memo ms m, supportL G T k memo ms = some (.error m) → (∃ a ∈ ms, Reach G a m) ∧ T.free m = false ∧ T.sup 0 m = false) := by
  have reach_trans : ∀ a b c, Reach G a b → Reach G b c → Reach G a c := by
    intro a b c h1 h2
    induction h2 with
    | root => exact h1
    | step _ hm ih => exact .step ih hm
  intro k
  induction k with
  | zero =>
    refine ⟨fun lang memo n m h => by simp [support] at h, ?_⟩
    intro memo ms m h
    cases ms <;> simp [supportL] at h
  | succ k ih =>
    obtain ⟨ih1, ih2⟩ := ih
    constructor
    · intro lang memo n m h
      rw [support] at h
      by_cases hn : n ∈ memo
      · rw [if_pos hn] at h; cases h
      · rw [if_neg hn] at h
        cases hL : supportL G T k memo (G n) with
        | none => rw [hL] at h; cases h
        | some res =>
          cases res with
          | error m' =>
            rw [hL] at h
            cases h
            obtain ⟨⟨a, ha, hr⟩, h2, h3⟩ := ih2 memo (G n) m hL
            exact ⟨reach_trans _ _ _ (.step .root ha) hr, h2, Or.inl h3⟩
          | ok memo1 =>
            rw [hL] at h
            simp only at h
            by_cases hs : (T.free n || T.sup lang n) = true
            · rw [if_pos hs] at h; cases h
            · rw [if_neg hs] at h
              cases h
              simp only [Bool.or_eq_true, not_or, Bool.not_eq_true] at hs
              exact ⟨.root, hs.1, Or.inr ⟨rfl, hs.2⟩⟩
    · intro memo ms m h
      cases ms with
      | nil => simp [supportL] at h
      | cons a ms =>
        rw [supportL] at h
        cases he : support G T 0 k memo a with
        | none => rw [he] at h; cases h
        | some res =>
          cases res with
          | error m' =>
            rw [he] at h
            cases h
            obtain ⟨h1, h2, h3⟩ := ih1 0 memo a m he
            exact ⟨⟨a, by simp, h1⟩, h2, h3.elim id (fun h => h.2)⟩
          | ok memo1 =>
            rw [he] at h
            obtain ⟨⟨b, hb, hr⟩, h2⟩ := ih2 memo1 ms m h
            exact ⟨⟨b, by simp [hb], hr⟩, h2⟩

/-- **C115**.  The check of the support for C: when it ends, it accepts the graph exactly when every operation of the graph is supported, and the node it complains about is one that is not.
Partial: for the other languages see below. -/
theorem C115_support_partial (G : Graph) (T : Target) (k root : ℕ) (r : Res) (h : support G T 0 k [] root = some r) :
    match r with
    | .ok _ => ∀ n, Reach G root n → T.free n = true ∨ T.sup 0 n = true
    | .error m => Reach G root m ∧ T.free m = false ∧ T.sup 0 m = false := by
  cases r with
  | ok memo =>
    obtain ⟨_, h2, h3, h4, h5⟩ := (support_sound G T k).1 0 [] root memo h
    intro n hn
    have hmem := reach_closed h2 (fun n hn m hm => h5 n hn (by simp) m hm) n hn
    by_cases hnr : n = root
    · subst hnr
      rcases h4 (by simp) hmem with h | h | h
      · exact Or.inl h
      · exact Or.inr h
      · exact Or.inr h
    · exact h3 n hmem (by simp) hnr
  | error m =>
    obtain ⟨h1, h2, h3⟩ := (support_error G T k).1 0 [] root m h
    exact ⟨h1, h2, h3.elim id (fun h => h.2)⟩

/-- **C115**.  The check of the support ends on every graph without cycles (`rank` decreases from a node to its inputs). -/
theorem C115_support_ends (G : Graph) (T : Target) (lang : ℕ) (rank : ℕ → ℕ) (hr : ∀ n, ∀ m ∈ G n, rank m < rank n) (root : ℕ) : ∃ k r, support G T lang k [] root = some r := by
  have mono : ∀ k, (∀ lang memo n x, support G T lang k memo n = some x → support G T lang (k + 1) memo n = some x) ∧
      (∀ memo ms x, supportL G T k memo ms = some x → supportL G T (k + 1) memo ms = some x) := by
    intro k
    induction k with
    | zero =>
      refine ⟨fun lang memo n x h => by simp [support] at h, ?_⟩
      intro memo ms x h
      cases ms with
      | nil => simpa [supportL] using h
      | cons m ms => simp [supportL] at h
    | succ k ih =>
      obtain ⟨ih1, ih2⟩ := ih
      constructor
      · intro lang memo n x h
        rw [support] at h ⊢
        by_cases hn : n ∈ memo
        · rw [if_pos hn] at h ⊢; exact h
        · rw [if_neg hn] at h ⊢
          cases hL : supportL G T k memo (G n) with
          | none => rw [hL] at h; cases h
          | some res => rw [ih2 _ _ _ hL]; rw [hL] at h; exact h
      · intro memo ms x h
        cases ms with
        | nil => simpa [supportL] using h
        | cons m ms =>
          rw [supportL] at h ⊢
          cases he : support G T 0 k memo m with
          | none => rw [he] at h; cases h
          | some res =>
            rw [ih1 _ _ _ _ he]
            rw [he] at h
            cases res with
            | error m' => exact h
            | ok memo1 => exact ih2 _ _ _ h
  have le1 : ∀ k k', k ≤ k' → ∀ lang memo n x, support G T lang k memo n = some x → support G T lang k' memo n = some x := by
    intro k k' hk lang memo n x h
    induction hk with
    | refl => exact h
    | step _ ih => exact (mono _).1 _ _ _ _ ih
  have le2 : ∀ k k', k ≤ k' → ∀ memo ms x, supportL G T k memo ms = some x → supportL G T k' memo ms = some x := by
    intro k k' hk memo ms x h
    induction hk with
    | refl => exact h
    | step _ ih => exact (mono _).2 _ _ _ ih
  have key : ∀ d, ∀ n, rank n < d → ∀ lang memo, ∃ k r, support G T lang k memo n = some r := by
    intro d
    induction d with
    | zero => intro n h; omega
    | succ d ihd =>
      intro n hn lang memo
      have hL : ∀ ms : List ℕ, (∀ m ∈ ms, rank m < d) → ∀ memo, ∃ k r, supportL G T k memo ms = some r := by
        intro ms
        induction ms with
        | nil => intro _ memo; exact ⟨0, .ok memo, by simp [supportL]⟩
        | cons m ms ih =>
          intro hm memo
          obtain ⟨k1, r1, h1⟩ := ihd m (hm m (by simp)) 0 memo
          cases r1 with
          | error e => exact ⟨k1 + 1, .error e, by rw [supportL, h1]⟩
          | ok memo1 =>
            obtain ⟨k2, r2, h2⟩ := ih (fun a ha => hm a (by simp [ha])) memo1
            refine ⟨max k1 k2 + 1, r2, ?_⟩
            rw [supportL, le1 _ _ (le_max_left k1 k2) _ _ _ _ h1]
            exact le2 _ _ (le_max_right k1 k2) _ _ _ h2
      by_cases hmem : n ∈ memo
      · exact ⟨1, .ok memo, by rw [support, if_pos hmem]⟩
      · obtain ⟨k, r, h⟩ := hL (G n) (fun m hm => by have := hr n m hm; omega) memo
        cases r with
        | error e => exact ⟨k + 1, .error e, by rw [support, if_neg hmem, h]⟩
        | ok memo1 =>
          by_cases hs : (T.free n || T.sup lang n) = true
          · exact ⟨k + 1, .ok (n :: memo1), by rw [support, if_neg hmem, h]; simp only [if_pos hs]⟩
          · exact ⟨k + 1, .error n, by rw [support, if_neg hmem, h]; simp only [if_neg hs]⟩
  exact key (rank root + 1) root (by omega) lang []

/-- non-vacuity: `0` uses `1` and `2`, `1` uses `2` -/
def dag : Graph := fun n => if n = 0 then [1, 2] else if n = 1 then [2] else []

example : (∀ n, ∀ m ∈ dag n, 3 - m < 3 - n) ∧ support dag ⟨fun _ n => n != 2, fun _ => false⟩ 0 9 [] 0 = some (.error 2) ∧
    support dag ⟨fun _ n => n != 2, fun n => n == 2⟩ 0 9 [] 0 = some (.ok [0, 1, 2]) := by
  refine ⟨?_, by simp [support, supportL, dag], by simp [support, supportL, dag]⟩
  intro n m hm
  unfold dag at hm
  split_ifs at hm with h1 h2
  · simp at hm; omega
  · simp at hm; omega
  · cases hm

/-- **C115**, wrong: the language is not passed to the inputs.  For another language than C, a graph is accepted exactly when its root is supported for this language and everything
below it for C: below the root, operations that the language does not support are accepted and operations that only C does not support are refused. -/
theorem C115_language_wrong (G : Graph) (T : Target) (lang : ℕ) (rank : ℕ → ℕ) (hr : ∀ n, ∀ m ∈ G n, rank m < rank n) (root : ℕ) :
    (∃ k memo, support G T lang k [] root = some (.ok memo)) ↔
      (T.free root = true ∨ T.sup lang root = true) ∧ ∀ n, Reach G root n → n ≠ root → T.free n = true ∨ T.sup 0 n = true := by
  have rk : ∀ a b, Reach G a b → b = a ∨ rank b < rank a := by
    intro a b h
    induction h with
    | root => exact Or.inl rfl
    | step h1 hm ih =>
      have := hr _ _ hm
      rcases ih with rfl | ih
      · exact Or.inr this
      · exact Or.inr (by omega)
  constructor
  · rintro ⟨k, memo, h⟩
    obtain ⟨_, h2, h3, _, h5⟩ := (support_sound G T k).1 lang [] root memo h
    refine ⟨?_, fun n hn hne => h3 n (reach_closed h2 (fun n hn m hm => h5 n hn (by simp) m hm) n hn) (by simp) hne⟩
    cases k with
    | zero => simp [support] at h
    | succ k =>
      rw [support, if_neg (by simp)] at h
      cases hL : supportL G T k [] (G root) with
      | none => rw [hL] at h; cases h
      | some res =>
        cases res with
        | error m => rw [hL] at h; cases h
        | ok memo1 =>
          rw [hL] at h
          simp only at h
          by_cases hs : (T.free root || T.sup lang root) = true
          · rwa [Bool.or_eq_true] at hs
          · rw [if_neg hs] at h; cases h
  · rintro ⟨h1, h2⟩
    obtain ⟨k, r, h⟩ := C115_support_ends G T lang rank hr root
    cases r with
    | ok memo => exact ⟨k, memo, h⟩
    | error m =>
      exfalso
      have herr := h
      cases k with
      | zero => simp [support] at h
      | succ k =>
        rw [support, if_neg (by simp)] at h
        cases hL : supportL G T k [] (G root) with
        | none => rw [hL] at h; cases h
        | some res =>
          cases res with
          | error m' =>
            obtain ⟨⟨a, ha, hra⟩, g2, g3⟩ := (support_error G T k).2 [] (G root) m' hL
            have hlt := hr root a ha
            have hne : m' ≠ root := by
              rintro rfl
              rcases rk a m' hra with rfl | h'
              · omega
              · omega
            have hreach : Reach G root m' := by
              clear h herr hL hlt hne h2 g2 g3
              induction hra with
              | root => exact .step .root ha
              | step _ hm ih => exact .step ih hm
            rcases h2 m' hreach hne with h' | h'
            · rw [h'] at g2; cases g2
            · rw [h'] at g3; cases g3
          | ok memo1 =>
            rw [hL] at h
            simp only at h
            have hs : (T.free root || T.sup lang root) = true := by rwa [Bool.or_eq_true]
            rw [if_pos hs] at h; cases h

/-- non-vacuity: node 2 is supported in C only, and the graph is accepted for language 1 -/
example : support dag ⟨fun l n => l == 0 || n != 2, fun _ => false⟩ 1 9 [] 0 = some (.ok [0, 1, 2]) := by simp [support, supportL, dag]

/-- **C115**, wrong: the check of the support never ends on a graph with a cycle through its inputs, such as basic blocks with a loop. -/
theorem C115_cycle_wrong (T : Target) (lang : ℕ) (G : Graph) (root a : ℕ) (hr : (G root).head? = some a) (ha : (G a).head? = some root) (k : ℕ) :
    support G T lang k [] root = none := by
  obtain ⟨l, hl⟩ : ∃ l, G root = a :: l := by
    cases h : G root with
    | nil => rw [h] at hr; cases hr
    | cons b l => rw [h] at hr; cases hr; exact ⟨l, rfl⟩
  obtain ⟨l', hl'⟩ : ∃ l, G a = root :: l := by
    cases h : G a with
    | nil => rw [h] at ha; cases ha
    | cons b l => rw [h] at ha; cases ha; exact ⟨l, rfl⟩
  have key : ∀ k, (∀ lang, support G T lang k [] root = none) ∧ (∀ lang, support G T lang k [] a = none) ∧ supportL G T k [] (root :: l') = none ∧ supportL G T k [] (a :: l) = none := by
    intro k
    induction k with
    | zero => exact ⟨fun _ => by simp [support], fun _ => by simp [support], by simp [supportL], by simp [supportL]⟩
    | succ k ih =>
      obtain ⟨i1, i2, i3, i4⟩ := ih
      refine ⟨fun _ => by rw [support, if_neg (by simp), hl, i4], fun _ => by rw [support, if_neg (by simp), hl', i3], by rw [supportL, i1], by rw [supportL, i2]⟩
  exact (key k).1 lang

example : (cyc 0).head? = some 1 ∧ (cyc 1).head? = some 0 := ⟨rfl, rfl⟩

end Verif.ChkPass
