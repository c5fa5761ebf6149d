import Verif.Stages.Model
import Mathlib.Tactic.Push

namespace Verif.Stages

/-- The nodes met between two states. -/
def New (s s' : St) (j : ℕ) : Prop := s'.memo j = true ∧ s.memo j = false

/-- What visiting the nodes `l`, with the stage `sid` to be passed on, does. -/
structure Post (G : Graph) (l : List ℕ) (sid : Option Stage) (s s' : St) : Prop where
  mono : ∀ j, s.memo j = true → s'.memo j = true
  done : ∀ a ∈ l, s'.memo a = true
  reach : ∀ j, New s s' j → ∃ a ∈ l, Reach G a j
  keep : ∀ j, ¬ New s s' j → s'.stage j = s.stage j
  from_ : ∀ j, New s s' j → (j ∈ l ∧ s'.stage j = (s.stage j).or sid) ∨
    ∃ u, New s s' u ∧ G.leaf u = false ∧ j ∈ G.inputs u ∧ s'.stage j = (s.stage j).or (s'.stage u)
  closed : ∀ j, New s s' j → G.leaf j = false → ∀ a ∈ G.inputs j, s'.memo a = true

theorem Reach.trans {G : Graph} {a b c : ℕ} (h : Reach G a b) (h' : Reach G b c) :
    Reach G a c := by
  induction h' with
  | root => exact h
  | step _ hl hi ih => exact .step ih hl hi

theorem Reach.le {G : Graph} {a j : ℕ} (h : Reach G a j) : j ≤ a := by
  induction h with
  | root => exact Nat.le_refl _
  | step _ _ hi ih => have := G.before _ _ hi; omega

theorem post_nil (G : Graph) (sid : Option Stage) (s : St) : Post G [] sid s s := by
  have hn : ∀ j, ¬ New s s j := by rintro j ⟨h, h'⟩; rw [h] at h'; cases h'
  exact ⟨fun _ h => h, (by intro a h; cases h), fun j h => absurd h (hn j), fun _ _ => rfl,
    fun j h => absurd h (hn j), fun j h => absurd h (hn j)⟩

theorem post_cons {G : Graph} {a : ℕ} {l : List ℕ} {sid : Option Stage} {s s1 s2 : St}
    (p1 : Post G [a] sid s s1) (p2 : Post G l sid s1 s2) : Post G (a :: l) sid s s2 := by
  have split : ∀ j, New s s2 j → New s s1 j ∨ (New s1 s2 j ∧ ¬ New s s1 j) := by
    rintro j ⟨h2, h0⟩
    cases h1 : s1.memo j with
    | true => exact Or.inl ⟨h1, h0⟩
    | false => exact Or.inr ⟨⟨h2, h1⟩, fun h => by have := h.1; rw [h1] at this; cases this⟩
  have up1 : ∀ j, New s s1 j → New s s2 j := fun j h => ⟨p2.mono j h.1, h.2⟩
  have up2 : ∀ j, New s1 s2 j → New s s2 j := fun j h => ⟨h.1, by
    cases h0 : s.memo j with
    | false => rfl
    | true => have := p1.mono j h0; rw [h.2] at this; cases this⟩
  have st : ∀ j, New s s1 j → s2.stage j = s1.stage j := fun j h =>
    p2.keep j (fun hn => by have := hn.2; rw [h.1] at this; cases this)
  refine ⟨fun j h => p2.mono j (p1.mono j h), ?_, ?_, ?_, ?_, ?_⟩
  · intro b hb
    rcases List.mem_cons.1 hb with rfl | hb
    · exact p2.mono _ (p1.done _ (by simp))
    · exact p2.done b hb
  · intro j hj
    rcases split j hj with h | ⟨h, _⟩
    · obtain ⟨b, hb, hr⟩ := p1.reach j h
      exact ⟨b, by simp at hb; simp [hb], hr⟩
    · obtain ⟨b, hb, hr⟩ := p2.reach j h
      exact ⟨b, List.mem_cons_of_mem _ hb, hr⟩
  · intro j hj
    rw [p2.keep j (fun h => hj (up2 j h)), p1.keep j (fun h => hj (up1 j h))]
  · intro j hj
    rcases split j hj with h | ⟨h, h'⟩
    · rw [st j h]
      rcases p1.from_ j h with ⟨hm, he⟩ | ⟨u, hu, hl, hi, he⟩
      · exact Or.inl ⟨by simp at hm; simp [hm], he⟩
      · exact Or.inr ⟨u, up1 u hu, hl, hi, by rw [st u hu]; exact he⟩
    · have h1 := p1.keep j h'
      rcases p2.from_ j h with ⟨hm, he⟩ | ⟨u, hu, hl, hi, he⟩
      · exact Or.inl ⟨List.mem_cons_of_mem _ hm, by rw [he, h1]⟩
      · exact Or.inr ⟨u, up2 u hu, hl, hi, by rw [he, h1]⟩
  · intro j hj hl b hb
    rcases split j hj with h | ⟨h, _⟩
    · exact p2.mono b (p1.closed j h hl b hb)
    · exact p2.closed j h hl b hb

theorem each_ok {G : Graph} {sid : Option Stage} (f : ℕ → St → Option St) : ∀ (l : List ℕ),
    (∀ a ∈ l, ∀ s, ∃ s', f a s = some s' ∧ Post G [a] sid s s') →
    ∀ s, ∃ s', each f l s = some s' ∧ Post G l sid s s'
  | [], _, s => ⟨s, rfl, post_nil G sid s⟩
  | a :: l, hf, s => by
    obtain ⟨s1, h1, p1⟩ := hf a (by simp) s
    obtain ⟨s2, h2, p2⟩ := each_ok f l (fun b hb => hf b (List.mem_cons_of_mem _ hb)) s1
    exact ⟨s2, by simp [each, h1, h2], post_cons p1 p2⟩

theorem unify_ok {G : Graph} : ∀ (fuel n : ℕ), n < fuel → ∀ sid s,
    ∃ s', unify G fuel n sid s = some s' ∧ Post G [n] sid s s'
  | 0, n, h, _, _ => absurd h (by omega)
  | fuel + 1, n, h, sid, s => by
    cases hm : s.memo n with
    | true =>
      refine ⟨s, by simp [unify, hm], ?_⟩
      have p := post_nil G sid s
      have hn : ∀ j, ¬ New s s j := by rintro j ⟨h, h'⟩; rw [h] at h'; cases h'
      exact ⟨p.mono, (by intro a ha; simp at ha; rw [ha]; exact hm), fun j h => absurd h (hn j),
        p.keep, fun j h => absurd h (hn j), p.closed⟩
    | false =>
      obtain ⟨s0, hs0⟩ : ∃ s0, s0 = setUndefined n sid s := ⟨_, rfl⟩
      have hm0 : s0.memo = s.memo := by rw [hs0]; rfl
      have hne : ∀ j, j ≠ n → s0.stage j = s.stage j := by
        intro j hj; rw [hs0]; simp [setUndefined, hj]
      have hself : s0.stage n = (s.stage n).or sid := by
        rw [hs0]; cases h : s.stage n <;> simp [setUndefined, h]
      have hchildren : ∃ s1, (if G.leaf n then some s0
            else each (fun a => unify G fuel a (s0.stage n)) (G.inputs n) s0) = some s1 ∧
          Post G (if G.leaf n then [] else G.inputs n) (s0.stage n) s0 s1 := by
        cases hl : G.leaf n with
        | true => exact ⟨s0, by simp, by simpa using post_nil G _ s0⟩
        | false =>
          obtain ⟨s1, h1, p1⟩ := each_ok (G := G) (sid := s0.stage n)
            (fun a => unify G fuel a (s0.stage n)) (G.inputs n)
            (fun a ha s => unify_ok fuel a (by have := G.before n a ha; omega) _ s) s0
          exact ⟨s1, by simp [h1], by simpa using p1⟩
      obtain ⟨s1, h1, p1⟩ := hchildren
      obtain ⟨s2, hs2⟩ : ∃ s2 : St, s2 =
        { s1 with memo := fun m => if m = n then true else s1.memo m } := ⟨_, rfl⟩
      have hst : s2.stage = s1.stage := by rw [hs2]
      have hm2 : ∀ j, s2.memo j = if j = n then true else s1.memo j := by intro j; rw [hs2]
      refine ⟨s2, ?_, ?_⟩
      · simp only [unify, hm, ← hs0, h1, hs2]; rfl
      · have hlow : ∀ j, New s0 s1 j → j < n := by
          intro j hj
          obtain ⟨a, ha, hr⟩ := p1.reach j hj
          cases hl : G.leaf n with
          | true => rw [hl] at ha; cases ha
          | false =>
            rw [hl] at ha
            have := hr.le
            have := G.before n a (by simpa using ha)
            omega
        have hnew : ∀ j, New s s2 j ↔ j = n ∨ New s0 s1 j := by
          intro j
          unfold New
          rw [hm2, hm0]
          by_cases hj : j = n
          · simp [hj, hm]
          · simp [hj]
        refine ⟨?_, ?_, ?_, ?_, ?_, ?_⟩
        · intro j hj
          rw [hm2]; split
          · rfl
          · exact p1.mono j (by rw [hm0]; exact hj)
        · intro a ha
          simp at ha; rw [hm2]; simp [ha]
        · intro j hj
          refine ⟨n, by simp, ?_⟩
          rcases (hnew j).1 hj with rfl | hj
          · exact .root
          · obtain ⟨a, ha, hr⟩ := p1.reach j hj
            cases hl : G.leaf n with
            | true => rw [hl] at ha; cases ha
            | false => rw [hl] at ha; exact Reach.trans (.step .root hl (by simpa using ha)) hr
        · intro j hj
          have h' : ¬ (j = n ∨ New s0 s1 j) := fun h => hj ((hnew j).2 h)
          rw [hst, p1.keep j (fun h => h' (Or.inr h)), hne j (fun h => h' (Or.inl h))]
        · intro j hj
          rw [hst]
          have hn1 : s1.stage n = s0.stage n :=
            p1.keep n (fun h => absurd (hlow n h) (by omega))
          rcases (hnew j).1 hj with rfl | hj
          · exact Or.inl ⟨by simp, by rw [hn1, hself]⟩
          · have hjn : j ≠ n := by have := hlow j hj; omega
            refine Or.inr ?_
            rcases p1.from_ j hj with ⟨hi, he⟩ | ⟨u, hu, hl, hi, he⟩
            · cases hl : G.leaf n with
              | true => rw [hl] at hi; cases hi
              | false =>
                rw [hl] at hi
                exact ⟨n, (hnew n).2 (Or.inl rfl), hl, by simpa using hi,
                  by rw [he, hne j hjn, hn1]⟩
            · exact ⟨u, (hnew u).2 (Or.inr hu), hl, hi, by rw [he, hne j hjn]⟩
        · intro j hj hl a ha
          rw [hm2]; split
          · rfl
          · rcases (hnew j).1 hj with rfl | hj
            · exact p1.done a (by rw [hl]; simpa using ha)
            · exact p1.closed j hj hl a ha

/-- From an empty map, the nodes met are those below the root. -/
theorem unify_root (G : Graph) (fuel root : ℕ) (h : root < fuel) (sid : Option Stage)
    (stage : ℕ → Option Stage) :
    ∃ s, unify G fuel root sid ⟨stage, fun _ => false⟩ = some s ∧
      (∀ j, ¬ Reach G root j → s.stage j = stage j) ∧
      s.stage root = (stage root).or sid ∧
      ∀ j, Reach G root j → j ≠ root →
        ∃ u, User G root u j ∧ s.stage j = (stage j).or (s.stage u) := by
  obtain ⟨s, hs, p⟩ := unify_ok (G := G) fuel root h sid ⟨stage, fun _ => false⟩
  have hnew : ∀ j, New ⟨stage, fun _ => false⟩ s j ↔ Reach G root j := by
    intro j
    constructor
    · intro hj
      obtain ⟨a, ha, hr⟩ := p.reach j hj
      simp at ha; rw [ha] at hr; exact hr
    · intro hr
      refine ⟨?_, rfl⟩
      induction hr with
      | root => exact p.done root (by simp)
      | step _ hl hi ih => exact p.closed _ ⟨ih, rfl⟩ hl _ hi
  refine ⟨s, hs, fun j hj => p.keep j (fun h => hj ((hnew j).1 h)), ?_, ?_⟩
  · rcases p.from_ root ((hnew root).2 .root) with ⟨_, he⟩ | ⟨u, hu, _, hi, _⟩
    · exact he
    · have := ((hnew u).1 hu).le
      have := G.before u root hi
      omega
  · intro j hj hne
    rcases p.from_ j ((hnew j).2 hj) with ⟨hi, _⟩ | ⟨u, hu, hl, hi, he⟩
    · simp at hi; exact absurd hi hne
    · exact ⟨u, ⟨(hnew u).1 hu, hl, hi⟩, he⟩

/-- **C136**: the stages which are known are kept, nodes outside the graph are left
alone, and a node without a stage gets the stage of one of its users. -/
theorem C136_stages (G : Graph) (fuel root : ℕ) (h : root < fuel) (sid : Option Stage)
    (stage : ℕ → Option Stage) :
    ∃ s, unify G fuel root sid ⟨stage, fun _ => false⟩ = some s ∧
      (∀ j, ¬ Reach G root j → s.stage j = stage j) ∧
      (∀ j x, stage j = some x → s.stage j = some x) ∧
      (stage root = none → s.stage root = sid) ∧
      ∀ j, Reach G root j → j ≠ root → stage j = none →
        ∃ u, User G root u j ∧ s.stage j = s.stage u := by
  obtain ⟨s, hs, h1, h2, h3⟩ := unify_root G fuel root h sid stage
  refine ⟨s, hs, h1, ?_, ?_, ?_⟩
  · intro j x hx
    by_cases hr : Reach G root j
    · by_cases hj : j = root
      · subst hj; rw [h2, hx]; rfl
      · obtain ⟨u, _, he⟩ := h3 j hr hj
        rw [he, hx]; rfl
    · rw [h1 j hr, hx]
  · intro hn; rw [h2, hn]; rfl
  · intro j hr hj hn
    obtain ⟨u, hu, he⟩ := h3 j hr hj
    exact ⟨u, hu, by rw [he, hn]; rfl⟩

/-- **C136**: when the root has a stage, every node of the graph has one in the end. -/
theorem C136_all_defined (G : Graph) (fuel root : ℕ) (h : root < fuel) (sid : Option Stage)
    (stage : ℕ → Option Stage) (hd : stage root ≠ none ∨ sid ≠ none) :
    ∃ s, unify G fuel root sid ⟨stage, fun _ => false⟩ = some s ∧
      ∀ j, Reach G root j → s.stage j ≠ none := by
  obtain ⟨s, hs, _, h2, h3⟩ := unify_root G fuel root h sid stage
  refine ⟨s, hs, ?_⟩
  have key : ∀ d j, root - j ≤ d → Reach G root j → s.stage j ≠ none := by
    intro d
    induction d with
    | zero =>
      intro j hd' hr
      have := hr.le
      obtain rfl : j = root := by omega
      rw [h2]
      cases hj : stage j with
      | some x => simp
      | none =>
        rcases hd with h | h
        · exact absurd hj h
        · simpa using h
    | succ d ih =>
      intro j hd' hr
      by_cases hj : j = root
      · exact ih j (by omega) hr
      · obtain ⟨u, hu, he⟩ := h3 j hr hj
        have hlt := G.before u j hu.2.2
        have hle := hu.1.le
        have := ih u (by omega) hu.1
        rw [he]
        cases stage j with
        | none => simpa using this
        | some x => simp
  exact fun j hr => key (root - j) j (Nat.le_refl _) hr

/-- **C136**: when no node has two users, each node without a stage gets the stage of its
user; so the order of the stages is respected as soon as it is along every chain of nodes
without stage.
What is missing: C136_shared_wrong. -/
theorem C136_unshared_partial (G : Graph) (fuel root : ℕ) (h : root < fuel) (sid : Option Stage)
    (stage : ℕ → Option Stage)
    (huniq : ∀ u v j, User G root u j → User G root v j → u = v) :
    ∃ s, unify G fuel root sid ⟨stage, fun _ => false⟩ = some s ∧
      (∀ u j, User G root u j → s.stage j = (stage j).or (s.stage u)) ∧
      ((∀ u j k l, User G root u j → s.stage u = some (.num k) → stage j = some (.num l) →
        l ≤ k) → Causal G root s.stage) := by
  obtain ⟨s, hs, _, _, h3⟩ := unify_root G fuel root h sid stage
  have he : ∀ u j, User G root u j → s.stage j = (stage j).or (s.stage u) := by
    intro u j hu
    have hlt := G.before u j hu.2.2
    have hle := hu.1.le
    obtain ⟨v, hv, he⟩ := h3 j (.step hu.1 hu.2.1 hu.2.2) (by omega)
    rw [huniq u v j hu hv]; exact he
  refine ⟨s, hs, he, ?_⟩
  intro hc u j k l hu hk hl
  rw [he u j hu] at hl
  cases hj : stage j with
  | none => rw [hj] at hl; simp only [Option.none_or] at hl; rw [hk] at hl; cases hl; exact Nat.le_refl _
  | some x => rw [hj] at hl; exact hc u j k l hu hk (by rw [hj]; simpa using hl)

/-- The operations 1 and 2, in the stages 2 and 1, share the operand 0, which has no
stage. -/
def shared : Graph where
  leaf n := n = 0
  inputs n := match n with
    | 1 => [0]
    | 2 => [0]
    | 3 => [1, 2]
    | _ => []
  before := by
    intro n a h
    match n with
    | 0 => cases h
    | 1 => simp at h; omega
    | 2 => simp at h; omega
    | 3 => simp at h; omega
    | n + 4 => cases h

def sharedStage (n : ℕ) : Option Stage :=
  match n with
  | 0 => none
  | 1 => some (.num 2)
  | 2 => some (.num 1)
  | _ => some (.num 2)

/-- A shared operand gets the stage of the user met first, which can be later than the
stage of another user: the order of the stages was respected before, and is not in the
end. -/
theorem C136_shared_wrong : ∃ (G : Graph) (root : ℕ) (stage : ℕ → Option Stage) (s : St),
    Causal G root stage ∧ stage root ≠ none ∧
    unify G (root + 1) root none ⟨stage, fun _ => false⟩ = some s ∧ ¬ Causal G root s.stage := by
  refine ⟨shared, 3, sharedStage, _, ?_, by decide, rfl, ?_⟩
  · intro u j k l hu hk hl
    have hle := hu.1.le
    match u, hle with
    | 0, _ => cases hu.2.2
    | 1, _ => have : j = 0 := by simpa [shared] using hu.2.2
              subst this; cases hl
    | 2, _ => have : j = 0 := by simpa [shared] using hu.2.2
              subst this; cases hl
    | 3, _ =>
      have : j = 1 ∨ j = 2 := by simpa [shared] using hu.2.2
      cases hk
      rcases this with rfl | rfl <;> cases hl <;> decide
  · intro hc
    have := hc 2 0 1 2 ⟨.step .root rfl (by decide), rfl, by decide⟩ rfl rfl
    exact absurd this (by decide)

/-- The pass gives the map for the stage: a root without a stage, and then every node
without a stage which inherits from it, gets an object which is not a number. -/
theorem C136_execute_wrong (G : Graph) (fuel root : ℕ) (h : root < fuel)
    (stage : ℕ → Option Stage) (hn : ∀ j, Reach G root j → stage j = none) :
    ∃ s, execute G fuel root stage = some s ∧ ∀ j, Reach G root j → s.stage j = some .object := by
  obtain ⟨s, hs, _, h2, h3⟩ := unify_root G fuel root h (some .object) stage
  refine ⟨s, hs, ?_⟩
  have key : ∀ d j, root - j ≤ d → Reach G root j → s.stage j = some .object := by
    intro d
    induction d with
    | zero =>
      intro j hd' hr
      have := hr.le
      obtain rfl : j = root := by omega
      rw [h2, hn j hr]; rfl
    | succ d ih =>
      intro j hd' hr
      by_cases hj : j = root
      · exact ih j (by omega) hr
      · obtain ⟨u, hu, he⟩ := h3 j hr hj
        have hlt := G.before u j hu.2.2
        have hle := hu.1.le
        rw [he, hn j hr, ih u (by omega) hu.1]; rfl
  exact fun j hr => key (root - j) j (Nat.le_refl _) hr

/-- The pass numbers the stages properly when the root has a numbered stage: no node is
given the object. -/
theorem C136_execute_partial (G : Graph) (fuel root : ℕ) (h : root < fuel)
    (stage : ℕ → Option Stage) (hr : ∃ k, stage root = some (.num k))
    (hn : ∀ j, stage j ≠ some .object) :
    ∃ s, execute G fuel root stage = some s ∧
      ∀ j, Reach G root j → ∃ k, s.stage j = some (.num k) := by
  obtain ⟨s, hs, _, h2, h3⟩ := unify_root G fuel root h (some .object) stage
  obtain ⟨k0, hk0⟩ := hr
  refine ⟨s, hs, ?_⟩
  have key : ∀ d j, root - j ≤ d → Reach G root j → ∃ k, s.stage j = some (.num k) := by
    intro d
    induction d with
    | zero =>
      intro j hd' hr
      have := hr.le
      obtain rfl : j = root := by omega
      exact ⟨k0, by rw [h2, hk0]; rfl⟩
    | succ d ih =>
      intro j hd' hr
      by_cases hj : j = root
      · exact ih j (by omega) hr
      · obtain ⟨u, hu, he⟩ := h3 j hr hj
        have hlt := G.before u j hu.2.2
        have hle := hu.1.le
        obtain ⟨k, hk⟩ := ih u (by omega) hu.1
        cases hj' : stage j with
        | none => exact ⟨k, by rw [he, hj', hk]; rfl⟩
        | some x =>
          cases x with
          | object => exact absurd hj' (hn j)
          | num l => exact ⟨l, by rw [he, hj']; rfl⟩
  exact fun j hr => key (root - j) j (Nat.le_refl _) hr

example : Reach shared 3 0 ∧ sharedStage 0 = none ∧ sharedStage 3 ≠ none :=
  ⟨.step (n := 1) (.step .root rfl (by decide)) rfl (by decide), rfl, by decide⟩
example : ((unify shared 4 3 none ⟨sharedStage, fun _ => false⟩).map fun s => s.stage 0) =
    some (some (.num 2)) := by decide
example : ((execute shared 4 3 fun _ => none).map fun s => s.stage 0) = some (some .object) := by
  decide
/-- A chain, in which no node has two users. -/
def chain : Graph where
  leaf n := n = 0
  inputs n := match n with
    | 0 => []
    | n + 1 => [n]
  before := by
    intro n a h
    match n with
    | 0 => cases h
    | n + 1 => simp at h; omega
example : ∀ u v j, User chain 5 u j → User chain 5 v j → u = v := by
  intro u v j hu hv
  match u, v with
  | 0, _ => cases hu.2.2
  | _, 0 => cases hv.2.2
  | u + 1, v + 1 =>
    have h1 : j = u := by simpa [chain] using hu.2.2
    have h2 : j = v := by simpa [chain] using hv.2.2
    omega

end Verif.Stages
