import Verif.Tags.Model

namespace Verif.Tags

/-! ### The text of the tags -/

theorem takeWhile_digits (d rest : List Char) (h : '_' ∉ d) :
    (d ++ '_' :: rest).takeWhile (· ≠ '_') = d := by
  induction d with
  | nil => simp
  | cons c d ih =>
    have hc : c ≠ '_' := fun h' => h (by simp [h'])
    have hd : '_' ∉ d := fun h' => h (by simp [h'])
    simp [hc]
    simpa using ih hd

theorem digits_no_underscore (k : ℕ) : '_' ∉ Nat.toDigits 10 k := by
  intro h
  have := Nat.isDigit_of_mem_toDigits (b := 10) (by decide) (by decide) h
  exact absurd this (by decide)

theorem format_inj {a b : Name} {k l : ℕ} (h : format a k = format b l) : a = b ∧ k = l := by
  have hr := congrArg List.reverse h
  simp only [format, List.reverse_append, List.reverse_cons, List.append_assoc,
    List.singleton_append] at hr
  have h1 := takeWhile_digits (Nat.toDigits 10 k).reverse a.reverse
    (by rw [List.mem_reverse]; exact digits_no_underscore k)
  have h2 := takeWhile_digits (Nat.toDigits 10 l).reverse b.reverse
    (by rw [List.mem_reverse]; exact digits_no_underscore l)
  rw [hr, h2] at h1
  have hd : Nat.toDigits 10 l = Nat.toDigits 10 k := List.reverse_inj.1 h1
  have hkl : k = l := by
    have := Nat.ofDigitChars_toDigits (b := 10) (n := k) (by decide) (by decide)
    rw [← hd, Nat.ofDigitChars_toDigits (by decide) (by decide)] at this
    exact this.symm
  subst hkl
  exact ⟨List.append_cancel_right h, rfl⟩

/-! ### The invariant -/

/-- `idx` is the number given to a node. -/
structure Inv (G : Graph) (name : ℕ → Name) (t0 : ℕ → Option Name) (s : St) : Prop where
  kept : ∀ n x, t0 n = some x → s.tag n = some x
  new : ∃ idx : ℕ → ℕ, (∀ n, t0 n = none → s.tag n ≠ none →
      s.tag n = some (format (name (G.cls n)) (idx n)) ∧ idx n ≤ s.count (G.cls n)) ∧
    ∀ n m, t0 n = none → s.tag n ≠ none → t0 m = none → s.tag m ≠ none →
      G.cls n = G.cls m → idx n = idx m → n = m
  memo : ∀ n, s.memo n = true → s.tag n ≠ none ∧
    (G.leaf n = false → ∀ a ∈ G.inputs n, s.memo a = true)

theorem newTag_inv {G : Graph} {name : ℕ → Name} {t0 : ℕ → Option Name} {s : St}
    (I : Inv G name t0 s) {n : ℕ} (h : s.tag n = none) : Inv G name t0 (newTag G name s n) := by
  have ht0 : t0 n = none := by
    cases hc : t0 n with
    | none => rfl
    | some x => rw [I.kept n x hc] at h; cases h
  refine ⟨?_, ?_, ?_⟩
  · intro m x hx
    have : m ≠ n := by rintro rfl; rw [ht0] at hx; cases hx
    simp [newTag, this, I.kept m x hx]
  · obtain ⟨idx, h1, h2⟩ := I.new
    refine ⟨fun m => if m = n then s.count (G.cls n) + 1 else idx m, ?_, ?_⟩
    · intro m hm hs
      by_cases hmn : m = n
      · subst hmn; simp [newTag]
      · simp only [newTag, hmn, if_false] at hs ⊢
        obtain ⟨h3, h4⟩ := h1 m hm hs
        refine ⟨h3, ?_⟩
        by_cases hc : G.cls m = G.cls n
        · rw [hc] at h4; simp [hc]; omega
        · simp [hc]; exact h4
    · intro m m' hm hs hm' hs' hc hi
      by_cases hmn : m = n
      · subst hmn
        by_cases hmn' : m' = m
        · exact hmn'.symm
        · exfalso
          simp only [newTag, hmn', if_false] at hs'
          simp only [if_true, hmn', if_false] at hi
          have := (h1 m' hm' hs').2
          rw [← hc] at this; omega
      · by_cases hmn' : m' = n
        · subst hmn'
          exfalso
          simp only [newTag, hmn, if_false] at hs
          simp only [if_true, hmn, if_false] at hi
          have := (h1 m hm hs).2
          rw [hc] at this; omega
        · simp only [newTag, hmn, hmn', if_false] at hs hs' hi
          exact h2 m m' hm hs hm' hs' hc hi
  · intro m hm
    have := I.memo m hm
    refine ⟨?_, this.2⟩
    by_cases hmn : m = n
    · subst hmn; simp [newTag]
    · simp [newTag, hmn, this.1]

/-- What tagging from `n` guarantees. -/
structure Post (G : Graph) (name : ℕ → Name) (t0 : ℕ → Option Name) (n : ℕ) (s s' : St) :
    Prop where
  inv : Inv G name t0 s'
  mono : ∀ j, s.memo j = true → s'.memo j = true
  tags : ∀ j x, s.tag j = some x → s'.tag j = some x
  only : ∀ j, s'.tag j ≠ s.tag j → Reach G n j

theorem Reach.trans {G : Graph} {a b c : ℕ} (h : Reach G a b) (h' : Reach G b c) :
    Reach G a c := by
  induction h' with
  | root => exact h
  | step _ hl hi ih => exact .step ih hl hi

theorem each_ok {G : Graph} {name : ℕ → Name} {t0 : ℕ → Option Name} {n : ℕ}
    (f : ℕ → St → Option St) (hl : G.leaf n = false) : ∀ (l : List ℕ),
    (∀ a ∈ l, a ∈ G.inputs n) →
    (∀ a ∈ l, ∀ s, Inv G name t0 s → ∃ s', f a s = some s' ∧ Post G name t0 a s s' ∧
      s'.memo a = true) →
    ∀ s, Inv G name t0 s → ∃ s', each f l s = some s' ∧ Post G name t0 n s s' ∧
      ∀ a ∈ l, s'.memo a = true
  | [], _, _, s, I => ⟨s, rfl, ⟨I, fun _ h => h, fun _ _ h => h, fun _ h => absurd rfl h⟩,
      by intro a h; cases h⟩
  | a :: l, hin, hf, s, I => by
    obtain ⟨s1, h1, p1, m1⟩ := hf a (by simp) s I
    obtain ⟨s2, h2, p2, m2⟩ := each_ok f hl l (fun b hb => hin b (List.mem_cons_of_mem _ hb))
      (fun b hb => hf b (List.mem_cons_of_mem _ hb)) s1 p1.inv
    refine ⟨s2, by simp [each, h1, h2], ⟨p2.inv, fun j h => p2.mono j (p1.mono j h),
      fun j x h => p2.tags j x (p1.tags j x h), ?_⟩, ?_⟩
    · intro j hj
      by_cases h : s1.tag j = s.tag j
      · exact p2.only j (by rw [h]; exact hj)
      · exact Reach.trans (.step .root hl (hin a (by simp))) (p1.only j h)
    · intro b hb
      rcases List.mem_cons.1 hb with rfl | hb
      · exact p2.mono _ m1
      · exact m2 b hb

theorem tagNode_ok {G : Graph} {name : ℕ → Name} {t0 : ℕ → Option Name} :
    ∀ (fuel n : ℕ), n < fuel → ∀ s, Inv G name t0 s →
      ∃ s', tagNode G name fuel n s = some s' ∧ Post G name t0 n s s' ∧ s'.memo n = true
  | 0, n, h, _, _ => absurd h (by omega)
  | fuel + 1, n, h, s, I => by
    by_cases hm : s.memo n = true
    · exact ⟨s, by simp [tagNode, hm], ⟨I, fun _ h => h, fun _ _ h => h,
        fun _ h => absurd rfl h⟩, hm⟩
    · have hchildren : ∃ s1, (if G.leaf n then some s
            else each (tagNode G name fuel) (G.inputs n) s) = some s1 ∧ Post G name t0 n s s1 ∧
          (G.leaf n = false → ∀ a ∈ G.inputs n, s1.memo a = true) := by
        cases hl : G.leaf n with
        | true => exact ⟨s, by simp, ⟨I, fun _ h => h, fun _ _ h => h,
            fun _ h => absurd rfl h⟩, fun h => by cases h⟩
        | false =>
          obtain ⟨s1, h1, h2, h3⟩ := each_ok (tagNode G name fuel) hl (G.inputs n)
            (fun _ h => h) (fun a ha s I =>
              tagNode_ok fuel a (by have := G.before n a ha; omega) s I) s I
          exact ⟨s1, by simp [h1], h2, fun _ => h3⟩
      obtain ⟨s1, h1, p1, hc⟩ := hchildren
      obtain ⟨s2, hs2⟩ : ∃ s2, s2 = if s1.tag n = none then newTag G name s1 n else s1 := ⟨_, rfl⟩
      have I2 : Inv G name t0 s2 := by
        rw [hs2]; split
        · next h => exact newTag_inv p1.inv h
        · exact p1.inv
      have ht2 : s2.tag n ≠ none := by
        rw [hs2]; split
        · simp [newTag]
        · next h => exact h
      have hm2 : s2.memo = s1.memo := by rw [hs2]; split <;> rfl
      have hne : ∀ j, j ≠ n → s2.tag j = s1.tag j := by
        intro j hj; rw [hs2]; split
        · simp [newTag, hj]
        · rfl
      refine ⟨{ s2 with memo := fun m => if m = n then true else s2.memo m }, ?_, ?_, by simp⟩
      · simp only [tagNode, hm, h1]
        rw [hs2]; simp
      · refine ⟨⟨I2.kept, I2.new, ?_⟩, ?_, ?_, ?_⟩
        · intro j hj
          by_cases hjn : j = n
          · subst hjn
            refine ⟨ht2, fun hl a ha => ?_⟩
            have := hc hl a ha
            show (if a = j then true else s2.memo a) = true
            rw [hm2, this]; simp
          · have hj' : s2.memo j = true := by simpa [hjn] using hj
            refine ⟨(I2.memo j hj').1, fun hl a ha => ?_⟩
            show (if a = n then true else s2.memo a) = true
            rw [(I2.memo j hj').2 hl a ha]; simp
        · intro j hj
          show (if j = n then true else s2.memo j) = true
          rw [hm2, p1.mono j hj]; simp
        · intro j x hj
          have h1' := p1.tags j x hj
          by_cases hjn : j = n
          · subst hjn
            show s2.tag j = some x
            rw [hs2, if_neg (by rw [h1']; simp)]; exact h1'
          · show s2.tag j = some x
            rw [hne j hjn]; exact h1'
        · intro j hj
          by_cases hjn : j = n
          · subst hjn; exact .root
          · refine p1.only j ?_
            have : s2.tag j ≠ s.tag j := hj
            rw [hne j hjn] at this; exact this

theorem reach_memo {G : Graph} {name : ℕ → Name} {t0 : ℕ → Option Name} {s : St}
    (I : Inv G name t0 s) {r j : ℕ} (hr : s.memo r = true) (h : Reach G r j) :
    s.memo j = true := by
  induction h with
  | root => exact hr
  | step _ hl hi ih => exact (I.memo _ ih).2 hl _ hi

theorem tagFunctions_ok {G : Graph} {name : ℕ → Name} {t0 : ℕ → Option Name} (fuel : ℕ) :
    ∀ (roots : List ℕ), (∀ r ∈ roots, r < fuel) → ∀ s, Inv G name t0 s →
      ∃ s', tagFunctions G name fuel roots s = some s' ∧ Inv G name t0 s' ∧
        (∀ j x, s.tag j = some x → s'.tag j = some x) ∧
        (∀ r ∈ roots, ∀ j, Reach G r j → s'.tag j ≠ none) ∧
        ∀ j, s'.tag j ≠ s.tag j → ∃ r ∈ roots, Reach G r j
  | [], _, s, I => ⟨s, rfl, I, fun _ _ h => h, (by intro r h; cases h), fun _ h => absurd rfl h⟩
  | r :: roots, hr, s, I => by
    have I0 : Inv G name t0 { s with memo := fun _ => false } :=
      ⟨I.kept, I.new, by intro n h; cases h⟩
    obtain ⟨s1, h1, p1, m1⟩ := tagNode_ok fuel r (hr r (by simp)) _ I0
    obtain ⟨s2, h2, I2, t2, a2, o2⟩ := tagFunctions_ok fuel roots
      (fun x hx => hr x (List.mem_cons_of_mem _ hx)) s1 p1.inv
    refine ⟨s2, by simp [tagFunctions, h1, h2], I2, fun j x h => t2 j x (p1.tags j x h), ?_, ?_⟩
    · intro x hx j hj
      rcases List.mem_cons.1 hx with rfl | hx
      · have hm := reach_memo p1.inv m1 hj
        have ht := (p1.inv.memo j hm).1
        cases hc : s1.tag j with
        | none => exact absurd hc ht
        | some y => rw [t2 j y hc]; simp
      · exact a2 x hx j hj
    · intro j hj
      by_cases h : s2.tag j = s1.tag j
      · exact ⟨r, by simp, p1.only j (by rw [← h]; exact hj)⟩
      · obtain ⟨x, hx, hr⟩ := o2 j h
        exact ⟨x, List.mem_cons_of_mem _ hx, hr⟩

/-- The state before the pass: the tags the user gave, all counters at 0. -/
def start (t0 : ℕ → Option Name) : St := ⟨t0, fun _ => 0, fun _ => false⟩

theorem start_inv (G : Graph) (name : ℕ → Name) (t0 : ℕ → Option Name) :
    Inv G name t0 (start t0) :=
  ⟨fun _ _ h => h, ⟨fun _ => 0, fun n h h' => absurd h h', fun n _ h h' => absurd h h'⟩,
    by intro n h; cases h⟩

/-- **C130**: the pass ends on every group of functions, gives a tag to every
node of every function, keeps the tags given by the user and changes nothing
else. -/
theorem C130_tagged (G : Graph) (name : ℕ → Name) (t0 : ℕ → Option Name) (roots : List ℕ)
    (fuel : ℕ) (hf : ∀ r ∈ roots, r < fuel) :
    ∃ s, tagFunctions G name fuel roots (start t0) = some s ∧
      (∀ r ∈ roots, ∀ j, Reach G r j → s.tag j ≠ none) ∧
      (∀ j x, t0 j = some x → s.tag j = some x) ∧
      ∀ j, (∀ r ∈ roots, ¬ Reach G r j) → s.tag j = t0 j := by
  obtain ⟨s, h1, _, h3, h4, h5⟩ := tagFunctions_ok fuel roots hf _ (start_inv G name t0)
  refine ⟨s, h1, h4, h3, fun j hj => ?_⟩
  cases Decidable.em (s.tag j = t0 j) with
  | inl h => exact h
  | inr h =>
    obtain ⟨r, hr, hr'⟩ := h5 j h
    exact absurd hr' (hj r hr)

/-- **C130**: two nodes tagged by the pass have the same tag only when their
classes differ and bear the same name. -/
theorem C130_distinct_partial (G : Graph) (name : ℕ → Name) (t0 : ℕ → Option Name)
    (roots : List ℕ) (fuel : ℕ) (s : St) (hf : ∀ r ∈ roots, r < fuel)
    (hs : tagFunctions G name fuel roots (start t0) = some s) (n m : ℕ) (hnm : n ≠ m)
    (hn : t0 n = none) (hm : t0 m = none) (htn : s.tag n ≠ none) (heq : s.tag n = s.tag m) :
    G.cls n ≠ G.cls m ∧ name (G.cls n) = name (G.cls m) := by
  obtain ⟨s', h1, I, _⟩ := tagFunctions_ok fuel roots hf _ (start_inv G name t0)
  rw [hs] at h1
  cases h1
  obtain ⟨idx, h2, h3⟩ := I.new
  have htm : s.tag m ≠ none := by rw [← heq]; exact htn
  have e1 := (h2 n hn htn).1
  have e2 := (h2 m hm htm).1
  rw [heq, e2] at e1
  obtain ⟨e3, e4⟩ := format_inj (Option.some.inj e1)
  exact ⟨fun hc => hnm (h3 n m hn htn hm htm hc e4.symm), e3.symm⟩

/-- With class names all different and no tag given by the user of the form
`name_number`, every node has its own tag. -/
theorem C130_unique (G : Graph) (name : ℕ → Name) (t0 : ℕ → Option Name)
    (hname : ∀ c d, name c = name d → c = d)
    (huser : ∀ n m x, t0 n = some x → t0 m = some x → n = m)
    (hform : ∀ n x c k, t0 n = some x → x ≠ format (name c) k)
    (roots : List ℕ) (fuel : ℕ) (s : St) (hf : ∀ r ∈ roots, r < fuel)
    (hs : tagFunctions G name fuel roots (start t0) = some s) (n m : ℕ)
    (htn : s.tag n ≠ none) (heq : s.tag n = s.tag m) : n = m := by
  obtain ⟨s', h1, I, _⟩ := tagFunctions_ok fuel roots hf _ (start_inv G name t0)
  rw [hs] at h1
  cases h1
  obtain ⟨idx, h2, _⟩ := I.new
  have htm : s.tag m ≠ none := by rw [← heq]; exact htn
  cases hn : t0 n with
  | some x =>
    have e1 := I.kept n x hn
    cases hm : t0 m with
    | some y =>
      have e2 := I.kept m y hm
      rw [heq, e2] at e1
      cases e1
      exact huser n m _ hn hm
    | none =>
      have e2 := (h2 m hm htm).1
      rw [heq, e2] at e1
      exact absurd (Option.some.inj e1).symm (hform n x _ _ hn)
  | none =>
    cases hm : t0 m with
    | some y =>
      have e1 := (h2 n hn htn).1
      have e2 := I.kept m y hm
      rw [heq, e2] at e1
      exact absurd (Option.some.inj e1) (hform m y _ _ hm)
    | none =>
      cases Decidable.em (n = m) with
      | inl h => exact h
      | inr h =>
        obtain ⟨h5, h6⟩ := C130_distinct_partial G name t0 roots fuel s hf hs n m h hn hm htn heq
        exact absurd (hname _ _ h6) h5

/-! ### Two nodes with one tag -/

/-- A statement (2) made of two nodes (0 and 1) of different classes. -/
def exGraph : Graph where
  cls n := n
  leaf n := n ≠ 2
  inputs n := if n = 2 then [0, 1] else []
  before n a h := by
    by_cases hn : n = 2
    · subst hn; simp at h; omega
    · simp [hn] at h

/-- `Loop` and `RangeLoop` are two classes named "Loop"
(metalibm_core/core/ml_operations.py:1298, ml_hdl_operations.py:172): their first
untagged nodes both become `Loop_1`. -/
theorem C130_same_name_wrong :
    (tagFunctions exGraph (fun c => if c = 2 then "Statement".toList else "Loop".toList) 3 [2]
      (start (fun _ => none))).map (fun s => (s.tag 0, s.tag 1, s.tag 2)) =
    some (some "Loop_1".toList, some "Loop_1".toList, some "Statement_1".toList) := by
  decide

/-- A tag given by the user is given again to another node. -/
theorem C130_user_tag_wrong :
    (tagFunctions exGraph (fun c => if c = 0 then "Negation".toList
        else if c = 1 then "Addition".toList else "Statement".toList) 3 [2]
      (start (fun n => if n = 0 then some "Addition_1".toList else none))).map
        (fun s => (s.tag 0, s.tag 1)) =
    some (some "Addition_1".toList, some "Addition_1".toList) := by
  decide

/-- The hypotheses of `C130_unique` are met by names all different and a tag
which ends with no number. -/
example : (tagFunctions exGraph (fun c => List.replicate c 'a') 3 [2]
      (start (fun n => if n = 0 then some "vx".toList else none))).map
        (fun s => (s.tag 0, s.tag 1, s.tag 2)) =
    some (some "vx".toList, some "a_1".toList, some "aa_1".toList) := by
  decide

example : (∀ c d, List.replicate c 'a' = List.replicate d 'a' → c = d) ∧
    ∀ c k, "vx".toList ≠ format (List.replicate c 'a') k := by
  refine ⟨fun c d h => by simpa using congrArg List.length h, fun c k h => ?_⟩
  have : '_' ∈ "vx".toList := by rw [h]; simp [format]
  exact absurd this (by decide)

/-! ### The debug option -/

structure DPost (G : Graph) (tag : ℕ → Option Name) (white : List Name) (keep : Bool)
    (s s' : DSt) : Prop where
  mono : ∀ j, s.memo j = true → s'.memo j = true
  done : ∀ j, s.memo j = false → s'.memo j = true →
    s'.debug j = wanted white keep (tag j) (s.debug j)
  same : ∀ j, s.memo j = true ∨ s'.memo j = false → s'.debug j = s.debug j

theorem DPost.trans {G : Graph} {tag : ℕ → Option Name} {white : List Name} {keep : Bool}
    {s s1 s2 : DSt} (h1 : DPost G tag white keep s s1) (h2 : DPost G tag white keep s1 s2) :
    DPost G tag white keep s s2 := by
  refine ⟨fun j h => h2.mono j (h1.mono j h), ?_, ?_⟩
  · intro j hj hj2
    cases h : s1.memo j with
    | true => rw [h2.same j (.inl h), h1.done j hj h]
    | false => rw [h2.done j h hj2, h1.same j (.inr h)]
  · intro j hj
    rcases hj with hj | hj
    · rw [h2.same j (.inl (h1.mono j hj)), h1.same j (.inl hj)]
    · have h : s1.memo j = false := by
        cases h : s1.memo j with
        | false => rfl
        | true => rw [h2.mono j h] at hj; cases hj
      rw [h2.same j (.inr hj), h1.same j (.inr h)]

/-- The memoized nodes below `B` have all their operands memoized. -/
def Closed (G : Graph) (B : ℕ) (s : DSt) : Prop :=
  ∀ n, n < B → s.memo n = true → G.leaf n = false → ∀ a ∈ G.inputs n, s.memo a = true

theorem Reach.le {G : Graph} {a j : ℕ} (h : Reach G a j) : j ≤ a := by
  induction h with
  | root => exact Nat.le_refl _
  | step _ _ hi ih => have := G.before _ _ hi; omega

theorem eachD_ok {G : Graph} {tag : ℕ → Option Name} {white : List Name} {keep : Bool}
    (n : ℕ) (hl : G.leaf n = false) (f : ℕ → DSt → Option DSt) : ∀ (l : List ℕ),
    (∀ a ∈ l, a ∈ G.inputs n) →
    (∀ a ∈ l, ∀ s, Closed G n s → ∃ s', f a s = some s' ∧ DPost G tag white keep s s' ∧
      s'.memo a = true ∧ Closed G n s' ∧ ∀ j, s'.memo j = true → s.memo j = true ∨ Reach G a j) →
    ∀ s, Closed G n s → ∃ s', eachD f l s = some s' ∧ DPost G tag white keep s s' ∧
      (∀ a ∈ l, s'.memo a = true) ∧ Closed G n s' ∧
      ∀ j, s'.memo j = true → s.memo j = true ∨ (Reach G n j ∧ j < n)
  | [], _, _, s, C => ⟨s, rfl, ⟨fun _ h => h, (fun _ h h' => by rw [h] at h'; cases h'),
      fun _ _ => rfl⟩, (by intro a h; cases h), C, fun _ h => .inl h⟩
  | a :: l, hin, hf, s, C => by
    obtain ⟨s1, h1, p1, m1, C1, r1⟩ := hf a (by simp) s C
    obtain ⟨s2, h2, p2, m2, C2, r2⟩ := eachD_ok n hl f l
      (fun b hb => hin b (List.mem_cons_of_mem _ hb))
      (fun b hb => hf b (List.mem_cons_of_mem _ hb)) s1 C1
    refine ⟨s2, by simp [eachD, h1, h2], p1.trans p2, ?_, C2, ?_⟩
    · intro b hb
      rcases List.mem_cons.1 hb with rfl | hb
      · exact p2.mono _ m1
      · exact m2 b hb
    · intro j hj
      rcases r2 j hj with h | h
      · rcases r1 j h with h | h
        · exact .inl h
        · have hle := h.le
          have := G.before n a (hin a (by simp))
          exact .inr ⟨Reach.trans (.step .root hl (hin a (by simp))) h, by omega⟩
      · exact .inr h

theorem enableDebug_ok {G : Graph} {tag : ℕ → Option Name} {white : List Name} {keep : Bool} :
    ∀ (fuel n : ℕ), n < fuel → ∀ (B : ℕ) s, n < B → Closed G B s →
      ∃ s', enableDebug G tag white keep fuel n s = some s' ∧ DPost G tag white keep s s' ∧
        s'.memo n = true ∧ Closed G B s' ∧
        ∀ j, s'.memo j = true → s.memo j = true ∨ Reach G n j
  | 0, n, h, _, _, _, _ => absurd h (by omega)
  | fuel + 1, n, h, B, s, hB, C => by
    cases hm : s.memo n with
    | true =>
      exact ⟨s, by simp [enableDebug, hm], ⟨fun _ h => h,
        (fun _ h h' => by rw [h] at h'; cases h'), fun _ _ => rfl⟩, hm, C, fun _ h => .inl h⟩
    | false =>
      obtain ⟨s0, hs0⟩ : ∃ s0 : DSt, s0 = { s with memo := fun m => if m = n then true else s.memo m } :=
        ⟨_, rfl⟩
      have h0n : s0.memo n = true := by subst hs0; simp
      have h0 : ∀ j, j ≠ n → s0.memo j = s.memo j := by intro j hj; subst hs0; simp [hj]
      have h0d : s0.debug = s.debug := by subst hs0; rfl
      have C0 : Closed G n s0 := by
        intro m hmn hmm hl a ha
        rw [h0 m (by omega)] at hmm
        have := G.before m a ha
        rw [h0 a (by omega)]; exact C m (by omega) hmm hl a ha
      have hchildren : ∃ s1, (if G.leaf n then some s0
            else eachD (enableDebug G tag white keep fuel) (G.inputs n) s0) = some s1 ∧
          DPost G tag white keep s0 s1 ∧ (G.leaf n = false → ∀ a ∈ G.inputs n, s1.memo a = true) ∧
          Closed G n s1 ∧ ∀ j, s1.memo j = true → s0.memo j = true ∨ (Reach G n j ∧ j < n) := by
        cases hl : G.leaf n with
        | true => exact ⟨s0, by simp, ⟨fun _ h => h,
            (fun _ h h' => by rw [h] at h'; cases h'), fun _ _ => rfl⟩,
            (fun h => by cases h), C0, fun _ h => .inl h⟩
        | false =>
          obtain ⟨s1, e1, e2, e3, e4, e5⟩ := eachD_ok (tag := tag) (white := white) (keep := keep)
            n hl (enableDebug G tag white keep fuel) (G.inputs n) (fun _ h => h)
            (fun a ha s C => by
              have := G.before n a ha
              exact enableDebug_ok fuel a (by omega) n s this C) s0 C0
          exact ⟨s1, by simp [e1], e2, fun _ => e3, e4, e5⟩
      obtain ⟨s1, e1, e2, e3, e4, e5⟩ := hchildren
      have h1n : s1.memo n = true := e2.mono n h0n
      have h1d : s1.debug n = s.debug n := by rw [e2.same n (.inl h0n), h0d]
      -- the state at the end
      obtain ⟨w, hw⟩ : ∃ w, w = wanted white keep (tag n) (s.debug n) := ⟨_, rfl⟩
      obtain ⟨s2, hs2⟩ : ∃ s2 : DSt, s2 = ⟨fun m => if m = n then w else s1.debug m, s1.memo⟩ :=
        ⟨_, rfl⟩
      have hrun : enableDebug G tag white keep (fuel + 1) n s = some s2 := by
        have hsame : ∀ b, b = s1.debug n →
            (⟨fun m => if m = n then b else s1.debug m, s1.memo⟩ : DSt) = s1 := by
          intro b hb
          have : (fun m => if m = n then b else s1.debug m) = s1.debug := by
            funext m
            by_cases hmn : m = n
            · subst hmn; simp [hb]
            · simp [hmn]
          rw [this]
        rw [enableDebug]
        simp only [hm, ← hs0, e1]
        rw [hs2, hw]
        cases ht : tag n with
        | none =>
          cases hk : keep with
          | false => simp [wanted]
          | true => simp [wanted]; exact (hsame _ h1d.symm).symm
        | some x =>
          by_cases hx : x ∈ white
          · simp [wanted, hx]
          · cases hk : keep with
            | false => simp [wanted, hx]
            | true => simp [wanted, hx]; exact (hsame _ h1d.symm).symm
      have h2m : s2.memo = s1.memo := by subst hs2; rfl
      have h2n : s2.debug n = wanted white keep (tag n) (s.debug n) := by subst hs2; simp [hw]
      have h2d : ∀ j, j ≠ n → s2.debug j = s1.debug j := by intro j hj; subst hs2; simp [hj]
      refine ⟨s2, hrun, ⟨?_, ?_, ?_⟩, by rw [h2m]; exact h1n, ?_, ?_⟩
      · intro j hj
        rw [h2m]
        refine e2.mono j ?_
        by_cases hjn : j = n
        · subst hjn; exact h0n
        · rw [h0 j hjn]; exact hj
      · intro j hj hj'
        by_cases hjn : j = n
        · subst hjn; exact h2n
        · rw [h2m] at hj'
          rw [h2d j hjn, e2.done j (by rw [h0 j hjn]; exact hj) hj', h0d]
      · intro j hj
        have hjn : j ≠ n := by
          rintro rfl
          rcases hj with hj | hj
          · rw [hm] at hj; cases hj
          · rw [h2m, h1n] at hj; cases hj
        rw [h2d j hjn, e2.same j (by rw [h0 j hjn]; rw [h2m] at hj; exact hj), h0d]
      · intro m hmB hmm hl a ha
        rw [h2m] at hmm ⊢
        by_cases hmn : m < n
        · exact e4 m hmn hmm hl a ha
        · by_cases hmn' : m = n
          · subst hmn'; exact e3 hl a ha
          · have hs : s.memo m = true := by
              rcases e5 m hmm with h | h
              · rw [h0 m hmn'] at h; exact h
              · omega
            refine e2.mono a ?_
            by_cases han : a = n
            · subst han; exact h0n
            · rw [h0 a han]; exact C m hmB hs hl a ha
      · intro j hj
        rw [h2m] at hj
        rcases e5 j hj with h | h
        · by_cases hjn : j = n
          · subst hjn; exact .inr .root
          · rw [h0 j hjn] at h; exact .inl h
        · exact .inr h.1

/-- **C130**: the debug option reaches every node of the function, switches on
those whose tag is listed, treats the others as asked and leaves every other
node alone. -/
theorem C130_debug (G : Graph) (tag : ℕ → Option Name) (white : List Name) (keep : Bool)
    (debug : ℕ → Bool) (root fuel : ℕ) (hf : root < fuel) :
    ∃ s, enableDebug G tag white keep fuel root ⟨debug, fun _ => false⟩ = some s ∧
      (∀ j, Reach G root j → s.debug j = wanted white keep (tag j) (debug j)) ∧
      ∀ j, ¬ Reach G root j → s.debug j = debug j := by
  obtain ⟨s, h1, p, hm, C, hr⟩ := enableDebug_ok (G := G) (tag := tag) (white := white)
    (keep := keep) fuel root hf (root + 1) ⟨debug, fun _ => false⟩ (by omega)
    (by intro n _ h; cases h)
  have hall : ∀ j, Reach G root j → s.memo j = true := by
    intro j hj
    induction hj with
    | root => exact hm
    | step hp hl hi ih => exact C _ (by have := hp.le; omega) ih hl _ hi
  refine ⟨s, h1, fun j hj => p.done j rfl (hall j hj), fun j hj => ?_⟩
  refine p.same j (.inr ?_)
  cases h : s.memo j with
  | false => rfl
  | true =>
    rcases hr j h with h' | h'
    · cases h'
    · exact absurd h' hj

/-- A node listed is switched on, the others are switched off. -/
example : (enableDebug exGraph (fun n => if n = 1 then some "vy".toList else none)
    ["vy".toList] false 3 2 ⟨fun n => n = 0, fun _ => false⟩).map
      (fun s => (s.debug 0, s.debug 1, s.debug 2)) = some (false, true, false) := by
  decide

end Verif.Tags
