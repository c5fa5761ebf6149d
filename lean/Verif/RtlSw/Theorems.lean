import Verif.RtlSw.Model
import Verif.Fixed.Theorems
import Mathlib.Tactic.NormNum
import Mathlib.Tactic.Push

namespace Verif.RtlSw

/-- **C133**: a bit, a hardware fixed-point number and a vector of bits are given a
software format with as many bits and in which every bit pattern stands for the same
number. -/
theorem C133_format (f : Fmt) (hf : f.Hardware) (hn : ¬ f.Numeric) :
    SameInSoftware f (legalize f) := by
  cases f with
  | bit =>
    refine ⟨⟨1, 0, false, rfl⟩, by simp [legalize, Fmt.width], ?_⟩
    intro b _
    simp [legalize, Fmt.meaning, integer]
  | hwFixed i fr s => exact ⟨⟨i, fr, s, rfl⟩, rfl, fun b _ => rfl⟩
  | bits n =>
    refine ⟨⟨n, 0, false, rfl⟩, by simp [legalize, Fmt.width], ?_⟩
    intro b _
    simp [legalize, Fmt.meaning, integer]
  | numeric n s => exact absurd ⟨n, s, rfl⟩ hn
  | swFixed i fr s => exact absurd hf (by simp [Fmt.Hardware])
  | other k => exact absurd hf (by simp [Fmt.Hardware])

/-- Software formats are not changed. -/
theorem C133_format_other (f : Fmt) (hf : ¬ f.Hardware) : legalize f = f := by
  cases f <;> simp_all [Fmt.Hardware, legalize]

example : (Fmt.hwFixed 3 5 true).Hardware ∧ ¬ (Fmt.other 0).Hardware := by simp [Fmt.Hardware]
example : (Fmt.hwFixed 3 5 true).meaning 255 = some (-1 / 32) := by
  have h : Int.toNat 8 = 8 := rfl
  norm_num [Fmt.meaning, integer, h]

/-- The software format has a C type exactly from 1 to 128 bits, and the type is
large enough. -/
theorem C133_container (f : Fmt) (hf : f.Hardware) (hn : ¬ f.Numeric) :
    ∃ i fr s, legalize f = .swFixed i fr s ∧
      ((∃ c, Fixed.cBitSize i fr = some c) ↔ 1 ≤ f.width ∧ f.width ≤ 128) ∧
      ∀ c, Fixed.cBitSize i fr = some c → f.width ≤ c := by
  obtain ⟨⟨i, fr, s, h⟩, hw, _⟩ := C133_format f hf hn
  refine ⟨i, fr, s, h, ?_, ?_⟩
  · rw [Fixed.C05_container_exists_iff, ← hw, h]
    simp only [Fmt.width]; omega
  · intro c hc
    have := Fixed.C05_container_smallest i fr c hc
    rw [← hw, h]
    simp only [Fmt.width]; omega

example : (Fmt.bits 17).Hardware ∧ (Fmt.bits 17).width = 17 := ⟨trivial, rfl⟩

/-- Vectors of more than 128 bits are given a format for which there is no C type. -/
theorem C133_wide_wrong (n : ℕ) (h : 128 < n) :
    ∃ i fr s, legalize (.bits n) = .swFixed i fr s ∧ Fixed.cBitSize i fr = none := by
  refine ⟨n, 0, false, rfl, ?_⟩
  cases hc : Fixed.cBitSize n 0 with
  | none => rfl
  | some c => have := (Fixed.C05_container_exists_iff n 0).1 ⟨c, hc⟩; omega

example : 128 < 200 := by decide

/-! ## The traversal -/

theorem legalize_idem (f : Fmt) : legalize (legalize f) = legalize f := by cases f <;> rfl

/-- The attribute of node `n` after its turn. -/
def turned (G : Graph) (n : ℕ) (p : Prec) : Prec :=
  match G.kind n with
  | .op => match p with
    | .fmt f => .fmt (legalize f)
    | p => p
  | .call f | .table f => match f with
    | .bit | .hwFixed .. | .bits _ => .fmt (legalize f)
    | _ => p
  | .newTable _ _ => p

/-- The table format number `k` is the format of node `n`. -/
def Uses (G : Graph) (a : ℕ → Prec) (n k : ℕ) : Prop :=
  (∃ b, G.kind n = .newTable k b) ∨ (G.kind n = .op ∧ a n = .table k)

theorem onNode_attr (G : Graph) (n : ℕ) (s : St) (j : ℕ) :
    (onNode G n s).2.attr j = if j = n then turned G n (s.attr n) else s.attr j := by
  by_cases hj : j = n
  · subst hj
    rw [if_pos rfl]
    unfold onNode turned getPrecision
    cases G.kind j with
    | op => cases h : s.attr j with
      | none => simpa using h
      | fmt f => cases f <;> simp [setPrecision, legalize, h]
      | table k => simpa using h
    | call f => cases f <;> simp [setPrecision]
    | table f => cases f <;> simp [setPrecision]
    | newTable k b => simp
  · rw [if_neg hj]
    unfold onNode
    split <;> simp [setPrecision, hj]

theorem onNode_memo (G : Graph) (n : ℕ) (s : St) : (onNode G n s).2.memo = s.memo := by
  unfold onNode; split <;> rfl

open Classical in
theorem onNode_store (G : Graph) (n : ℕ) (s : St) (k : ℕ) :
    (onNode G n s).2.store k = if Uses G s.attr n k then legalize (s.store k) else s.store k := by
  unfold onNode getPrecision Uses
  cases hk : G.kind n with
  | op => cases h : s.attr n with
    | none => simp
    | fmt f => cases f <;> simp [setPrecision]
    | table k' =>
      by_cases hkk : k = k'
      · subst hkk; simp
      · simp [hkk, Ne.symm hkk]
  | call f => cases f <;> simp [setPrecision]
  | table f => cases f <;> simp [setPrecision]
  | newTable k' b =>
    by_cases hkk : k = k'
    · subst hkk; simp
    · simp [hkk, Ne.symm hkk]

theorem turned_uses (G : Graph) (a a' : ℕ → Prec) (n k : ℕ)
    (h : a' n = a n ∨ a' n = turned G n (a n)) : Uses G a' n k ↔ Uses G a n k := by
  unfold Uses
  rcases h with h | h
  · rw [h]
  · rw [h]; unfold turned
    cases G.kind n with
    | op => cases a n <;> simp
    | call f => simp
    | table f => simp
    | newTable _ _ => simp

theorem turned_idem (G : Graph) (n : ℕ) (p : Prec) : turned G n (turned G n p) = turned G n p := by
  unfold turned
  cases G.kind n with
  | op => cases p <;> simp [legalize_idem]
  | call f => cases f <;> simp
  | table f => cases f <;> simp
  | newTable _ _ => simp

open Classical in
/-- What holds of the state, started from the attributes `a0` and the stored formats
`t0`. -/
structure Inv (G : Graph) (a0 : ℕ → Prec) (t0 : ℕ → Fmt) (s : St) : Prop where
  attr : ∀ j, s.attr j = if s.memo j = none then a0 j else turned G j (a0 j)
  store : ∀ k, s.store k =
    if ∃ j, s.memo j ≠ none ∧ Uses G a0 j k then legalize (t0 k) else t0 k
  below : ∀ j, s.memo j ≠ none → G.leaf j = false → ∀ a ∈ G.inputs j, s.memo a ≠ none

/-- What a call on node `n` does. -/
structure Post (G : Graph) (a0 : ℕ → Prec) (t0 : ℕ → Fmt) (n : ℕ) (s s' : St) : Prop where
  inv : Inv G a0 t0 s'
  mono : ∀ j, s.memo j ≠ none → s'.memo j ≠ none
  only : ∀ j, s'.memo j ≠ none → s.memo j = none → Reach G n j

theorem Reach.trans {G : Graph} {a b c : ℕ} (h : Reach G a b) (h' : Reach G b c) :
    Reach G a c := by
  induction h' with
  | root => exact h
  | step _ hl hi ih => exact .step ih hl hi

theorem Reach.le {G : Graph} {a j : ℕ} (h : Reach G a j) : j ≤ a := by
  induction h with
  | root => exact le_refl _
  | step _ _ hi ih => have := G.before _ _ hi; omega

theorem each_ok {G : Graph} {a0 : ℕ → Prec} {t0 : ℕ → Fmt} {n : ℕ}
    (f : ℕ → St → Option (Option Fmt × St)) (hl : G.leaf n = false) : ∀ (l : List ℕ),
    (∀ a ∈ l, a ∈ G.inputs n) →
    (∀ a ∈ l, ∀ s, Inv G a0 t0 s → ∃ r s', f a s = some (r, s') ∧ Post G a0 t0 a s s' ∧
      s'.memo a ≠ none) →
    ∀ s, Inv G a0 t0 s → ∃ s', each f l s = some s' ∧ Post G a0 t0 n s s' ∧
      (∀ j, s'.memo j ≠ none → s.memo j = none → j < n) ∧ ∀ a ∈ l, s'.memo a ≠ none
  | [], _, _, s, I => ⟨s, rfl, ⟨I, fun _ h => h, fun _ h h' => absurd h' h⟩,
      fun _ h h' => absurd h' h, by intro a h; cases h⟩
  | a :: l, hin, hf, s, I => by
    obtain ⟨r1, s1, h1, p1, m1⟩ := hf a (by simp) s I
    obtain ⟨s2, h2, p2, l2, m2⟩ := each_ok f hl l (fun b hb => hin b (List.mem_cons_of_mem _ hb))
      (fun b hb => hf b (List.mem_cons_of_mem _ hb)) s1 p1.inv
    refine ⟨s2, by simp [each, h1, h2], ⟨p2.inv, fun j h => p2.mono j (p1.mono j h), ?_⟩, ?_, ?_⟩
    · intro j hj hj'
      by_cases h : s1.memo j = none
      · exact p2.only j hj h
      · exact Reach.trans (.step .root hl (hin a (by simp))) (p1.only j h hj')
    · intro j hj hj'
      by_cases h : s1.memo j = none
      · exact l2 j hj h
      · have := (p1.only j h hj').le
        have := G.before n a (hin a (by simp))
        omega
    · intro b hb
      rcases List.mem_cons.1 hb with rfl | hb
      · exact p2.mono _ m1
      · exact m2 b hb

open Classical in
theorem onOptree_ok {G : Graph} {a0 : ℕ → Prec} {t0 : ℕ → Fmt} :
    ∀ (fuel n : ℕ), n < fuel → ∀ s, Inv G a0 t0 s →
      ∃ r s', onOptree G fuel n s = some (r, s') ∧ Post G a0 t0 n s s' ∧ s'.memo n ≠ none ∧
        (s.memo n = none → ∃ s1, s1.attr n = a0 n ∧ r = (onNode G n s1).1)
  | 0, n, h, _, _ => absurd h (by omega)
  | fuel + 1, n, h, s, I => by
    cases hm : s.memo n with
    | some r =>
      exact ⟨r, s, by simp [onOptree, hm], ⟨I, fun _ h => h, fun _ h h' => absurd h' h⟩,
        by simp [hm], by intro h; cases h⟩
    | none =>
      have hchildren : ∃ s1, (if G.leaf n then some s
            else each (onOptree G fuel) (G.inputs n) s) = some s1 ∧ Post G a0 t0 n s s1 ∧
          s1.memo n = none ∧ (G.leaf n = false → ∀ a ∈ G.inputs n, s1.memo a ≠ none) := by
        cases hl : G.leaf n with
        | true => exact ⟨s, by simp, ⟨I, fun _ h => h, fun _ h h' => absurd h' h⟩, hm,
            fun h => by cases h⟩
        | false =>
          obtain ⟨s1, h1, h2, h4, h3⟩ := each_ok (onOptree G fuel) hl (G.inputs n)
            (fun _ h => h) (fun a ha s I => by
              obtain ⟨r, s', e1, e2, e3, _⟩ :=
                onOptree_ok fuel a (by have := G.before n a ha; omega) s I
              exact ⟨r, s', e1, e2, e3⟩) s I
          refine ⟨s1, by simp [h1], h2, ?_, fun _ => h3⟩
          by_contra hne
          exact absurd (h4 n hne hm) (lt_irrefl n)
      obtain ⟨s1, h1, p1, hn1, hc⟩ := hchildren
      have ha1 : s1.attr n = a0 n := by rw [p1.inv.attr n, if_pos hn1]
      obtain ⟨r, s2, h2⟩ : ∃ r s2, onNode G n s1 = (r, s2) := ⟨_, _, rfl⟩
      have hm2 : s2.memo = s1.memo := by have := onNode_memo G n s1; rw [h2] at this; exact this
      have hA : ∀ j, s2.attr j = if j = n then turned G n (s1.attr n) else s1.attr j := by
        intro j; have := onNode_attr G n s1 j; rw [h2] at this; exact this
      have hS : ∀ k, s2.store k =
          if Uses G s1.attr n k then legalize (s1.store k) else s1.store k := by
        intro k; have := onNode_store G n s1 k; rw [h2] at this; exact this
      refine ⟨r, { s2 with memo := fun m => if m = n then some r else s2.memo m }, ?_, ?_,
        by simp, fun _ => ⟨s1, ha1, by rw [h2]⟩⟩
      · simp only [onOptree, hm, h1, h2]
      · refine ⟨⟨?_, ?_, ?_⟩, ?_, ?_⟩
        · intro j
          show s2.attr j = if (if j = n then some r else s2.memo j) = none then _ else _
          rw [hA]
          by_cases hj : j = n
          · subst hj; simp [ha1]
          · simp only [if_neg hj, hm2]; exact p1.inv.attr j
        · intro k
          show s2.store k = if ∃ j, (if j = n then some r else s2.memo j) ≠ none ∧ _ then _ else _
          rw [hS, p1.inv.store k, hm2, turned_uses G a0 s1.attr n k (Or.inl ha1)]
          by_cases hu : Uses G a0 n k
          · rw [if_pos hu, if_pos (c := ∃ j, (if j = n then some r else s1.memo j) ≠ none ∧
              Uses G a0 j k) ⟨n, by simp, hu⟩]
            split
            · exact legalize_idem _
            · rfl
          · rw [if_neg hu]
            refine if_congr ?_ rfl rfl
            constructor
            · rintro ⟨j, hj, hu'⟩
              exact ⟨j, by split <;> simp_all, hu'⟩
            · rintro ⟨j, hj, hu'⟩
              by_cases hjn : j = n
              · subst hjn; exact absurd hu' hu
              · exact ⟨j, by simpa [hjn] using hj, hu'⟩
        · intro j hj hl a ha
          show (if a = n then some r else s2.memo a) ≠ none
          by_cases han : a = n
          · simp [han]
          · rw [if_neg han, hm2]
            by_cases hjn : j = n
            · subst hjn; exact hc hl a ha
            · refine p1.inv.below j ?_ hl a ha
              simpa [hjn, hm2] using hj
        · intro j hj
          show (if j = n then some r else s2.memo j) ≠ none
          by_cases hjn : j = n
          · simp [hjn]
          · rw [if_neg hjn, hm2]; exact p1.mono j hj
        · intro j hj hj'
          by_cases hjn : j = n
          · subst hjn; exact .root
          · exact p1.only j (by simpa [hjn, hm2] using hj) hj'

theorem reach_memo {G : Graph} {a0 : ℕ → Prec} {t0 : ℕ → Fmt} {s : St}
    (I : Inv G a0 t0 s) {r j : ℕ} (hr : s.memo r ≠ none) (h : Reach G r j) :
    s.memo j ≠ none := by
  induction h with
  | root => exact hr
  | step _ hl hi ih => exact I.below _ ih hl _ hi

open Classical in
theorem onFunction_ok (G : Graph) (fuel r : ℕ) (h : r < fuel) (s : St) :
    ∃ c s', onFunction G fuel r s = some (c, s') ∧
      (∀ j, s'.attr j = if Reach G r j then turned G j (s.attr j) else s.attr j) ∧
      (∀ k, s'.store k = if ∃ j, Reach G r j ∧ Uses G s.attr j k then legalize (s.store k)
        else s.store k) ∧
      ∃ s1, s1.attr r = s.attr r ∧ c = match (onNode G r s1).1 with
        | none => .node r
        | some f => .format f := by
  have I0 : Inv G s.attr s.store { s with memo := fun _ => none } :=
    ⟨by intro j; simp, by intro k; simp, by intro j hj; exact absurd rfl hj⟩
  obtain ⟨q, s', h1, p, hm, hq⟩ := onOptree_ok fuel r h _ I0
  obtain ⟨s1, hs1, hq1⟩ := hq rfl
  have hiff : ∀ j, s'.memo j ≠ none ↔ Reach G r j := fun j =>
    ⟨fun hj => p.only j hj rfl, fun hj => reach_memo p.inv hm hj⟩
  have hA : ∀ j, s'.attr j = if Reach G r j then turned G j (s.attr j) else s.attr j := by
    intro j
    rw [p.inv.attr j]
    by_cases hr : Reach G r j
    · rw [if_pos hr, if_neg ((hiff j).2 hr)]
    · rw [if_neg hr, if_pos (by by_contra hc; exact hr ((hiff j).1 hc))]
  have hS : ∀ k, s'.store k = if ∃ j, Reach G r j ∧ Uses G s.attr j k then legalize (s.store k)
        else s.store k := by
    intro k
    rw [p.inv.store k]
    simp only [hiff]
  cases q with
  | none => exact ⟨.node r, s', by simp [onFunction, h1], hA, hS, s1, hs1, by rw [← hq1]⟩
  | some f => exact ⟨.format f, s', by simp [onFunction, h1], hA, hS, s1, hs1, by rw [← hq1]⟩

open Classical in
theorem onGroup_ok (G : Graph) (fuel : ℕ) : ∀ (roots : List ℕ), (∀ r ∈ roots, r < fuel) →
    ∀ s, ∃ cs s', onGroup G fuel roots s = some (cs, s') ∧
      (∀ j, s'.attr j = if ∃ r ∈ roots, Reach G r j then turned G j (s.attr j) else s.attr j) ∧
      (∀ k, s'.store k = if ∃ r ∈ roots, ∃ j, Reach G r j ∧ Uses G s.attr j k
        then legalize (s.store k) else s.store k)
  | [], _, s => ⟨[], s, rfl, by simp, by simp⟩
  | r :: roots, hr, s => by
    obtain ⟨c, s1, h1, a1, t1, _⟩ := onFunction_ok G fuel r (hr r (by simp)) s
    obtain ⟨cs, s2, h2, a2, t2⟩ := onGroup_ok G fuel roots
      (fun x hx => hr x (List.mem_cons_of_mem _ hx)) s1
    have hU : ∀ j k, Uses G s1.attr j k ↔ Uses G s.attr j k := fun j k =>
      turned_uses G s.attr s1.attr j k (by rw [a1 j]; split <;> simp)
    refine ⟨c :: cs, s2, by simp [onGroup, h1, h2], ?_, ?_⟩
    · intro j
      rw [a2 j, a1 j]
      by_cases h : Reach G r j <;> by_cases h' : ∃ x ∈ roots, Reach G x j <;>
        simp_all [turned_idem]
    · intro k
      rw [t2 k, t1 k]
      simp only [hU]
      by_cases h : ∃ j, Reach G r j ∧ Uses G s.attr j k <;>
        by_cases h' : ∃ x ∈ roots, ∃ j, Reach G x j ∧ Uses G s.attr j k
      · rw [if_pos h', if_pos h, if_pos ⟨r, by simp, h⟩, legalize_idem]
      · rw [if_neg h', if_pos h, if_pos ⟨r, by simp, h⟩]
      · rw [if_pos h', if_neg h]
        obtain ⟨x, hx, hj⟩ := h'
        rw [if_pos ⟨x, List.mem_cons_of_mem _ hx, hj⟩]
      · rw [if_neg h', if_neg h, if_neg]
        rintro ⟨x, hx, hj⟩
        rcases List.mem_cons.1 hx with rfl | hx
        · exact h hj
        · exact h' ⟨x, hx, hj⟩

theorem uses_iff (G : Graph) (s : St) (j k : ℕ) :
    Uses G s.attr j k ↔ getPrecision G s j = .table k := by
  unfold Uses getPrecision
  cases G.kind j <;> simp

theorem legalize_translated (f : Fmt) (hn : ¬ f.Numeric) : Translated f (legalize f) :=
  ⟨fun h => C133_format f h hn, C133_format_other f⟩

/-- **C133**: on every group of functions the pass ends; every operation of a function
gets the software counterpart of its format, and so do the elements of every table
format met, once, whatever number of nodes share it; nothing else changes.
What is missing: signed and unsigned hardware integers, calls and tables of the first
kind, see the theorems below. -/
theorem C133_pass_partial (G : Graph) (fuel : ℕ) (roots : List ℕ) (hf : ∀ r ∈ roots, r < fuel)
    (s : St) :
    ∃ cs s', onGroup G fuel roots s = some (cs, s') ∧
      (∀ r ∈ roots, ∀ j, Reach G r j → G.kind j = .op → ∀ f, getPrecision G s j = .fmt f →
        ∃ g, getPrecision G s' j = .fmt g ∧ (¬ f.Numeric → Translated f g)) ∧
      (∀ r ∈ roots, ∀ j, Reach G r j → ∀ k, getPrecision G s j = .table k →
        getPrecision G s' j = .table k ∧
        (¬ (s.store k).Numeric → Translated (s.store k) (s'.store k))) ∧
      (∀ j, (∀ r ∈ roots, ¬ Reach G r j) ∨ getPrecision G s j = .none →
        getPrecision G s' j = getPrecision G s j) ∧
      ∀ k, (∀ r ∈ roots, ∀ j, Reach G r j → getPrecision G s j ≠ .table k) →
        s'.store k = s.store k := by
  obtain ⟨cs, s', h, hA, hS⟩ := onGroup_ok G fuel roots hf s
  refine ⟨cs, s', h, ?_, ?_, ?_, ?_⟩
  · intro r hr j hj hk f hp
    refine ⟨legalize f, ?_, legalize_translated f⟩
    simp only [getPrecision, hk] at hp ⊢
    rw [hA j, if_pos ⟨r, hr, hj⟩]
    simp [turned, hk, hp]
  · intro r hr j hj k hp
    refine ⟨?_, fun hn => ?_⟩
    · refine (uses_iff G s' j k).1 ((turned_uses G s.attr s'.attr j k ?_).2 ((uses_iff G s j k).2 hp))
      rw [hA j]; split <;> simp
    · rw [hS k, if_pos ⟨r, hr, j, hj, (uses_iff G s j k).2 hp⟩]
      exact legalize_translated _ hn
  · intro j hj
    cases hk : G.kind j with
    | op =>
      rcases hj with hj | hj
      · simp only [getPrecision, hk]
        rw [hA j, if_neg (by rintro ⟨r, hr, h⟩; exact hj r hr h)]
      · simp only [getPrecision, hk] at hj ⊢
        rw [hA j]; split
        · simp [turned, hk, hj]
        · rfl
    | _ => simp only [getPrecision, hk]
  · intro k hk
    rw [hS k, if_neg]
    rintro ⟨r, hr, j, hj, hu⟩
    exact hk r hr j hj ((uses_iff G s j k).1 hu)

/-- **C133**: running the pass again changes no format. -/
theorem C133_again (G : Graph) (fuel : ℕ) (roots : List ℕ) (hf : ∀ r ∈ roots, r < fuel)
    (s : St) (cs : List Scheme) (s1 : St) (h : onGroup G fuel roots s = some (cs, s1)) :
    ∃ cs' s2, onGroup G fuel roots s1 = some (cs', s2) ∧
      (∀ j, getPrecision G s2 j = getPrecision G s1 j) ∧ s2.store = s1.store := by
  obtain ⟨_, s1', h1, a1, t1⟩ := onGroup_ok G fuel roots hf s
  rw [h] at h1; cases h1
  obtain ⟨cs', s2, h2, a2, t2⟩ := onGroup_ok G fuel roots hf s1
  refine ⟨cs', s2, h2, ?_, ?_⟩
  · intro j
    have : s2.attr j = s1.attr j := by
      rw [a2 j, a1 j]; split <;> simp [turned_idem]
    unfold getPrecision; rw [this]
  · funext k
    have hU : ∀ j, Uses G s1.attr j k ↔ Uses G s.attr j k := fun j =>
      turned_uses G s.attr s1.attr j k (by rw [a1 j]; split <;> simp)
    by_cases hu : ∃ r ∈ roots, ∃ j, Reach G r j ∧ Uses G s.attr j k
    · obtain ⟨r, hr, j, hj, hu'⟩ := id hu
      rw [t2 k, if_pos ⟨r, hr, j, hj, (hU j).2 hu'⟩, t1 k, if_pos hu, legalize_idem]
    · rw [t2 k, if_neg]
      rintro ⟨r, hr, j, hj, hu'⟩
      exact hu ⟨r, hr, j, hj, (hU j).1 hu'⟩

/-- The function keeps its scheme exactly when the format of its root is not one the
pass translates, for instance when the root is a statement, which has no format.
What is missing: C133_scheme_wrong. -/
theorem C133_scheme_partial (G : Graph) (fuel r : ℕ) (hr : r < fuel) (s : St) :
    ∃ c s', onFunction G fuel r s = some (c, s') ∧
      (c = .node r ↔ ∀ f, getPrecision G s r = .fmt f → f.Hardware → f.Numeric) := by
  obtain ⟨c, s', h, _, _, s1, hs1, hc⟩ := onFunction_ok G fuel r hr s
  refine ⟨c, s', h, ?_⟩
  have hp : getPrecision G s1 r = getPrecision G s r := by unfold getPrecision; rw [hs1]
  rw [hc]; unfold onNode; rw [hp]
  cases hq : getPrecision G s r with
  | none => simp
  | table k => simp
  | fmt f =>
    cases f with
    | numeric n sg => exact ⟨fun _ f hf _ => ⟨n, sg, by cases hf; rfl⟩, fun _ => rfl⟩
    | _ => simp [Fmt.Hardware, Fmt.Numeric]

/-- Otherwise the scheme of the function becomes a format, and the function has no
code left. -/
theorem C133_scheme_wrong (G : Graph) (fuel r : ℕ) (hr : r < fuel) (s : St) (f : Fmt)
    (hf : getPrecision G s r = .fmt f) (hh : f.Hardware) (hn : ¬ f.Numeric) :
    ∃ g s', onFunction G fuel r s = some (.format g, s') := by
  obtain ⟨c, s', h, _, _, s1, hs1, hc⟩ := onFunction_ok G fuel r hr s
  have hp : getPrecision G s1 r = getPrecision G s r := by unfold getPrecision; rw [hs1]
  rw [hf] at hp
  refine ⟨legalize f, s', ?_⟩
  rw [h, hc]; unfold onNode; rw [hp]
  cases f <;> simp_all [Fmt.Hardware, Fmt.Numeric]

/-- Calls, tables of the first kind, and operations on signed or unsigned hardware
integers keep their hardware format. -/
theorem C133_kept_wrong (G : Graph) (fuel : ℕ) (roots : List ℕ) (hf : ∀ r ∈ roots, r < fuel)
    (s : St) (j : ℕ) (f : Fmt) (hp : getPrecision G s j = .fmt f)
    (hk : G.kind j = .call f ∨ G.kind j = .table f ∨ f.Numeric) :
    ∃ cs s', onGroup G fuel roots s = some (cs, s') ∧ getPrecision G s' j = .fmt f := by
  obtain ⟨cs, s', h, hA, _⟩ := onGroup_ok G fuel roots hf s
  refine ⟨cs, s', h, ?_⟩
  rcases hk with hk | hk | ⟨n, sg, hk⟩
  · simp [getPrecision, hk]
  · simp [getPrecision, hk]
  · subst hk
    unfold getPrecision at hp ⊢
    cases hj : G.kind j with
    | op =>
      simp only [hj] at hp ⊢
      rw [hA j]; split
      · simp [turned, hj, hp, legalize]
      · exact hp
    | _ => simpa [hj] using hp

/-- A table which the pass has translated gives, once copied, a table of the hardware
format it was built with. -/
theorem C133_copy_wrong (G : Graph) (fuel : ℕ) (roots : List ℕ) (hf : ∀ r ∈ roots, r < fuel)
    (s : St) (r j k : ℕ) (built : Fmt) (hr : r ∈ roots) (hj : Reach G r j)
    (hk : G.kind j = .newTable k built) (hb : s.store k = built) (hh : built.Hardware)
    (hn : ¬ built.Numeric) :
    ∃ cs s' g, onGroup G fuel roots s = some (cs, s') ∧ storage G s' j = some g ∧
      ¬ g.Hardware ∧ copyStorage G j = some built := by
  obtain ⟨cs, s', h, _, hS⟩ := onGroup_ok G fuel roots hf s
  refine ⟨cs, s', legalize built, h, ?_, ?_, by simp [copyStorage, hk]⟩
  · simp only [storage, hk]
    rw [hS k, if_pos ⟨r, hr, j, hj, Or.inl ⟨built, hk⟩⟩, hb]
  · obtain ⟨i, fr, sg, h⟩ := (C133_format built hh hn).software
    rw [h]; simp [Fmt.Hardware]

/-- A statement (3) on an addition (2) of a load (1) from a table (0), the table shared by
two nodes, and a call (4) with hardware result. -/
def sample : Graph where
  kind n := match n with
    | 0 => .newTable 7 (.hwFixed 2 6 true)
    | 4 => .call .bit
    | _ => .op
  leaf n := n = 0
  inputs n := match n with
    | 1 => [0]
    | 2 => [1, 0]
    | 3 => [2]
    | _ => []
  before := by
    intro n a h
    match n with
    | 0 => cases h
    | 1 => simp at h; omega
    | 2 => simp at h; omega
    | 3 => simp at h; omega
    | n + 4 => cases h

def sampleSt : St where
  attr n := match n with
    | 1 => .fmt (.hwFixed 2 6 true)
    | 2 => .fmt (.bits 9)
    | _ => .none
  store _ := .hwFixed 2 6 true
  memo _ := none

example : (onGroup sample 4 [3, 2] sampleSt).map (fun p => (p.1, p.2.attr 1, p.2.attr 2,
    p.2.store 7, p.2.store 8)) = some ([.node 3, .node 2], .fmt (.swFixed 2 6 true),
      .fmt (.swFixed 9 0 false), .swFixed 2 6 true, .hwFixed 2 6 true) := by decide
example : (onFunction sample 4 2 sampleSt).map (·.1) = some (.format (.swFixed 9 0 false)) := by
  decide
example : getPrecision sample sampleSt 2 = .fmt (.bits 9) ∧ (Fmt.bits 9).Hardware ∧
    ¬ (Fmt.bits 9).Numeric := ⟨rfl, trivial, by rintro ⟨n, s, h⟩; cases h⟩
example : sample.kind 4 = .call .bit ∧ getPrecision sample sampleSt 4 = .fmt .bit := ⟨rfl, rfl⟩
example : Reach sample 3 0 ∧ sample.kind 0 = .newTable 7 (.hwFixed 2 6 true) ∧
    sampleSt.store 7 = .hwFixed 2 6 true := by
  refine ⟨.step (n := 2) (.step .root rfl (by simp [sample])) rfl (by simp [sample]), rfl, rfl⟩

end Verif.RtlSw
