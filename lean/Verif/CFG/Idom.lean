import Verif.CFG.Dom
import Mathlib.Data.Finset.Max

/-!
# C62, C63: immediate dominators, dominance frontiers, phi-node placement
-/

namespace Verif.CFG

variable {E : List (ℕ × ℕ)} {r : ℕ}

theorem IsPath.head {b : ℕ} {p : List ℕ} (h : IsPath E r b p) : ∃ q, p = b :: q := by
  cases h with
  | nil => exact ⟨[], rfl⟩
  | snoc _ _ => exact ⟨_, rfl⟩

/-- Cutting a path. -/
theorem IsPath.split {b : ℕ} {p : List ℕ} (h : IsPath E r b p) :
    ∀ pre d post, p = pre ++ d :: post →
      IsPath E r d (d :: post) ∧ ∀ q, IsPath E r d q → IsPath E r b (pre ++ q) := by
  induction h with
  | nil =>
    intro pre d post hp
    cases pre with
    | nil =>
      simp at hp
      obtain ⟨rfl, rfl⟩ := hp
      exact ⟨.nil, fun q hq => hq⟩
    | cons a pre => simp at hp
  | @snoc a c q hq hac ih =>
    intro pre d post hp
    cases pre with
    | nil =>
      simp at hp
      obtain ⟨rfl, rfl⟩ := hp
      exact ⟨.snoc hq hac, fun q' hq' => hq'⟩
    | cons x pre =>
      simp at hp
      obtain ⟨rfl, rfl⟩ := hp
      obtain ⟨h1, h2⟩ := ih pre d post rfl
      exact ⟨h1, fun q' hq' => .snoc (h2 q' hq') hac⟩

theorem Dominates.refl (b : ℕ) : Dominates E r b b := by
  intro p hp
  obtain ⟨q, rfl⟩ := hp.head
  simp

theorem Dominates.trans {d e b : ℕ} (h : Dominates E r d e) (h' : Dominates E r e b) :
    Dominates E r d b := by
  intro p hp
  obtain ⟨pre, post, rfl⟩ := List.append_of_mem (h' p hp)
  have := h _ (hp.split pre e post rfl).1
  exact List.mem_append_right _ this

theorem antisymm_aux {d e : ℕ} (h : Dominates E r d e) (h' : Dominates E r e d) :
    ∀ (n : ℕ) (p : List ℕ), p.length ≤ n → IsPath E r e p → d = e := by
  intro n
  induction n with
  | zero =>
    intro p hn hp
    obtain ⟨q, rfl⟩ := hp.head
    simp at hn
  | succ n ih =>
    intro p hn hp
    obtain ⟨pre, post, rfl⟩ := List.append_of_mem (h p hp)
    have hd := (hp.split pre d post rfl).1
    rcases List.mem_cons.1 (h' _ hd) with rfl | he
    · rfl
    · obtain ⟨pre2, post2, rfl⟩ := List.append_of_mem he
      refine ih (e :: post2) ?_ (hd.split (d :: pre2) e post2 rfl).1
      simp at hn ⊢
      omega

theorem Dominates.antisymm {d e : ℕ} (h : Dominates E r d e) (h' : Dominates E r e d)
    (hr : ∃ p, IsPath E r e p) : d = e := by
  obtain ⟨p, hp⟩ := hr
  exact antisymm_aux h h' _ p (Nat.le_refl _) hp

/-- The dominators of a reachable block form a chain. -/
theorem Dominates.chain {d e b : ℕ} (h : Dominates E r d b) (h' : Dominates E r e b)
    (hr : ∃ p, IsPath E r b p) : Dominates E r d e ∨ Dominates E r e d := by
  obtain ⟨p, hp⟩ := hr
  -- the first of the two met when walking back from `b`
  have key : ∀ p : List ℕ, d ∈ p → ∃ pre x post, p = pre ++ x :: post ∧ (x = d ∨ x = e) ∧
      d ∉ pre ∧ e ∉ pre := by
    intro p
    induction p with
    | nil => intro h; cases h
    | cons a p ih =>
      intro hd
      by_cases ha : a = d ∨ a = e
      · exact ⟨[], a, p, rfl, ha, by simp, by simp⟩
      · push Not at ha
        have : d ∈ p := by
          rcases List.mem_cons.1 hd with h | h
          · exact absurd h.symm ha.1
          · exact h
        obtain ⟨pre, x, post, rfl, h1, h2, h3⟩ := ih this
        exact ⟨a :: pre, x, post, rfl, h1, by simp [h2, Ne.symm ha.1], by simp [h3, Ne.symm ha.2]⟩
  obtain ⟨pre, x, post, rfl, hx, hd, he⟩ := key p (h p hp)
  obtain ⟨-, hq⟩ := hp.split pre x post rfl
  rcases hx with rfl | rfl
  · right
    intro q hq'
    rcases List.mem_append.1 (h' _ (hq q hq')) with hh | hh
    · exact absurd hh he
    · exact hh
  · left
    intro q hq'
    rcases List.mem_append.1 (h _ (hq q hq')) with hh | hh
    · exact absurd hh hd
    · exact hh

theorem Dominates.reach {d b : ℕ} (h : Dominates E r d b) (hr : ∃ p, IsPath E r b p) :
    ∃ p, IsPath E r d p := by
  obtain ⟨p, hp⟩ := hr
  obtain ⟨pre, post, rfl⟩ := List.append_of_mem (h p hp)
  exact ⟨_, (hp.split pre d post rfl).1⟩

theorem root_dominates (b : ℕ) : Dominates E r r b := by
  intro p hp
  induction hp with
  | nil => simp
  | snoc _ _ ih => exact List.mem_cons_of_mem _ ih

/-- What C27 establishes about a dominator map. -/
def IsDomMap (E : List (ℕ × ℕ)) (L : List ℕ) (r : ℕ) (m : ℕ → Finset ℕ) : Prop :=
  ∀ b ∈ L, ∀ d, d ∈ m b ↔ d ∈ L ∧ Dominates E r d b

theorem path_mem {L : List ℕ} (hrL : r ∈ L) (hE : ∀ a b, (a, b) ∈ E → a ∈ L ∧ b ∈ L) {b : ℕ}
    (h : ∃ p, IsPath E r b p) : b ∈ L := by
  obtain ⟨p, hp⟩ := h
  cases hp with
  | nil => exact hrL
  | snoc _ h => exact (hE _ _ h).2

/-- **C62.**  Given the dominators of the blocks of `L` (as computed, C27), and whatever the order in
which the set of dominators of a block is listed: for a reachable block other than the entry, an
immediate dominator is found, it strictly dominates the block, and every strict dominator of the
block dominates it; the entry gets none. -/
theorem C62_immediate_dominator (L : List ℕ) (m : ℕ → Finset ℕ) (hrL : r ∈ L)
    (hE : ∀ a b, (a, b) ∈ E → a ∈ L ∧ b ∈ L)
    (hm : IsDomMap E L r m) (b : ℕ) (hb : ∃ p, IsPath E r b p) (cands : List ℕ)
    (hc : ∀ d, d ∈ cands ↔ d ∈ m b) :
    (b ≠ r → ∃ d, idomOf m b cands = some d ∧ SDominates E r d b ∧
      ∀ d', SDominates E r d' b → Dominates E r d' d) ∧
    (b = r → idomOf m b cands = none) := by
  have hbL := path_mem hrL hE hb
  have hdL : ∀ d, Dominates E r d b → d ∈ L := fun d hd => path_mem hrL hE (hd.reach hb)
  have hmem : ∀ d, d ∈ m b ↔ Dominates E r d b := fun d =>
    ⟨fun h => ((hm b hbL d).1 h).2, fun h => (hm b hbL d).2 ⟨hdL d h, h⟩⟩
  constructor
  · intro hne
    have hnonempty : ((m b).erase b).Nonempty :=
      ⟨r, Finset.mem_erase.2 ⟨Ne.symm hne, (hmem r).2 (root_dominates b)⟩⟩
    obtain ⟨d, hd, hmax⟩ := Finset.exists_max_image _ (fun x => (m x).card) hnonempty
    rw [Finset.mem_erase, hmem] at hd
    have hdmem : ∀ x, x ∈ m d ↔ Dominates E r x d := fun x =>
      ⟨fun h => ((hm d (hdL d hd.2) x).1 h).2,
        fun h => (hm d (hdL d hd.2) x).2 ⟨hdL x (h.trans hd.2), h⟩⟩
    have hbest : ∀ o, SDominates E r o b → Dominates E r o d := by
      rintro o ⟨ho, hob⟩
      rcases ho.chain hd.2 hb with h | h
      · exact h
      · have hsub : m d ⊆ m o := by
          intro x hx
          exact (hm o (hdL o ho) x).2 ⟨hdL x (((hdmem x).1 hx).trans hd.2), ((hdmem x).1 hx).trans h⟩
        have hcard := hmax o (Finset.mem_erase.2 ⟨hob, (hmem o).2 ho⟩)
        have heq := Finset.eq_of_subset_of_card_le hsub hcard
        have : o ∈ m o := (hm o (hdL o ho) o).2 ⟨hdL o ho, .refl o⟩
        rw [← heq, hdmem] at this
        exact this
    have hgood : ∀ x, x ≠ b → x ∈ m b → ((∀ o ∈ m b, o ≠ x → o ≠ b → x ∉ m o) ↔ x = d) := by
      intro x hxb hx
      constructor
      · intro h
        by_contra hxd
        refine h d ((hmem d).2 hd.2) (Ne.symm hxd) hd.1 ?_
        exact (hdmem x).2 (hbest x ⟨(hmem x).1 hx, hxb⟩)
      · rintro rfl o ho hox hob hxo
        have h1 := hbest o ⟨(hmem o).1 ho, hob⟩
        have hoD := (hmem o).1 ho
        have h2 := ((hm o (hdL o hoD) x).1 hxo).2
        exact hox (h1.antisymm h2 (hd.2.reach hb))
    have hfind : idomOf m b cands = some d := by
      unfold idomOf
      cases hf : cands.find? fun d => decide (d ≠ b ∧ ∀ o ∈ m b, o ≠ d → o ≠ b → d ∉ m o) with
      | none =>
        rw [List.find?_eq_none] at hf
        have := hf d ((hc d).2 ((hmem d).2 hd.2))
        rw [decide_eq_true_eq] at this
        exact absurd ⟨hd.1, (hgood d hd.1 ((hmem d).2 hd.2)).2 rfl⟩ this
      | some x =>
        have hp := List.find?_some hf
        have hx := List.mem_of_find?_eq_some hf
        rw [decide_eq_true_eq] at hp
        rw [(hgood x hp.1 ((hc x).1 hx)).1 hp.2]
    exact ⟨d, hfind, ⟨hd.2, hd.1⟩, hbest⟩
  · rintro rfl
    unfold idomOf
    rw [List.find?_eq_none]
    intro x hx
    have : x = b := by
      have := ((hmem x).1 ((hc x).1 hx)) [b] .nil
      simpa using this
    simp [this]

/-! ### Dominance frontiers -/

theorem sdom_trans {x z y : ℕ} (h : Dominates E r z x) (h' : SDominates E r x y)
    (hx : ∃ p, IsPath E r x p) : SDominates E r z y := by
  refine ⟨h.trans h'.1, ?_⟩
  rintro rfl
  exact h'.2 (h'.1.antisymm h (h.reach hx))

theorem front_walk (L : List ℕ) (m : ℕ → Finset ℕ) (hrL : r ∈ L)
    (hE : ∀ a b, (a, b) ∈ E → a ∈ L ∧ b ∈ L)
    (hm : IsDomMap E L r m) (idom : ℕ → Option ℕ)
    (hid : ∀ b, (∃ p, IsPath E r b p) → b ≠ r → ∃ d, idom b = some d ∧ SDominates E r d b ∧
      ∀ d', SDominates E r d' b → Dominates E r d' d)
    (dst : ℕ) (hdst : ∃ p, IsPath E r dst p) (hdr : dst ≠ r) :
    ∀ (k x : ℕ) (df : ℕ → Finset ℕ), (m x).card ≤ k → (∃ p, IsPath E r x p) →
      ∃ df', (∀ n, k < n → frontWalk m idom dst n x df = some df') ∧
        ∀ z y, y ∈ df' z ↔ y ∈ df z ∨ y = dst ∧ Dominates E r z x ∧ ¬ SDominates E r z dst := by
  have hdL := path_mem hrL hE hdst
  have hns : ∀ x, (∃ p, IsPath E r x p) → (notSDom m x dst = true ↔ ¬ SDominates E r x dst) := by
    intro x hx
    have hxL := path_mem hrL hE hx
    unfold notSDom SDominates
    by_cases h : x = dst
    · simp [h]
    · rw [if_neg h]
      have := hm dst hdL x
      by_cases hxm : x ∈ m dst
      · rw [if_pos hxm]
        have := (this.1 hxm).2
        simp [this, h]
      · rw [if_neg hxm]
        have : ¬ Dominates E r x dst := fun hh => hxm (this.2 ⟨hxL, hh⟩)
        simp [this]
  intro k
  induction k with
  | zero =>
    intro x df hk hx
    have hxL := path_mem hrL hE hx
    have : x ∈ m x := (hm x hxL x).2 ⟨hxL, .refl x⟩
    rw [Finset.card_eq_zero.1 (Nat.le_zero.1 hk)] at this
    cases this
  | succ k ih =>
    intro x df hk hx
    have hxL := path_mem hrL hE hx
    by_cases hsd : SDominates E r x dst
    · refine ⟨df, ?_, ?_⟩
      · intro n hn
        obtain ⟨n, rfl⟩ : ∃ j, n = j + 1 := ⟨n - 1, by omega⟩
        rw [frontWalk, if_neg]
        rw [hns x hx]
        exact fun h => h hsd
      · intro z y
        constructor
        · exact Or.inl
        · rintro (h | ⟨_, hz, hnz⟩)
          · exact h
          · exact absurd (sdom_trans hz hsd hx) hnz
    · have hxr : x ≠ r := by
        rintro rfl
        exact hsd ⟨root_dominates _, Ne.symm hdr⟩
      obtain ⟨d, hd1, hd2, hd3⟩ := hid x hx hxr
      have hdp : ∃ p, IsPath E r d p := hd2.1.reach hx
      have hdL' := path_mem hrL hE hdp
      have hcard : (m d).card ≤ k := by
        have : m d ⊂ m x := by
          rw [Finset.ssubset_iff_of_subset]
          · refine ⟨x, (hm x hxL x).2 ⟨hxL, .refl x⟩, ?_⟩
            intro hh
            exact hd2.2 (hd2.1.antisymm ((hm d hdL' x).1 hh).2 hx)
          · intro z hz
            obtain ⟨h1, h2⟩ := (hm d hdL' z).1 hz
            exact (hm x hxL z).2 ⟨h1, h2.trans hd2.1⟩
        have := Finset.card_lt_card this
        omega
      obtain ⟨df', h1, h2⟩ := ih d (Function.update df x (insert dst (df x))) hcard hdp
      refine ⟨df', ?_, ?_⟩
      · intro n hn
        obtain ⟨n, rfl⟩ : ∃ j, n = j + 1 := ⟨n - 1, by omega⟩
        rw [frontWalk, if_pos ((hns x hx).2 hsd), hd1]
        exact h1 n (by omega)
      · intro z y
        rw [h2]
        by_cases hzx : z = x
        · subst hzx
          rw [Function.update_self, Finset.mem_insert]
          constructor
          · rintro ((h | h) | ⟨h, -, hn⟩)
            · exact Or.inr ⟨h, .refl z, hsd⟩
            · exact Or.inl h
            · exact Or.inr ⟨h, .refl z, hn⟩
          · rintro (h | ⟨h, -, -⟩)
            · exact Or.inl (Or.inr h)
            · exact Or.inl (Or.inl h)
        · rw [Function.update_of_ne hzx]
          constructor
          · rintro (h | ⟨h, hz, hn⟩)
            · exact Or.inl h
            · exact Or.inr ⟨h, hz.trans hd2.1, hn⟩
          · rintro (h | ⟨h, hz, hn⟩)
            · exact Or.inl h
            · exact Or.inr ⟨h, hd3 z ⟨hz, hzx⟩, hn⟩

/-- **C63.**  On a graph where every block of `L` is reachable (as C26 leaves it) and the entry has no
incoming edge, with the dominator map of C27 and the immediate dominators of C62, the
dominance-frontier computation terminates without error and lists `y` in the frontier of `x` exactly
when `x` dominates a predecessor of `y` without strictly dominating `y`. -/
theorem C63_frontiers (L : List ℕ) (m : ℕ → Finset ℕ) (hrL : r ∈ L)
    (hE : ∀ a b, (a, b) ∈ E → a ∈ L ∧ b ∈ L) (hr : ∀ a, (a, r) ∉ E)
    (hreach : ∀ b ∈ L, ∃ p, IsPath E r b p)
    (hm : IsDomMap E L r m) (order : ℕ → List ℕ) (horder : ∀ b d, d ∈ order b ↔ d ∈ m b) :
    ∃ n df, frontiers m (fun b => idomOf m b (order b)) n E (fun _ => ∅) = some df ∧
      ∀ x y, y ∈ df x ↔ Frontier E r x y := by
  have hid : ∀ b, (∃ p, IsPath E r b p) → b ≠ r → ∃ d, idomOf m b (order b) = some d ∧
      SDominates E r d b ∧ ∀ d', SDominates E r d' b → Dominates E r d' d :=
    fun b hb hne => (C62_immediate_dominator L m hrL hE hm b hb (order b) (horder b)).1 hne
  have hcard : ∀ b ∈ L, (m b).card ≤ L.toFinset.card := by
    intro b hb
    refine Finset.card_le_card ?_
    intro x hx
    simpa using ((hm b hb x).1 hx).1
  have key : ∀ (E' : List (ℕ × ℕ)) (df : ℕ → Finset ℕ), (∀ e ∈ E', e ∈ E) →
      ∃ df', frontiers m (fun b => idomOf m b (order b)) (L.toFinset.card + 1) E' df = some df' ∧
        ∀ x y, y ∈ df' x ↔ y ∈ df x ∨
          ∃ p, (p, y) ∈ E' ∧ Dominates E r x p ∧ ¬ SDominates E r x y := by
    intro E'
    induction E' with
    | nil => intro df _; exact ⟨df, rfl, by simp⟩
    | cons e E' ih =>
      intro df hsub
      obtain ⟨s, d⟩ := e
      have hsd := hsub (s, d) (by simp)
      have hs := (hE s d hsd).1
      have hd := (hE s d hsd).2
      have hdr : d ≠ r := by rintro rfl; exact hr s hsd
      obtain ⟨df1, h1, h2⟩ := front_walk L m hrL hE hm _ hid d (hreach d hd) hdr L.toFinset.card s df
        (hcard s hs) (hreach s hs)
      obtain ⟨df', h3, h4⟩ := ih df1 (fun e he => hsub e (by simp [he]))
      refine ⟨df', ?_, ?_⟩
      · rw [frontiers, h1 _ (Nat.lt_succ_self _)]
        exact h3
      · intro x y
        rw [h4, h2]
        constructor
        · rintro ((h | ⟨rfl, h, h'⟩) | ⟨p, hp, h⟩)
          · exact Or.inl h
          · exact Or.inr ⟨s, by simp, h, h'⟩
          · exact Or.inr ⟨p, by simp [hp], h⟩
        · rintro (h | ⟨p, hp, h, h'⟩)
          · exact Or.inl (Or.inl h)
          · rcases List.mem_cons.1 hp with hh | hh
            · cases hh
              exact Or.inl (Or.inr ⟨rfl, h, h'⟩)
            · exact Or.inr ⟨p, hh, h, h'⟩
  obtain ⟨df, h1, h2⟩ := key E (fun _ => ∅) (fun e he => he)
  exact ⟨_, df, h1, fun x y => by rw [h2]; simp [Frontier]⟩

/-- The loop graph of `Dom.lean`: the frontier of 2 and 3 is the join 4, that of 1 and 4 is the loop
head 1. -/
example : ((dominatorMap 5 loopE (List.range 6) 0).bind fun m =>
    (frontiers m (fun b => idomOf m b (List.range 6 |>.filter (· ∈ m b))) 7 loopE (fun _ => ∅)).map
      fun df => (List.range 6).map df) = some [∅, {1}, {4}, {4}, {1}, ∅] := by decide +kernel

/-! ### Phi-node placement -/

theorem phiFor_spec (df : ℕ → Finset ℕ) (defs : Finset ℕ) (x : ℕ) :
    ∀ (ys : List ℕ) (st : PhiSt), (∀ y ∈ ys, y ∈ df x) →
      (∀ y, y ∈ (phiFor defs ys st).F ↔ y ∈ st.F ∨ y ∈ ys) ∧
      (∀ y, y ∈ (phiFor defs ys st).W ↔ y ∈ st.W ∨ (y ∈ ys ∧ y ∉ st.F ∧ y ∉ defs)) ∧
      (st.phis.Nodup → (∀ y, y ∈ st.phis ↔ y ∈ st.F) →
        (phiFor defs ys st).phis.Nodup ∧ ∀ y, y ∈ (phiFor defs ys st).phis ↔ y ∈ (phiFor defs ys st).F)
  | [], st, _ => ⟨by simp [phiFor], by simp [phiFor], fun h h' => ⟨h, h'⟩⟩
  | y :: ys, st, h => by
    obtain ⟨h1, h2, h3⟩ := phiFor_spec df defs x ys (if y ∈ st.F then st else
      { W := if y ∈ defs then st.W else insert y st.W, F := insert y st.F, phis := st.phis ++ [y] })
      (fun z hz => h z (by simp [hz]))
    rw [phiFor]
    by_cases hy : y ∈ st.F
    · simp only [if_pos hy] at h1 h2 h3 ⊢
      refine ⟨?_, ?_, h3⟩
      · intro z
        rw [h1, List.mem_cons]
        constructor
        · rintro (h | h)
          · exact Or.inl h
          · exact Or.inr (Or.inr h)
        · rintro (h | rfl | h)
          · exact Or.inl h
          · exact Or.inl hy
          · exact Or.inr h
      · intro z
        rw [h2, List.mem_cons]
        constructor
        · rintro (h | ⟨h, h'⟩)
          · exact Or.inl h
          · exact Or.inr ⟨Or.inr h, h'⟩
        · rintro (h | ⟨rfl | h, h', h''⟩)
          · exact Or.inl h
          · exact absurd hy h'
          · exact Or.inr ⟨h, h', h''⟩
    · simp only [if_neg hy] at h1 h2 h3 ⊢
      refine ⟨?_, ?_, ?_⟩
      · intro z
        rw [h1, Finset.mem_insert, List.mem_cons]
        tauto
      · intro z
        rw [h2, Finset.mem_insert, List.mem_cons]
        by_cases hyd : y ∈ defs
        · rw [if_pos hyd]
          constructor
          · rintro (h | ⟨h, h', h''⟩)
            · exact Or.inl h
            · exact Or.inr ⟨Or.inr h, fun hh => h' (Or.inr hh), h''⟩
          · rintro (h | ⟨rfl | h, h', h''⟩)
            · exact Or.inl h
            · exact absurd hyd h''
            · refine Or.inr ⟨h, ?_, h''⟩
              rintro (rfl | hh)
              · exact h'' hyd
              · exact h' hh
        · rw [if_neg hyd, Finset.mem_insert]
          constructor
          · rintro ((rfl | h) | ⟨h, h', h''⟩)
            · exact Or.inr ⟨Or.inl rfl, hy, hyd⟩
            · exact Or.inl h
            · exact Or.inr ⟨Or.inr h, fun hh => h' (Or.inr hh), h''⟩
          · rintro (h | ⟨rfl | h, h', h''⟩)
            · exact Or.inl (Or.inr h)
            · exact Or.inl (Or.inl rfl)
            · by_cases hzy : z = y
              · exact Or.inl (Or.inl hzy)
              · exact Or.inr ⟨h, fun hh => hh.elim hzy h', h''⟩
      · intro hn hp
        refine h3 ?_ ?_
        · rw [List.nodup_append]
          refine ⟨hn, by simp, ?_⟩
          intro a ha b hb
          simp at hb
          subst hb
          rintro rfl
          exact hy ((hp a).1 ha)
        · intro z
          rw [List.mem_append, Finset.mem_insert, hp]
          simp
          tauto

structure PhiInv (df : ℕ → Finset ℕ) (defs : Finset ℕ) (st : PhiSt) : Prop where
  idf : ∀ y ∈ st.F, Iterated (fun x y => y ∈ df x) (· ∈ defs) y
  work : ∀ x ∈ st.W, x ∈ defs ∨ x ∈ st.F
  closed : ∀ x, (x ∈ defs ∨ x ∈ st.F) → x ∈ st.W ∨ ∀ y ∈ df x, y ∈ st.F
  nodup : st.phis.Nodup
  phis : ∀ y, y ∈ st.phis ↔ y ∈ st.F

theorem PhiInv.step {df : ℕ → Finset ℕ} {defs : Finset ℕ} {st st' : PhiSt} (I : PhiInv df defs st)
    (h : PhiStep df defs st st') : PhiInv df defs st' := by
  obtain ⟨x, ys, hx, hys, hnd⟩ := h
  obtain ⟨h1, h2, h3⟩ := phiFor_spec df defs x ys { st with W := st.W.erase x }
    (fun y hy => (hys y).1 hy)
  obtain ⟨h4, h5⟩ := h3 I.nodup I.phis
  dsimp only at h1 h2
  refine ⟨?_, ?_, ?_, h4, h5⟩
  · intro y hy
    rcases (h1 y).1 hy with h | h
    · exact I.idf y h
    · have hyd := (hys y).1 h
      rcases I.work x hx with hh | hh
      · exact .base hh hyd
      · exact .step (I.idf x hh) hyd
  · intro y hy
    rcases (h2 y).1 hy with h | ⟨h, -, -⟩
    · rcases I.work y (Finset.mem_of_mem_erase h) with hh | hh
      · exact Or.inl hh
      · exact Or.inr ((h1 y).2 (Or.inl hh))
    · exact Or.inr ((h1 y).2 (Or.inr h))
  · intro z hz
    have hold : (z ∈ defs ∨ z ∈ st.F) → z ∈ (phiFor defs ys { st with W := st.W.erase x }).W ∨
        ∀ y ∈ df z, y ∈ (phiFor defs ys { st with W := st.W.erase x }).F := by
      intro hz
      by_cases hzx : z = x
      · subst hzx
        right
        intro y hy
        exact (h1 y).2 (Or.inr ((hys y).2 hy))
      · rcases I.closed z hz with h | h
        · left; exact (h2 z).2 (Or.inl (Finset.mem_erase.2 ⟨hzx, h⟩))
        · right; intro y hy; exact (h1 y).2 (Or.inl (h y hy))
    rcases hz with hz | hz
    · exact hold (Or.inl hz)
    · rcases (h1 z).1 hz with h | h
      · exact hold (Or.inr h)
      · by_cases hzF : z ∈ st.F
        · exact hold (Or.inr hzF)
        · by_cases hzd : z ∈ defs
          · exact hold (Or.inl hzd)
          · left; exact (h2 z).2 (Or.inr ⟨h, hzF, hzd⟩)

/-- **C63, phi-nodes.**  In whatever order the work set is emptied, once it is empty each block of the
iterated dominance frontier of the definitions has got exactly one phi-node, and no other block
has. -/
theorem C63_phi_placement (df : ℕ → Finset ℕ) (defs : Finset ℕ) (st : PhiSt)
    (h : Relation.ReflTransGen (PhiStep df defs) ⟨defs, ∅, []⟩ st) (hW : st.W = ∅) :
    st.phis.Nodup ∧ ∀ y, y ∈ st.phis ↔ Iterated (fun x y => y ∈ df x) (· ∈ defs) y := by
  have I : PhiInv df defs st := by
    clear hW
    induction h with
    | refl => exact ⟨by simp, fun x hx => Or.inl hx, fun x hx => by
        left; simpa using hx, by simp, by simp⟩
    | tail _ hs ih => exact ih.step hs
  refine ⟨I.nodup, fun y => ?_⟩
  rw [I.phis]
  refine ⟨I.idf y, ?_⟩
  intro hy
  have hcl : ∀ x, (x ∈ defs ∨ x ∈ st.F) → ∀ y ∈ df x, y ∈ st.F := by
    intro x hx
    rcases I.closed x hx with h | h
    · rw [hW] at h; cases h
    · exact h
  induction hy with
  | base hd hR => exact hcl _ (Or.inl hd) _ hR
  | step _ hR ih => exact hcl _ (Or.inr ih) _ hR

/-- The work set does get empty: no infinite sequence of turns exists when all frontiers stay in
a finite set `U` of blocks. -/
theorem C63_phi_terminates (df : ℕ → Finset ℕ) (defs U : Finset ℕ) (hdf : ∀ x, df x ⊆ U) :
    WellFounded fun st' st : {st : PhiSt // st.F ⊆ U} => PhiStep df defs st.1 st'.1 := by
  let meas : {st : PhiSt // st.F ⊆ U} → ℕ := fun st => st.1.W.card + 2 * (U.card - st.1.F.card)
  refine Subrelation.wf (r := InvImage (· < ·) meas) ?_ (InvImage.wf meas Nat.lt_wfRel.wf)
  rintro ⟨st', hs'⟩ ⟨st, hs⟩ h
  dsimp only at h
  obtain ⟨x, ys, hx, hys, hnd⟩ := h
  -- each new block adds at most one element to `W` and one to `F`
  have key : ∀ (ys : List ℕ) (st : PhiSt), (∀ y ∈ ys, y ∈ U) → st.F ⊆ U →
      (phiFor defs ys st).W.card + 2 * (U.card - (phiFor defs ys st).F.card) ≤
        st.W.card + 2 * (U.card - st.F.card) := by
    intro ys
    induction ys with
    | nil => intro st _ _; exact Nat.le_refl _
    | cons y ys ih =>
      intro st hy hF
      rw [phiFor]
      by_cases hyF : y ∈ st.F
      · rw [if_pos hyF]
        exact ih st (fun z hz => hy z (by simp [hz])) hF
      · rw [if_neg hyF]
        have hF' : insert y st.F ⊆ U := by
          intro z hz
          rcases Finset.mem_insert.1 hz with rfl | hz
          · exact hy z (by simp)
          · exact hF hz
        refine Nat.le_trans (ih _ (fun z hz => hy z (by simp [hz])) hF') ?_
        dsimp only
        have h1 : (insert y st.F).card = st.F.card + 1 := Finset.card_insert_of_notMem hyF
        have h2 : (insert y st.F).card ≤ U.card := Finset.card_le_card hF'
        have h3 : (if y ∈ defs then st.W else insert y st.W).card ≤ st.W.card + 1 := by
          split
          · omega
          · exact Finset.card_insert_le _ _
        omega
  have := key ys { st with W := st.W.erase x } (fun y hy => hdf x ((hys y).1 hy)) hs
  dsimp only at this
  have hc : (st.W.erase x).card + 1 = st.W.card := Finset.card_erase_add_one hx
  show meas _ < meas _
  dsimp only [meas]
  omega

/-- A phi-node has room for two incoming definitions only (p_gen_bb.py:543-544): the inserted node
has operands for exactly two predecessors. -/
example : ∃ st, PhiStep (fun x => if x = 2 ∨ x = 3 then {4} else ∅) {2, 3} ⟨{2, 3}, ∅, []⟩ st ∧
    st.phis = [4] :=
  ⟨_, .mk ⟨{2, 3}, ∅, []⟩ 2 [4] (by decide) (by simp) (by simp), rfl⟩

end Verif.CFG
