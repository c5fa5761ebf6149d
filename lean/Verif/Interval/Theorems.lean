import Verif.Interval.Lemmas
import Mathlib.Tactic.NormNum
import Mathlib.Tactic.Ring

/-!
# Property theorems on intervals: C08, C09
-/

namespace Verif.Interval

variable {K : Type*} [Field K] [LinearOrder K]

/-- Points of an operator result. -/
def Obj.Has : Obj K → K → Prop
  | .one none, _ => False
  | .one (some a), x => a.Has x
  | .many l, x => Covers l x

/-- Points of a `MetaInterval` (none when empty). -/
def MIHas : MI K → K → Prop
  | none, _ => False
  | some a, x => a.Has x

/-! ## C09: refinement of interval lists -/

/-- C09: refining any non-empty list of intervals succeeds, covers exactly the same points, and returns valid, sorted,
pairwise disjoint intervals. -/
theorem C09_refine (l : List (Iv K)) (hne : l ≠ []) (hv : ∀ a ∈ l, a.Valid) :
    ∃ r, mkList (l.map some) = .ok r ∧ r ≠ [] ∧ (∀ x, Covers r x ↔ Covers l x) ∧ Separated r ∧ ∀ a ∈ r, a.Valid := by
  obtain ⟨r, h1, h2, h3, h4, h5⟩ := refine_spec l hne hv
  refine ⟨r, ?_, h2, h5, h3, h4⟩
  have : ∀ l : List (Iv K), (l.map some).mapM (MI.get (K := K)) = (.ok l : Except Err (List (Iv K))) := by
    intro l
    induction l with
    | nil => rfl
    | cons a t ih => rw [List.map_cons, List.mapM_cons, ih]; rfl
  unfold mkList
  rw [this]
  exact h1

example : mkList [some (⟨5, 7⟩ : Iv ℚ), some ⟨0, 2⟩, some ⟨1, 3⟩, some ⟨3, 4⟩] = .ok [⟨0, 4⟩, ⟨5, 7⟩] := by decide +kernel
example : ∀ a ∈ [(⟨5, 7⟩ : Iv ℚ), ⟨0, 2⟩, ⟨1, 3⟩, ⟨3, 4⟩], a.Valid := by simp [Iv.Valid]; norm_num

/-- C09: the reported lower and upper bounds of the refined list are the least and greatest covered points. -/
theorem C09_bounds (l : List (Iv K)) (hne : l ≠ []) (hv : ∀ a ∈ l, a.Valid) :
    ∃ r i s, mkList (l.map some) = .ok r ∧ listInf r = .ok i ∧ listSup r = .ok s ∧
      Covers l i ∧ Covers l s ∧ ∀ x, Covers l x → i ≤ x ∧ x ≤ s := by
  obtain ⟨r, h1, h2, h3, h4, h5⟩ := C09_refine l hne hv
  obtain ⟨a, t, rfl⟩ : ∃ a t, r = a :: t := by
    cases r with
    | nil => exact absurd rfl h2
    | cons a t => exact ⟨a, t, rfl⟩
  have hav := h5 a (by simp)
  have hz := List.getLast?_eq_getLast_of_ne_nil (l := a :: t) (by simp)
  set z := (a :: t).getLast (by simp) with hzd
  have hzm : z ∈ a :: t := List.getLast_mem _
  have hzv := h5 z hzm
  refine ⟨_, a.inf, z.sup, h1, rfl, by unfold listSup; rw [hz], (h3 _).1 ⟨a, by simp, le_refl _, hav⟩,
    (h3 _).1 ⟨z, hzm, hzv, le_refl _⟩, fun x hx => ?_⟩
  obtain ⟨b, hb, hx1, hx2⟩ := (h3 x).2 hx
  unfold Separated at h4
  constructor
  · rw [List.mem_cons] at hb
    rcases hb with rfl | hb
    · exact hx1
    · have := (List.pairwise_cons.1 h4).1 b hb
      exact le_trans hav (le_trans this.le hx1)
  · have hsplit := List.dropLast_append_getLast (l := a :: t) (by simp)
    rw [← hsplit, List.pairwise_append] at h4
    rw [← hsplit, List.mem_append, List.mem_singleton] at hb
    rcases hb with hb | rfl
    · have := h4.2.2 b hb z (by simp [hzd])
      exact le_trans hx2 (le_trans this.le hzv)
    · exact hx2

/-- C09: an interval list cannot be built from no interval, nor from a list holding an empty interval: both raise. -/
theorem C09_empty_raises (l : List (Iv K)) :
    mkList ([] : List (MI K)) = .error .indexError ∧ ∃ e, mkList (l.map some ++ [none]) = .error e := by
  refine ⟨rfl, .notImplemented, ?_⟩
  have : ∀ l : List (Iv K), (l.map some ++ [none]).mapM (MI.get (K := K)) = (.error .notImplemented : Except Err (List (Iv K))) := by
    intro l
    induction l with
    | nil => rfl
    | cons a t ih => rw [List.map_cons, List.cons_append, List.mapM_cons, ih]; rfl
  unfold mkList
  rw [this]; rfl

/-! ## C08: interval arithmetic -/

/-- C08, union: for non-empty operands the union succeeds and its points are exactly those of either operand. -/
theorem C08_union_partial (a b : Iv K) (ha : a.Valid) (hb : b.Valid) :
    ∃ r, union (some a) (some b) = .ok r ∧ ∀ x, r.Has x ↔ a.Has x ∨ b.Has x := by
  unfold union MI.get orCore
  by_cases h1 : a.sup < b.inf
  · obtain ⟨r, e1, _, _, _, e5⟩ := refine_spec [a, b] (by simp) (by simp [ha, hb])
    refine ⟨.many r, ?_, fun x => ?_⟩
    · simp only [h1, if_true, bind, Except.bind, e1]; rfl
    · show Covers r x ↔ _
      rw [e5, covers_cons, covers_cons, covers_nil, or_false]
  · by_cases h2 : b.sup < a.inf
    · obtain ⟨r, e1, _, _, _, e5⟩ := refine_spec [b, a] (by simp) (by simp [ha, hb])
      refine ⟨.many r, ?_, fun x => ?_⟩
      · simp only [h1, h2, if_true, if_false, bind, Except.bind, e1]; rfl
      · show Covers r x ↔ _
        rw [e5, covers_cons, covers_cons, covers_nil, or_false, or_comm]
    · refine ⟨.one (some ⟨min a.inf b.inf, max a.sup b.sup⟩), ?_, fun x => ?_⟩
      · simp only [h1, h2, if_false, bind, Except.bind]; rfl
      · show Iv.Has _ x ↔ _
        unfold Iv.Has
        rw [not_lt] at h1 h2
        simp only [min_le_iff, le_max_iff]
        constructor
        · rintro ⟨h | h, h' | h'⟩
          · exact Or.inl ⟨h, h'⟩
          · rcases le_total x a.sup with h3 | h3
            · exact Or.inl ⟨h, h3⟩
            · exact Or.inr ⟨le_trans h1 h3, h'⟩
          · rcases le_total x b.sup with h3 | h3
            · exact Or.inr ⟨h, h3⟩
            · exact Or.inl ⟨le_trans h2 h3, h'⟩
          · exact Or.inr ⟨h, h'⟩
        · rintro (⟨h, h'⟩ | ⟨h, h'⟩)
          · exact ⟨Or.inl h, Or.inl h'⟩
          · exact ⟨Or.inr h, Or.inr h'⟩

example : union (some (⟨0, 2⟩ : Iv ℚ)) (some ⟨3, 4⟩) = .ok (.many [⟨0, 2⟩, ⟨3, 4⟩]) := by decide +kernel
example : union (some (⟨0, 2⟩ : Iv ℚ)) (some ⟨1, 4⟩) = .ok (.one (some ⟨0, 4⟩)) := by decide +kernel

/-- C08 fails for the empty interval: union and intersection with it raise, on either side. -/
theorem C08_union_with_empty_raises (a : MI K) :
    (∃ e, union a none = .error e) ∧ (∃ e, union none a = .error e) ∧
    (∃ e, inter a none = .error e) ∧ (∃ e, inter none a = .error e) := by
  cases a <;> exact ⟨⟨_, rfl⟩, ⟨_, rfl⟩, ⟨_, rfl⟩, ⟨_, rfl⟩⟩

/-- C08, intersection: for non-empty operands the intersection succeeds, its points are exactly the common points, and the
result is the empty interval exactly when there is none. -/
theorem C08_inter_partial (a b : Iv K) (ha : a.Valid) (hb : b.Valid) :
    ∃ r, inter (some a) (some b) = .ok r ∧ (∀ x, MIHas r x ↔ a.Has x ∧ b.Has x) ∧ (r = none ↔ ¬ ∃ x, a.Has x ∧ b.Has x) := by
  unfold inter MI.get
  by_cases h : a.sup < b.inf ∨ b.sup < a.inf
  · have hno : ¬ ∃ x, a.Has x ∧ b.Has x := by
      rintro ⟨x, h1, h2⟩
      rcases h with h | h
      · exact absurd (lt_of_le_of_lt h1.2 h) (not_lt.2 h2.1)
      · exact absurd (lt_of_le_of_lt h2.2 h) (not_lt.2 h1.1)
    refine ⟨none, ?_, fun x => ⟨fun hx => hx.elim, fun hx => hno ⟨x, hx⟩⟩, ⟨fun _ => hno, fun _ => rfl⟩⟩
    simp only [h, if_true, bind, Except.bind]; rfl
  · refine ⟨some ⟨max a.inf b.inf, min a.sup b.sup⟩, ?_, fun x => ?_, ?_⟩
    · simp only [h, if_false, bind, Except.bind]; rfl
    · show Iv.Has _ x ↔ _
      unfold Iv.Has
      simp only [max_le_iff, le_min_iff]; tauto
    · refine ⟨fun h' => by simp at h', fun h' => (h' ?_).elim⟩
      push Not at h
      refine ⟨max a.inf b.inf, ⟨le_max_left _ _, ?_⟩, ⟨le_max_right _ _, ?_⟩⟩
      · exact max_le ha h.1
      · exact max_le h.2 hb

example : inter (some (⟨0, 2⟩ : Iv ℚ)) (some ⟨1, 4⟩) = .ok (some ⟨1, 2⟩) := by decide +kernel
example : inter (some (⟨0, 2⟩ : Iv ℚ)) (some ⟨3, 4⟩) = .ok none := by decide +kernel

variable [IsStrictOrderedRing K]

/-- C08, addition: contains the sum of any two points (and, for non-empty operands, only such sums). -/
theorem C08_add (a b : MI K) (ha : ∀ i, a = some i → i.Valid) (hb : ∀ i, b = some i → i.Valid) (z : K) :
    MIHas (add a b) z ↔ ∃ x y, MIHas a x ∧ MIHas b y ∧ x + y = z := by
  rcases a with _ | a
  · simp [add, lift2, MIHas]
  rcases b with _ | b
  · simp [add, lift2, MIHas]
  have ha := ha a rfl
  have hb := hb b rfl
  constructor
  · rintro ⟨h1, h2⟩
    change a.inf + b.inf ≤ z at h1
    change z ≤ a.sup + b.sup at h2
    rcases le_total z (a.inf + b.sup) with h | h
    · exact ⟨a.inf, z - a.inf, ⟨le_refl _, ha⟩, ⟨by linarith, by linarith⟩, by ring⟩
    · exact ⟨z - b.sup, b.sup, ⟨by linarith, by linarith⟩, ⟨hb, le_refl _⟩, by ring⟩
  · rintro ⟨x, y, hx, hy, rfl⟩; exact add_encl hx hy

/-- C08, subtraction. -/
theorem C08_sub (a b : MI K) (ha : ∀ i, a = some i → i.Valid) (hb : ∀ i, b = some i → i.Valid) (z : K) :
    MIHas (sub a b) z ↔ ∃ x y, MIHas a x ∧ MIHas b y ∧ x - y = z := by
  rcases a with _ | a
  · simp [sub, lift2, MIHas]
  rcases b with _ | b
  · simp [sub, lift2, MIHas]
  have ha := ha a rfl
  have hb := hb b rfl
  constructor
  · rintro ⟨h1, h2⟩
    change a.inf - b.sup ≤ z at h1
    change z ≤ a.sup - b.inf at h2
    rcases le_total z (a.inf - b.inf) with h | h
    · exact ⟨a.inf, a.inf - z, ⟨le_refl _, ha⟩, ⟨by linarith, by linarith⟩, by ring⟩
    · exact ⟨z + b.inf, b.inf, ⟨by linarith, by linarith⟩, ⟨le_refl _, hb⟩, by ring⟩
  · rintro ⟨x, y, hx, hy, rfl⟩; exact sub_encl hx hy

/-- C08, negation. -/
theorem C08_neg (a : MI K) (z : K) : MIHas (neg a) z ↔ ∃ x, MIHas a x ∧ -x = z := by
  rcases a with _ | a
  · simp [neg, MIHas]
  · constructor
    · rintro ⟨h1, h2⟩
      change -a.sup ≤ z at h1
      change z ≤ -a.inf at h2
      exact ⟨-z, ⟨by linarith, by linarith⟩, by ring⟩
    · rintro ⟨x, hx, rfl⟩; exact neg_encl hx

/-- Intermediate values of a product along one edge. -/
theorem edge {c lo hi z : K} (hl : lo ≤ hi) (h : (c * lo ≤ z ∧ z ≤ c * hi) ∨ (c * hi ≤ z ∧ z ≤ c * lo)) :
    ∃ y, lo ≤ y ∧ y ≤ hi ∧ c * y = z := by
  rcases lt_trichotomy c 0 with hc | hc | hc
  · have h' : c * hi ≤ z ∧ z ≤ c * lo := by
      rcases h with h | h
      · have := mul_le_mul_of_nonpos_left hl hc.le
        exact ⟨by linarith, by linarith⟩
      · exact h
    refine ⟨z / c, ?_, ?_, mul_div_cancel₀ _ hc.ne⟩
    · rw [le_div_iff_of_neg hc]; linarith [h'.2, mul_comm lo c]
    · rw [div_le_iff_of_neg hc]; linarith [h'.1, mul_comm hi c]
  · subst hc
    refine ⟨lo, le_refl _, hl, ?_⟩
    simp only [zero_mul] at h ⊢
    rcases h with h | h <;> exact le_antisymm (by linarith [h.1, h.2]) (by linarith [h.1, h.2])
  · have h' : c * lo ≤ z ∧ z ≤ c * hi := by
      rcases h with h | h
      · exact h
      · have := mul_le_mul_of_nonneg_left hl hc.le
        exact ⟨by linarith, by linarith⟩
    refine ⟨z / c, ?_, ?_, mul_div_cancel₀ _ hc.ne'⟩
    · rw [le_div_iff₀ hc]; linarith [h'.1, mul_comm lo c]
    · rw [div_le_iff₀ hc]; linarith [h'.2, mul_comm hi c]

/-- Every point of an interval product is a product of points. -/
theorem mul_attained {a b : Iv K} (ha : a.Valid) (hb : b.Valid) {z : K} (hz : (a.mul b).Has z) :
    ∃ x y, a.Has x ∧ b.Has y ∧ x * y = z := by
  obtain ⟨h1, h2⟩ := hz
  unfold Iv.mul at h1 h2
  dsimp only at h1 h2
  have eL : ∀ c, a.Has c → ((c * b.inf ≤ z ∧ z ≤ c * b.sup) ∨ (c * b.sup ≤ z ∧ z ≤ c * b.inf)) →
      ∃ x y, a.Has x ∧ b.Has y ∧ x * y = z := by
    intro c hc h
    obtain ⟨y, y1, y2, y3⟩ := edge hb h
    exact ⟨c, y, hc, ⟨y1, y2⟩, y3⟩
  have eR : ∀ c, b.Has c → ((a.inf * c ≤ z ∧ z ≤ a.sup * c) ∨ (a.sup * c ≤ z ∧ z ≤ a.inf * c)) →
      ∃ x y, a.Has x ∧ b.Has y ∧ x * y = z := by
    intro c hc h
    rw [mul_comm a.inf c, mul_comm a.sup c] at h
    obtain ⟨y, y1, y2, y3⟩ := edge ha h
    exact ⟨y, c, ⟨y1, y2⟩, hc, by rw [mul_comm]; exact y3⟩
  have i1 : a.Has a.inf := ⟨le_refl _, ha⟩
  have i2 : a.Has a.sup := ⟨ha, le_refl _⟩
  have i3 : b.Has b.inf := ⟨le_refl _, hb⟩
  have i4 : b.Has b.sup := ⟨hb, le_refl _⟩
  rcases le_total (a.inf * b.inf) z with c1 | c1 <;> rcases le_total (a.inf * b.sup) z with c2 | c2
  · rcases le_total (a.sup * b.inf) z with c3 | c3
    · rcases le_total (a.sup * b.sup) z with c4 | c4
      · -- all four are below: z is the largest of them
        rw [le_max_iff, le_max_iff, le_max_iff] at h2
        rcases h2 with (h | h) | (h | h)
        · exact ⟨_, _, i1, i3, le_antisymm c1 h⟩
        · exact ⟨_, _, i1, i4, le_antisymm c2 h⟩
        · exact ⟨_, _, i2, i3, le_antisymm c3 h⟩
        · exact ⟨_, _, i2, i4, le_antisymm c4 h⟩
      · exact eL _ i2 (Or.inl ⟨c3, c4⟩)
    · exact eR _ i3 (Or.inl ⟨c1, c3⟩)
  · exact eL _ i1 (Or.inl ⟨c1, c2⟩)
  · exact eL _ i1 (Or.inr ⟨c2, c1⟩)
  · rcases le_total (a.sup * b.inf) z with c3 | c3
    · exact eR _ i3 (Or.inr ⟨c3, c1⟩)
    · rcases le_total (a.sup * b.sup) z with c4 | c4
      · exact eL _ i2 (Or.inr ⟨c4, c3⟩)
      · rw [min_le_iff, min_le_iff, min_le_iff] at h1
        rcases h1 with (h | h) | (h | h)
        · exact ⟨_, _, i1, i3, le_antisymm h c1⟩
        · exact ⟨_, _, i1, i4, le_antisymm h c2⟩
        · exact ⟨_, _, i2, i3, le_antisymm h c3⟩
        · exact ⟨_, _, i2, i4, le_antisymm h c4⟩

/-- C08, multiplication: contains the product of any two points, and only such products. -/
theorem C08_mul (a b : MI K) (ha : ∀ i, a = some i → i.Valid) (hb : ∀ i, b = some i → i.Valid) (z : K) :
    MIHas (mul a b) z ↔ ∃ x y, MIHas a x ∧ MIHas b y ∧ x * y = z := by
  rcases a with _ | a
  · simp [mul, lift2, MIHas]
  rcases b with _ | b
  · simp [mul, lift2, MIHas]
  constructor
  · exact mul_attained (ha a rfl) (hb b rfl)
  · rintro ⟨x, y, hx, hy, rfl⟩; exact mul_encl hx hy

example : add (some (⟨0, 2⟩ : Iv ℚ)) (some ⟨-1, 4⟩) = some ⟨-1, 6⟩ ∧ sub (some (⟨0, 2⟩ : Iv ℚ)) (some ⟨-1, 4⟩) = some ⟨-4, 3⟩ ∧
    mul (some (⟨-3, 2⟩ : Iv ℚ)) (some ⟨-1, 4⟩) = some ⟨-12, 8⟩ := by decide +kernel

/-- C08, division: when the divisor does not contain zero the quotient succeeds, contains every quotient of points and
only such quotients. -/
theorem C08_div (a b : Iv K) (ha : a.Valid) (hb : b.Valid) (h0 : ¬ (b.Has 0)) :
    ∃ r, div (some a) (some b) = .ok (some r) ∧ ∀ z, r.Has z ↔ ∃ x y, a.Has x ∧ b.Has y ∧ x / y = z := by
  refine ⟨a.mul ⟨b.sup⁻¹, b.inf⁻¹⟩, ?_, fun z => ⟨fun hz => ?_, ?_⟩⟩
  · unfold div Iv.div
    dsimp only
    rw [if_neg (show ¬ (b.inf ≤ 0 ∧ 0 ≤ b.sup) from h0)]; rfl
  · have hinf := inv_encl (⟨le_refl _, hb⟩ : b.Has b.inf) h0
    have hsup := inv_encl (⟨hb, le_refl _⟩ : b.Has b.sup) h0
    obtain ⟨x, y, hx, hy, e⟩ := mul_attained ha (hinf.2.1) hz
    have hbi : ¬ ((⟨b.sup⁻¹, b.inf⁻¹⟩ : Iv K).inf ≤ 0 ∧ 0 ≤ (⟨b.sup⁻¹, b.inf⁻¹⟩ : Iv K).sup) := by
      rintro ⟨h1, h2⟩
      exact h0 ⟨by_contra fun hc => by
          have h3 : 0 < b.inf := not_le.1 hc
          have h4 : 0 < b.sup := lt_of_lt_of_le h3 hb
          exact absurd h1 (not_le.2 (inv_pos.2 h4)), by_contra fun hc => by
          have h3 : b.sup < 0 := not_le.1 hc
          have h4 : b.inf < 0 := lt_of_le_of_lt hb h3
          exact absurd h2 (not_le.2 (inv_lt_zero.2 h4))⟩
    have hy' := (inv_encl hy hbi).2
    simp only [inv_inv] at hy'
    exact ⟨x, y⁻¹, hx, hy', by rw [div_inv_eq_mul]; exact e⟩
  · rintro ⟨x, y, hx, hy, rfl⟩
    rw [div_eq_mul_inv]
    exact mul_encl hx (inv_encl hy h0).2

example : div (some (⟨1, 2⟩ : Iv ℚ)) (some ⟨-4, -2⟩) = .ok (some ⟨-1, -1/4⟩) := by decide +kernel

/-- Enclosure of a pairwise list operation. -/
theorem listOp_encl {op : Iv K → Iv K → Iv K} {f : K → K → K}
    (he : ∀ a b x y, a.Has x → b.Has y → (op a b).Has (f x y))
    (ho : ∀ a b z, a.Valid → b.Valid → (op a b).Has z → ∃ x y, a.Has x ∧ b.Has y ∧ f x y = z)
    (l m : List (Iv K)) (hl : ∀ a ∈ l, a.Valid) (hm : ∀ a ∈ m, a.Valid) (hl0 : l ≠ []) (hm0 : m ≠ []) :
    ∃ r, listOp op l m = .ok r ∧ Separated r ∧ ∀ z, Covers r z ↔ ∃ x y, Covers l x ∧ Covers m y ∧ f x y = z := by
  have hne : (l.product m).map (fun p => op p.1 p.2) ≠ [] := by
    obtain ⟨a, ha⟩ := List.exists_mem_of_ne_nil l hl0
    obtain ⟨b, hb⟩ := List.exists_mem_of_ne_nil m hm0
    intro h
    have : op a b ∈ (l.product m).map (fun p => op p.1 p.2) :=
      List.mem_map.2 ⟨(a, b), List.pair_mem_product.2 ⟨ha, hb⟩, rfl⟩
    rw [h] at this; simp at this
  have hv : ∀ c ∈ (l.product m).map (fun p => op p.1 p.2), c.Valid := by
    intro c hc
    obtain ⟨⟨a, b⟩, hp, rfl⟩ := List.mem_map.1 hc
    rw [List.pair_mem_product] at hp
    exact has_valid (he a b a.inf b.inf ⟨le_refl _, hl a hp.1⟩ ⟨le_refl _, hm b hp.2⟩)
  obtain ⟨r, h1, _, h3, _, h5⟩ := refine_spec _ hne hv
  refine ⟨r, h1, h3, fun z => ?_⟩
  rw [h5]
  constructor
  · rintro ⟨c, hc, hz⟩
    obtain ⟨⟨a, b⟩, hp, rfl⟩ := List.mem_map.1 hc
    rw [List.pair_mem_product] at hp
    obtain ⟨x, y, hx, hy, e⟩ := ho a b z (hl a hp.1) (hm b hp.2) hz
    exact ⟨x, y, ⟨a, hp.1, hx⟩, ⟨b, hp.2, hy⟩, e⟩
  rintro ⟨x, y, ⟨a, ha, hx⟩, ⟨b, hb, hy⟩, rfl⟩
  exact ⟨op a b, List.mem_map.2 ⟨(a, b), List.pair_mem_product.2 ⟨ha, hb⟩, rfl⟩, he a b x y hx hy⟩

/-- C08 for interval lists: sum, difference and product of two lists succeed and contain the result of every pair
of points, and nothing else. -/
theorem C08_lists (l m : List (Iv K)) (hl : ∀ a ∈ l, a.Valid) (hm : ∀ a ∈ m, a.Valid) (hl0 : l ≠ []) (hm0 : m ≠ []) :
    (∃ r, listOp Iv.add l m = .ok r ∧ Separated r ∧
      ∀ z, Covers r z ↔ ∃ x y, Covers l x ∧ Covers m y ∧ x + y = z) ∧
    (∃ r, listOp Iv.sub l m = .ok r ∧ Separated r ∧
      ∀ z, Covers r z ↔ ∃ x y, Covers l x ∧ Covers m y ∧ x - y = z) ∧
    (∃ r, listOp Iv.mul l m = .ok r ∧ Separated r ∧
      ∀ z, Covers r z ↔ ∃ x y, Covers l x ∧ Covers m y ∧ x * y = z) :=
  ⟨listOp_encl (f := fun x y => x + y) (fun _ _ _ _ => add_encl) (fun a b z ha hb h =>
      (C08_add (some a) (some b) (by rintro i ⟨⟩; exact ha) (by rintro i ⟨⟩; exact hb) z).1 h) l m hl hm hl0 hm0,
   listOp_encl (f := fun x y => x - y) (fun _ _ _ _ => sub_encl) (fun a b z ha hb h =>
      (C08_sub (some a) (some b) (by rintro i ⟨⟩; exact ha) (by rintro i ⟨⟩; exact hb) z).1 h) l m hl hm hl0 hm0,
   listOp_encl (f := fun x y => x * y) (fun _ _ _ _ => mul_encl) (fun _ _ _ ha hb h => mul_attained ha hb h)
      l m hl hm hl0 hm0⟩

example : listOp Iv.add [(⟨0, 1⟩ : Iv ℚ), ⟨10, 11⟩] [⟨0, 1⟩, ⟨2, 3⟩] = .ok [⟨0, 4⟩, ⟨10, 14⟩] := by decide +kernel

theorem mapM_ok {α β : Type*} {f : α → Except Err β} {g : α → β} (l : List α) (h : ∀ x ∈ l, f x = .ok (g x)) :
    l.mapM f = .ok (l.map g) := by
  induction l with
  | nil => rfl
  | cons x l ih =>
    rw [List.mapM_cons, h x (List.mem_cons_self ..), ih (fun y hy => h y (List.mem_cons_of_mem _ hy))]
    rfl

/-- C08 for interval lists: when no interval of the divisor contains zero, the quotient of two lists succeeds and covers
exactly the quotients of points. -/
theorem C08_list_div (l m : List (Iv K)) (hl : ∀ a ∈ l, a.Valid) (hm : ∀ a ∈ m, a.Valid) (hl0 : l ≠ []) (hm0 : m ≠ [])
    (h0 : ¬ Covers m 0) :
    ∃ r, listDiv l m = .ok r ∧ Separated r ∧ ∀ z, Covers r z ↔ ∃ x y, Covers l x ∧ Covers m y ∧ x / y = z := by
  have hz : ∀ b ∈ m, ¬ b.Has 0 := fun b hb h => h0 ⟨b, hb, h⟩
  have hq : ∀ p ∈ l.product m, Iv.div p.1 p.2 = .ok (p.1.mul ⟨p.2.sup⁻¹, p.2.inf⁻¹⟩) := by
    rintro ⟨a, b⟩ hp
    rw [List.pair_mem_product] at hp
    unfold Iv.div
    rw [if_neg (show ¬ (b.inf ≤ 0 ∧ 0 ≤ b.sup) from hz b hp.2)]
  have key : ∀ a b, a ∈ l → b ∈ m → ∀ z, (a.mul ⟨b.sup⁻¹, b.inf⁻¹⟩).Has z ↔ ∃ x y, a.Has x ∧ b.Has y ∧ x / y = z := by
    intro a b ha hb
    obtain ⟨r, e, h⟩ := C08_div a b (hl a ha) (hm b hb) (hz b hb)
    have hd : Iv.div a b = .ok (a.mul ⟨b.sup⁻¹, b.inf⁻¹⟩) := hq (a, b) (List.pair_mem_product.2 ⟨ha, hb⟩)
    change (Iv.div a b).map some = _ at e
    rw [hd] at e
    have : a.mul ⟨b.sup⁻¹, b.inf⁻¹⟩ = r := by injection e with e; injection e
    rw [this]; exact h
  have hne : (l.product m).map (fun p => p.1.mul ⟨p.2.sup⁻¹, p.2.inf⁻¹⟩) ≠ [] := by
    obtain ⟨a, ha⟩ := List.exists_mem_of_ne_nil l hl0
    obtain ⟨b, hb⟩ := List.exists_mem_of_ne_nil m hm0
    exact List.ne_nil_of_mem (List.mem_map.2 ⟨(a, b), List.pair_mem_product.2 ⟨ha, hb⟩, rfl⟩)
  have hv : ∀ c ∈ (l.product m).map (fun p => p.1.mul ⟨p.2.sup⁻¹, p.2.inf⁻¹⟩), c.Valid := by
    intro c hc
    obtain ⟨⟨a, b⟩, hp, rfl⟩ := List.mem_map.1 hc
    rw [List.pair_mem_product] at hp
    exact has_valid ((key a b hp.1 hp.2 _).2 ⟨a.inf, b.inf, ⟨le_refl _, hl a hp.1⟩, ⟨le_refl _, hm b hp.2⟩, rfl⟩)
  obtain ⟨r, h1, _, h3, _, h5⟩ := refine_spec _ hne hv
  refine ⟨r, ?_, h3, fun z => ?_⟩
  · unfold listDiv
    rw [mapM_ok _ hq]
    exact h1
  rw [h5]
  constructor
  · rintro ⟨c, hc, hz⟩
    obtain ⟨⟨a, b⟩, hp, rfl⟩ := List.mem_map.1 hc
    rw [List.pair_mem_product] at hp
    obtain ⟨x, y, hx, hy, e⟩ := (key a b hp.1 hp.2 z).1 hz
    exact ⟨x, y, ⟨a, hp.1, hx⟩, ⟨b, hp.2, hy⟩, e⟩
  · rintro ⟨x, y, ⟨a, ha, hx⟩, ⟨b, hb, hy⟩, e⟩
    exact ⟨_, List.mem_map.2 ⟨(a, b), List.pair_mem_product.2 ⟨ha, hb⟩, rfl⟩, (key a b ha hb z).2 ⟨x, y, hx, hy, e⟩⟩

example : listDiv [(⟨1, 2⟩ : Iv ℚ)] [⟨-2, -1⟩, ⟨4, 8⟩] = .ok [⟨-2, -1 / 2⟩, ⟨1 / 8, 1 / 2⟩] := by decide +kernel

/-- C08 for interval lists: the negated list covers exactly the opposite points. -/
theorem C08_list_neg (l : List (Iv K)) (hl : ∀ a ∈ l, a.Valid) (hl0 : l ≠ []) :
    ∃ r, listNeg l = .ok r ∧ Separated r ∧ ∀ x, Covers r x ↔ Covers l (-x) := by
  have hv : ∀ c ∈ l.map Iv.neg, c.Valid := by
    intro c hc
    obtain ⟨a, ha, rfl⟩ := List.mem_map.1 hc
    exact neg_valid (hl a ha)
  obtain ⟨r, h1, _, h3, _, h5⟩ := refine_spec (l.map Iv.neg) (by simpa using hl0) hv
  refine ⟨r, h1, h3, fun x => ?_⟩
  rw [h5]
  constructor
  · rintro ⟨c, hc, hx⟩
    obtain ⟨a, ha, rfl⟩ := List.mem_map.1 hc
    exact ⟨a, ha, le_neg.1 hx.2, neg_le.1 hx.1⟩
  · rintro ⟨a, ha, hx⟩
    exact ⟨a.neg, List.mem_map.2 ⟨a, ha, rfl⟩, neg_le.1 hx.2, le_neg.1 hx.1⟩

/-- C08: membership of a number is decided correctly. -/
theorem C08_contains_number (a : MI K) (x : K) : containsNumber a x = true ↔ MIHas a x := by
  cases a with
  | none => simp [containsNumber, MIHas]
  | some a => simp [containsNumber, MIHas, Iv.Has]

/-- Membership of intervals is broken (finding): no interval is reported to contain any interval, not even itself. -/
theorem C08_contains_interval_is_false (a b : Iv K) :
    containsMeta (some a) (some b) = .ok false ∧ containsMeta (some a) (some a) = .ok false := ⟨rfl, rfl⟩

end Verif.Interval
