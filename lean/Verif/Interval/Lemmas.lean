import Verif.Interval.Model
import Mathlib.Tactic.Linarith
import Mathlib.Algebra.Order.Ring.Rat

/-! # Lemmas on refinement and bound arithmetic -/

namespace Verif.Interval

variable {K : Type*} [Field K] [LinearOrder K]

theorem orCore_overlap {a b : Iv K} (ha : a.Valid) (hb : b.Valid) (hk : a.inf ≤ b.inf) (h : b.inf ≤ a.sup) :
    orCore a b = [⟨a.inf, max a.sup b.sup⟩] := by
  unfold orCore
  rw [if_neg (not_lt.2 h), if_neg (not_lt.2 (le_trans hk hb)), min_eq_left hk]

theorem has_valid {a : Iv K} {x : K} (h : a.Has x) : a.Valid := le_trans h.1 h.2

theorem covers_nil (x : K) : Covers [] x ↔ False := by simp [Covers]
theorem covers_cons (a : Iv K) (l : List (Iv K)) (x : K) : Covers (a :: l) x ↔ a.Has x ∨ Covers l x := by
  unfold Covers; simp only [List.mem_cons, exists_eq_or_imp]

/-- Invariant of the merge loop: `acc` (most recent first) is separated when read backwards, valid, and everything still to be
merged starts after the start of the most recent interval. -/
structure Inv (acc : List (Iv K)) : Prop where
  sep : acc.Pairwise (fun a b => b.sup < a.inf)
  val : ∀ a ∈ acc, a.Valid

theorem foldl_refine (rest : List (Iv K)) : ∀ (last : Iv K) (acc : List (Iv K)),
    Inv (last :: acc) → (∀ s ∈ rest, s.Valid) → (∀ s ∈ rest, last.inf ≤ s.inf) → rest.Pairwise keyLe →
    Inv (rest.foldl refineStep (last :: acc)) ∧
      ∀ x, Covers (rest.foldl refineStep (last :: acc)) x ↔ Covers (last :: acc) x ∨ Covers rest x := by
  induction rest with
  | nil => intro last acc hi _ _ _; exact ⟨hi, fun x => by simp [Covers]⟩
  | cons s rest ih =>
    intro last acc hi hv hk hp
    rw [List.pairwise_cons] at hp
    have hs := hv s (by simp)
    have hls := hk s (by simp)
    rw [List.foldl_cons]
    by_cases h : s.inf ≤ last.sup
    · have hlv := hi.val last (by simp)
      have e : refineStep (last :: acc) s = ⟨last.inf, max last.sup s.sup⟩ :: acc := by
        unfold refineStep; simp only [h, if_true, orCore_overlap hlv hs hls h]; rfl
      rw [e]
      have hi' : Inv ((⟨last.inf, max last.sup s.sup⟩ : Iv K) :: acc) := by
        constructor
        · rw [List.pairwise_cons]
          have := hi.sep
          rw [List.pairwise_cons] at this
          exact ⟨fun b hb => this.1 b hb, this.2⟩
        · intro a ha
          rw [List.mem_cons] at ha
          rcases ha with rfl | ha
          · exact le_trans hlv (le_max_left _ _)
          · exact hi.val a (List.mem_cons_of_mem _ ha)
      obtain ⟨r1, r2⟩ := ih _ _ hi' (fun t ht => hv t (List.mem_cons_of_mem _ ht))
        (fun t ht => hk t (List.mem_cons_of_mem _ ht)) hp.2
      refine ⟨r1, fun x => ?_⟩
      rw [r2]
      have key : Iv.Has (⟨last.inf, max last.sup s.sup⟩ : Iv K) x ↔ last.Has x ∨ s.Has x := by
        unfold Iv.Has
        simp only [le_max_iff]
        constructor
        · rintro ⟨h1, h2 | h2⟩
          · exact Or.inl ⟨h1, h2⟩
          · rcases le_total x last.sup with h3 | h3
            · exact Or.inl ⟨h1, h3⟩
            · exact Or.inr ⟨le_trans h h3, h2⟩
        · rintro (⟨h1, h2⟩ | ⟨h1, h2⟩)
          · exact ⟨h1, Or.inl h2⟩
          · exact ⟨le_trans hls h1, Or.inr h2⟩
      simp only [covers_cons, key]
      generalize Covers acc x = A
      generalize Covers rest x = B
      tauto
    · have e : refineStep (last :: acc) s = s :: last :: acc := by
        unfold refineStep; simp only [h, if_false]
      rw [e]
      have hi' : Inv (s :: last :: acc) := by
        constructor
        · rw [List.pairwise_cons]
          refine ⟨fun b hb => ?_, hi.sep⟩
          rw [List.mem_cons] at hb
          rcases hb with rfl | hb
          · exact not_le.1 h
          · have h1 := hi.sep
            rw [List.pairwise_cons] at h1
            exact lt_of_lt_of_le (h1.1 b hb) hls
        · intro a ha
          rw [List.mem_cons] at ha
          rcases ha with rfl | ha
          · exact hs
          · exact hi.val a ha
      obtain ⟨r1, r2⟩ := ih _ _ hi' (fun t ht => hv t (List.mem_cons_of_mem _ ht))
        (fun t ht => hp.1 t ht) hp.2
      refine ⟨r1, fun x => ?_⟩
      rw [r2]
      simp only [covers_cons]
      generalize Covers acc x = A
      generalize Covers rest x = B
      tauto

instance : Std.Total (keyLe (K := K)) := ⟨fun a b => le_total a.inf b.inf⟩
instance : IsTrans (Iv K) keyLe := ⟨fun _ _ _ h1 h2 => le_trans h1 h2⟩

/-- Refinement of a non-empty list of valid intervals. -/
theorem refine_spec (l : List (Iv K)) (hne : l ≠ []) (hv : ∀ a ∈ l, a.Valid) :
    ∃ r, refineIvs l = .ok r ∧ r ≠ [] ∧ Separated r ∧ (∀ a ∈ r, a.Valid) ∧ ∀ x, Covers r x ↔ Covers l x := by
  unfold refineIvs
  have hp : (l.insertionSort keyLe).Pairwise keyLe := List.pairwise_insertionSort keyLe l
  have hm : ∀ a, a ∈ l.insertionSort keyLe ↔ a ∈ l := fun a => List.mem_insertionSort keyLe
  cases hs : l.insertionSort keyLe with
  | nil =>
    exfalso
    cases l with
    | nil => exact hne rfl
    | cons a t => have := (hm a).2 (by simp); rw [hs] at this; simp at this
  | cons first rest =>
    rw [hs] at hp
    rw [List.pairwise_cons] at hp
    have hv' : ∀ a ∈ first :: rest, a.Valid := fun a ha => hv a ((hm a).1 (by rw [hs]; exact ha))
    obtain ⟨r1, r2⟩ := foldl_refine rest first [] ⟨by simp, fun a ha => by
      rw [List.mem_singleton] at ha; subst ha; exact hv' _ (by simp)⟩
      (fun a ha => hv' a (List.mem_cons_of_mem _ ha)) (fun a ha => hp.1 a ha) hp.2
    refine ⟨_, rfl, ?_, ?_, ?_, ?_⟩
    · have hc : Covers (rest.foldl refineStep [first]) first.inf := by
        rw [r2]; exact Or.inl ⟨first, by simp, le_refl _, hv' first (by simp)⟩
      intro h0
      rw [List.reverse_eq_nil_iff] at h0
      rw [h0] at hc
      obtain ⟨a, ha, _⟩ := hc
      simp at ha
    · unfold Separated
      rw [List.pairwise_reverse]
      exact r1.sep
    · intro a ha
      exact r1.val a (List.mem_reverse.1 ha)
    · intro x
      have e1 : Covers (rest.foldl refineStep [first]).reverse x ↔ Covers (rest.foldl refineStep [first]) x := by
        unfold Covers; simp only [List.mem_reverse]
      have e2 : Covers l x ↔ Covers (first :: rest) x := by
        unfold Covers
        constructor
        · rintro ⟨a, ha, h⟩; exact ⟨a, by rw [← hs]; exact (hm a).2 ha, h⟩
        · rintro ⟨a, ha, h⟩; exact ⟨a, (hm a).1 (by rw [hs]; exact ha), h⟩
      rw [e1, e2, r2]
      simp only [covers_cons, covers_nil, or_false]

variable [IsStrictOrderedRing K]

theorem add_encl {a b : Iv K} {x y : K} (hx : a.Has x) (hy : b.Has y) : (a.add b).Has (x + y) :=
  ⟨add_le_add hx.1 hy.1, add_le_add hx.2 hy.2⟩

theorem sub_encl {a b : Iv K} {x y : K} (hx : a.Has x) (hy : b.Has y) : (a.sub b).Has (x - y) :=
  ⟨sub_le_sub hx.1 hy.2, sub_le_sub hx.2 hy.1⟩

theorem neg_encl {a : Iv K} {x : K} (hx : a.Has x) : a.neg.Has (-x) := ⟨neg_le_neg hx.2, neg_le_neg hx.1⟩

/-- A product with one fixed factor lies between the products of the bounds. -/
theorem mul_between {l u x y : K} (h1 : l ≤ x) (h2 : x ≤ u) :
    min (l * y) (u * y) ≤ x * y ∧ x * y ≤ max (l * y) (u * y) := by
  rcases le_total 0 y with h | h
  · exact ⟨le_trans (min_le_left _ _) (mul_le_mul_of_nonneg_right h1 h),
      le_trans (mul_le_mul_of_nonneg_right h2 h) (le_max_right _ _)⟩
  · exact ⟨le_trans (min_le_right _ _) (mul_le_mul_of_nonpos_right h2 h),
      le_trans (mul_le_mul_of_nonpos_right h1 h) (le_max_left _ _)⟩

theorem mul_encl {a b : Iv K} {x y : K} (hx : a.Has x) (hy : b.Has y) : (a.mul b).Has (x * y) := by
  obtain ⟨m1, m2⟩ := mul_between (y := y) hx.1 hx.2
  obtain ⟨p1, p2⟩ := mul_between (y := a.inf) hy.1 hy.2
  obtain ⟨q1, q2⟩ := mul_between (y := a.sup) hy.1 hy.2
  rw [mul_comm b.inf, mul_comm b.sup, mul_comm y] at p1 p2 q1 q2
  constructor
  · exact le_trans (min_le_min p1 q1) m1
  · exact le_trans m2 (max_le_max p2 q2)

theorem inv_encl {b : Iv K} {y : K} (hy : b.Has y) (h0 : ¬ (b.inf ≤ 0 ∧ 0 ≤ b.sup)) :
    y ≠ 0 ∧ (⟨b.sup⁻¹, b.inf⁻¹⟩ : Iv K).Has y⁻¹ := by
  rcases lt_or_ge 0 b.inf with h | h
  · have hy0 : 0 < y := lt_of_lt_of_le h hy.1
    exact ⟨hy0.ne', inv_anti₀ hy0 hy.2, inv_anti₀ h hy.1⟩
  · have hs : b.sup < 0 := by
      by_contra hc; exact h0 ⟨h, not_lt.1 hc⟩
    have hy0 : y < 0 := lt_of_le_of_lt hy.2 hs
    have hi : b.inf < 0 := lt_of_le_of_lt hy.1 hy0
    refine ⟨hy0.ne, ?_, ?_⟩
    · exact (inv_le_inv_of_neg hs hy0).2 hy.2
    · exact (inv_le_inv_of_neg hy0 hi).2 hy.1

theorem add_valid {a b : Iv K} (ha : a.Valid) (hb : b.Valid) : (a.add b).Valid := add_le_add ha hb
theorem sub_valid {a b : Iv K} (ha : a.Valid) (hb : b.Valid) : (a.sub b).Valid := sub_le_sub ha hb
theorem neg_valid {a : Iv K} (ha : a.Valid) : a.neg.Valid := neg_le_neg ha
theorem mul_valid {a b : Iv K} (ha : a.Valid) (hb : b.Valid) : (a.mul b).Valid :=
  has_valid (mul_encl (a := a) (b := b) ⟨le_refl _, ha⟩ ⟨le_refl _, hb⟩)

end Verif.Interval
