import Verif.Range.Model
import Verif.Interval.Lemmas
import Mathlib.Tactic.NormNum
import Mathlib.Tactic.Ring
import Mathlib.Tactic.Push

/-!
# Property theorems on range evaluation: C10
-/

namespace Verif.Range
open Verif.Interval (Iv add_encl sub_encl neg_encl mul_encl inv_encl)

/-! ## Soundness of each range function -/

theorem abs_sound {a : Iv ℚ} {x : ℚ} (h : a.Has x) : (ivAbs a).Has |x| := by
  obtain ⟨h1, h2⟩ := h
  unfold ivAbs
  by_cases h3 : 0 ≤ a.inf
  · rw [if_pos h3, abs_of_nonneg (le_trans h3 h1)]; exact ⟨h1, h2⟩
  · rw [if_neg h3]
    by_cases h4 : a.sup ≤ 0
    · rw [if_pos h4, abs_of_nonpos (le_trans h2 h4)]; exact neg_encl ⟨h1, h2⟩
    · rw [if_neg h4]
      refine ⟨abs_nonneg x, ?_⟩
      rw [abs_le']
      exact ⟨le_max_of_le_right h2, le_max_of_le_left (by linarith)⟩

theorem div_sound {a b r : Iv ℚ} {x y : ℚ} (hx : a.Has x) (hy : b.Has y) (h : ivDiv a b = some r) : r.Has (x / y) := by
  unfold ivDiv Iv.div at h
  by_cases h0 : b.inf ≤ 0 ∧ 0 ≤ b.sup
  · rw [if_pos h0] at h; simp at h
  · rw [if_neg h0] at h
    simp only [Option.some.injEq] at h
    subst h
    rw [div_eq_mul_inv]
    exact mul_encl hx (inv_encl hy h0).2

theorem pow2_sound {a : Iv ℚ} {n : ℤ} (h : a.Has (n : ℚ)) : (ivPow2 a).Has ((2 : ℚ) ^ n) := by
  obtain ⟨h1, h2⟩ := h
  refine ⟨zpow_le_zpow_right₀ (by norm_num) ?_, zpow_le_zpow_right₀ (by norm_num) (Int.le_floor.2 h2)⟩
  have h3 : ((⌊a.inf⌋ : ℤ) : ℚ) ≤ (n : ℚ) := le_trans (Int.floor_le _) h1
  exact_mod_cast h3

theorem exp_sound {a r : Iv ℚ} {x : ℚ} (h : a.Has x) (he : ivExp a = some r) : r.Has ((Int.log 2 |x| : ℤ) : ℚ) := by
  have hm := abs_sound h
  unfold ivExp at he
  dsimp only at he
  split at he
  · simp at he
  · rename_i hpos
    rw [not_le] at hpos
    simp only [Option.some.injEq] at he
    subst he
    unfold Iv.Has
    dsimp only
    constructor
    · exact_mod_cast Int.log_mono_right hpos hm.1
    · exact_mod_cast Int.log_mono_right (lt_of_lt_of_le hpos hm.1) hm.2

theorem rne_nearest (x : ℚ) : NearestEven x (Verif.Float.rne x) := by
  have h1 := Int.floor_le x
  have h2 := Int.lt_floor_add_one x
  unfold NearestEven Verif.Float.rne
  dsimp only
  split_ifs with ha hb hc
  · left; rw [abs_lt]; constructor <;> linarith
  · left; push_cast; rw [abs_lt]; constructor <;> linarith
  · right
    have : x - (⌊x⌋ : ℚ) = 1 / 2 := le_antisymm (not_lt.1 hb) (not_lt.1 ha)
    rw [this]
    exact ⟨by norm_num, Int.even_iff.2 hc⟩
  · right
    have : x - (⌊x⌋ : ℚ) = 1 / 2 := le_antisymm (not_lt.1 hb) (not_lt.1 ha)
    push_cast
    refine ⟨?_, ?_⟩
    · rw [show x - ((⌊x⌋ : ℚ) + 1) = -(1 / 2) by linarith, abs_neg]; norm_num
    · rw [Int.even_iff]; omega

theorem nearest_mono {x y : ℚ} {n m : ℤ} (hx : NearestEven x n) (hy : NearestEven y m) (h : x ≤ y) : n ≤ m := by
  by_contra hc
  have hc : m + 1 ≤ n := by omega
  have hc' : (m : ℚ) + 1 ≤ n := by exact_mod_cast hc
  have bx : |x - n| ≤ 1 / 2 := by rcases hx with h | h; exacts [h.le, h.1.le]
  have by' : |y - m| ≤ 1 / 2 := by rcases hy with h | h; exacts [h.le, h.1.le]
  rw [abs_le] at bx by'
  have e1 : x - n = -(1 / 2) := by linarith
  have e2 : y - m = 1 / 2 := by linarith
  have e3 : (n : ℚ) = m + 1 := by linarith
  have e3 : n = m + 1 := by exact_mod_cast e3
  have ex : Even n := by
    rcases hx with h | h
    · rw [e1] at h; norm_num at h
    · exact h.2
  have ey : Even m := by
    rcases hy with h | h
    · rw [e2] at h; norm_num at h
    · exact h.2
  rw [Int.even_iff] at ex ey
  omega

/-- Operations whose range function is wrong: Modulo, and RawExponentExtraction with a bias. -/
def Unsound : Kind → Prop
  | .modulo => True
  | .rawExpExtract b => b ≠ 0
  | _ => False

theorem mant_sound {x : ℚ} (h : x ≠ 0) : (⟨-2, 2⟩ : Iv ℚ).Has (x / (2 : ℚ) ^ (Int.log 2 |x|)) := by
  have hpos : 0 < |x| := abs_pos.2 h
  have hlt := Int.lt_zpow_succ_log_self (R := ℚ) (b := 2) (by norm_num) |x|
  have hp : (0 : ℚ) < (2 : ℚ) ^ (Int.log 2 |x|) := zpow_pos (by norm_num) _
  have : |x / (2 : ℚ) ^ (Int.log 2 |x|)| ≤ 2 := by
    rw [abs_div, abs_of_pos hp, div_le_iff₀ hp]
    have e : (2 : ℚ) ^ (Int.log 2 |x| + 1) = (2 : ℚ) ^ (Int.log 2 |x|) * 2 := zpow_add_one₀ (by norm_num) _
    push_cast at hlt
    linarith
  exact abs_le.1 this

/-- Every range function (except the unsound ones) encloses the result of its operation. -/
theorem bare_sound {k : Kind} (hk : ¬ Unsound k) {as : List (Iv ℚ)} {xs : List ℚ} {r : Iv ℚ} {y : ℚ}
    (h : List.Forall₂ (fun a x => a.Has x) as xs) (hr : bareRange k as = .ok (some r)) (hm : Means k xs y)
    (hl : k ≠ .load) : r.Has y := by
  unfold bareRange at hr
  split at hr <;> first | (simp at hr; done) | skip
  all_goals
    simp only [List.forall₂_cons_left_iff, List.forall₂_nil_left_iff] at h
  · obtain ⟨x, _, h1, rfl, rfl⟩ := h
    simp only [Means] at hm
    simp only [Except.ok.injEq, Option.some.injEq] at hr
    subst hr hm
    exact abs_sound h1
  · obtain ⟨x, _, h1, rfl, rfl⟩ := h
    simp only [Means] at hm
    simp only [Except.ok.injEq, Option.some.injEq] at hr
    subst hr hm
    exact neg_encl h1
  · obtain ⟨x, _, h1, ⟨y, _, h2, rfl, rfl⟩, rfl⟩ := h
    simp only [Means] at hm
    simp only [Except.ok.injEq, Option.some.injEq] at hr
    subst hr hm
    exact add_encl h1 h2
  · obtain ⟨x, _, h1, ⟨y, _, h2, rfl, rfl⟩, rfl⟩ := h
    simp only [Means] at hm
    simp only [Except.ok.injEq, Option.some.injEq] at hr
    subst hr hm
    exact sub_encl h1 h2
  · obtain ⟨x, _, h1, ⟨y, _, h2, rfl, rfl⟩, rfl⟩ := h
    simp only [Means] at hm
    simp only [Except.ok.injEq, Option.some.injEq] at hr
    subst hr hm
    exact mul_encl h1 h2
  · obtain ⟨x, _, h1, ⟨y, _, h2, rfl, rfl⟩, rfl⟩ := h
    simp only [Means] at hm
    simp only [Except.ok.injEq, Option.some.injEq] at hr
    obtain ⟨_, rfl⟩ := hm
    exact div_sound h1 h2 hr
  · obtain ⟨x, _, h1, ⟨y, _, h2, ⟨z, _, h3, rfl, rfl⟩, rfl⟩, rfl⟩ := h
    simp only [Means] at hm
    simp only [Except.ok.injEq, Option.some.injEq] at hr
    subst hr hm
    exact add_encl (mul_encl h1 h2) h3
  · obtain ⟨x, _, h1, ⟨y, _, h2, ⟨z, _, h3, rfl, rfl⟩, rfl⟩, rfl⟩ := h
    simp only [Means] at hm
    simp only [Except.ok.injEq, Option.some.injEq] at hr
    subst hr hm
    exact sub_encl (mul_encl h1 h2) h3
  · obtain ⟨x, _, h1, ⟨y, _, h2, ⟨z, _, h3, rfl, rfl⟩, rfl⟩, rfl⟩ := h
    simp only [Means] at hm
    simp only [Except.ok.injEq, Option.some.injEq] at hr
    subst hr hm
    rw [← neg_mul]
    exact sub_encl (mul_encl (neg_encl h1) h2) h3
  · obtain ⟨x, _, h1, ⟨y, _, h2, ⟨z, _, h3, rfl, rfl⟩, rfl⟩, rfl⟩ := h
    simp only [Means] at hm
    simp only [Except.ok.injEq, Option.some.injEq] at hr
    subst hr hm
    rw [← neg_mul]
    exact add_encl (mul_encl (neg_encl h1) h2) h3
  · obtain ⟨x, _, h1, ⟨y, _, h2, ⟨z, _, h3, ⟨w, _, h4, rfl, rfl⟩, rfl⟩, rfl⟩, rfl⟩ := h
    simp only [Means] at hm
    simp only [Except.ok.injEq, Option.some.injEq] at hr
    subst hr hm
    exact add_encl (mul_encl h1 h2) (mul_encl h3 h4)
  · exact absurd trivial hk
  · obtain ⟨x, _, h1, rfl, rfl⟩ := h
    simp only [Means] at hm
    simp only [Except.ok.injEq, Option.some.injEq] at hr
    obtain ⟨n, hn, rfl⟩ := hm
    subst hr
    unfold Iv.Has
    dsimp only
    exact ⟨by exact_mod_cast nearest_mono (rne_nearest _) hn h1.1, by exact_mod_cast nearest_mono hn (rne_nearest _) h1.2⟩
  · obtain ⟨x, _, h1, rfl, rfl⟩ := h
    simp only [Means] at hm
    simp only [Except.ok.injEq, Option.some.injEq] at hr
    subst hr hm
    unfold Iv.Has
    dsimp only
    exact ⟨by exact_mod_cast Int.ceil_mono h1.1, by exact_mod_cast Int.ceil_mono h1.2⟩
  · obtain ⟨x, _, h1, rfl, rfl⟩ := h
    simp only [Means] at hm
    simp only [Except.ok.injEq, Option.some.injEq] at hr
    subst hr hm
    unfold Iv.Has
    dsimp only
    exact ⟨by exact_mod_cast Int.floor_mono h1.1, by exact_mod_cast Int.floor_mono h1.2⟩
  · obtain ⟨x, _, h1, rfl, rfl⟩ := h
    simp only [Means] at hm
    simp only [Except.ok.injEq, Option.some.injEq] at hr
    obtain ⟨n, rfl, rfl⟩ := hm
    subst hr
    exact pow2_sound h1
  · obtain ⟨x, _, h1, rfl, rfl⟩ := h
    simp only [Means] at hm
    simp only [Except.ok.injEq, Option.some.injEq] at hr
    obtain ⟨n, rfl, rfl⟩ := hm
    subst hr
    exact pow2_sound h1
  · obtain ⟨x, _, h1, ⟨y, _, h2, rfl, rfl⟩, rfl⟩ := h
    simp only [Means] at hm
    simp only [Except.ok.injEq, Option.some.injEq] at hr
    subst hr hm
    exact ⟨min_le_min h1.1 h2.1, min_le_min h1.2 h2.2⟩
  · obtain ⟨x, _, h1, ⟨y, _, h2, rfl, rfl⟩, rfl⟩ := h
    simp only [Means] at hm
    simp only [Except.ok.injEq, Option.some.injEq] at hr
    subst hr hm
    exact ⟨max_le_max h1.1 h2.1, max_le_max h1.2 h2.2⟩
  · obtain ⟨x, _, h1, rfl, rfl⟩ := h
    simp only [Means] at hm
    simp only [Except.ok.injEq, Option.some.injEq] at hr
    subst hr hm
    exact h1
  · exact absurd rfl hl
  · obtain ⟨x, _, h1, rfl, rfl⟩ := h
    simp only [Means] at hm
    simp only [Except.ok.injEq, Option.some.injEq] at hr
    obtain ⟨h0, rfl⟩ := hm
    subst hr
    exact mant_sound h0
  · obtain ⟨x, _, h1, rfl, rfl⟩ := h
    simp only [Means] at hm
    simp only [Except.ok.injEq, Option.some.injEq] at hr
    obtain ⟨h0, rfl⟩ := hm
    exact exp_sound h1 hr
  · rename_i b _
    have hb : b = 0 := by by_contra h'; exact hk h'
    subst hb
    obtain ⟨x, _, h1, rfl, rfl⟩ := h
    simp only [Means] at hm
    simp only [Except.ok.injEq, Option.some.injEq] at hr
    obtain ⟨h0, rfl⟩ := hm
    rw [add_zero]
    exact exp_sound h1 hr
  · obtain ⟨x, _, h1, rfl, rfl⟩ := h
    simp only [Means] at hm
    simp only [Except.ok.injEq, Option.some.injEq] at hr
    obtain ⟨h0, rfl⟩ := hm
    exact div_sound ⟨le_refl _, le_refl _⟩ h1 hr

/-! ## Soundness of the evaluation -/

/-- The interval covers every value the node stands for. -/
def SoundAt (g : Graph) (v : ℕ → ℚ) (tab : ℕ → List ℚ) (i : ℕ) (r : Option (Iv ℚ)) : Prop :=
  ∀ a, r = some a → ∀ x ∈ pts g v tab i, a.Has x

/-- Everything stored so far is sound. -/
def StSound (g : Graph) (v : ℕ → ℚ) (tab : ℕ → List ℚ) (s : St) : Prop :=
  (∀ i, SoundAt g v tab i (s.interval i)) ∧ ∀ i r, (i, r) ∈ s.memo → SoundAt g v tab i r

theorem lookup_mem {i : ℕ} {r : Option (Iv ℚ)} : ∀ {m : List (ℕ × Option (Iv ℚ))}, m.lookup i = some r → (i, r) ∈ m
  | [], h => by simp at h
  | (j, q) :: m, h => by
    rw [List.lookup_cons] at h
    split at h
    · rename_i hij
      have hij : i = j := by simpa using hij
      simp only [Option.some.injEq] at h
      subst hij h
      simp
    · exact List.mem_cons_of_mem _ (lookup_mem h)

theorem mapS_sound {g : Graph} {v : ℕ → ℚ} {tab : ℕ → List ℚ} {f : ℕ → St → Except Err (Option (Iv ℚ) × St)} :
    ∀ (l : List ℕ) (s : St) (rs : List (Option (Iv ℚ))) (s' : St),
      (∀ i ∈ l, ∀ s r s', StSound g v tab s → f i s = .ok (r, s') → SoundAt g v tab i r ∧ StSound g v tab s') →
      StSound g v tab s → mapS f l s = .ok (rs, s') →
      List.Forall₂ (fun r i => SoundAt g v tab i r) rs l ∧ StSound g v tab s'
  | [], s, rs, s', _, hs, h => by
    simp only [mapS, Except.ok.injEq, Prod.mk.injEq] at h
    obtain ⟨rfl, rfl⟩ := h
    exact ⟨List.Forall₂.nil, hs⟩
  | i :: l, s, rs, s', hf, hs, h => by
    simp only [mapS, bind, Except.bind] at h
    cases h1 : f i s with
    | error e => rw [h1] at h; simp at h
    | ok p =>
      obtain ⟨r, s1⟩ := p
      rw [h1] at h
      simp only at h
      cases h2 : mapS f l s1 with
      | error e => rw [h2] at h; simp at h
      | ok q =>
        obtain ⟨rs', s2⟩ := q
        rw [h2] at h
        simp only [pure, Except.pure, Except.ok.injEq, Prod.mk.injEq] at h
        obtain ⟨rfl, rfl⟩ := h
        obtain ⟨a1, a2⟩ := hf i (by simp) s r s1 hs h1
        obtain ⟨b1, b2⟩ := mapS_sound l s1 rs' s2 (fun j hj => hf j (List.mem_cons_of_mem _ hj)) a2 h2
        exact ⟨List.Forall₂.cons a1 b1, b2⟩

theorem stSound_finish {g : Graph} {v : ℕ → ℚ} {tab : ℕ → List ℚ} {s : St} {i : ℕ} {r : Option (Iv ℚ)} (upd : Bool)
    (hs : StSound g v tab s) (hr : SoundAt g v tab i r) :
    StSound g v tab { (if upd then s.setInterval i r else s) with memo := (i, r) :: (if upd then s.setInterval i r else s).memo } := by
  constructor
  · intro j
    cases upd
    · exact hs.1 j
    · show SoundAt g v tab j (Function.update s.interval i r j)
      by_cases h : j = i
      · subst h; rw [Function.update_self]; exact hr
      · rw [Function.update_of_ne h]; exact hs.1 j
  · intro j q hq
    have hq : (j, q) = (i, r) ∨ (j, q) ∈ s.memo := by
      cases upd <;> exact List.mem_cons.1 hq
    rcases hq with hq | hq
    · rw [Prod.mk.injEq] at hq
      obtain ⟨rfl, rfl⟩ := hq
      exact hr
    · exact hs.2 j q hq

theorem allSome_forall₂ {R : Option (Iv ℚ) → ℕ → Prop} : ∀ {rs : List (Option (Iv ℚ))} {l : List ℕ} {as : List (Iv ℚ)},
    List.Forall₂ R rs l → allSome rs = some as → List.Forall₂ (fun a i => R (some a) i) as l
  | [], [], as, _, h => by simp only [allSome, Option.some.injEq] at h; subst h; exact List.Forall₂.nil
  | none :: rs, _, as, _, h => by simp [allSome] at h
  | some a :: rs, i :: l, as, hf, h => by
    simp only [allSome, Option.map_eq_some_iff] at h
    obtain ⟨as', h1, rfl⟩ := h
    rw [List.forall₂_cons] at hf
    exact List.Forall₂.cons hf.1 (allSome_forall₂ hf.2 h1)

/-- Range of an operation node from sound ranges of its inputs. -/
theorem rangeFunction_sound {g : Graph} {v : ℕ → ℚ} {tab : ℕ → List ℚ} (hc : Consistent g v tab) {i : ℕ}
    (hu : ¬ Unsound (g i).kind) (h1 : (g i).kind ≠ .leaf) (h2 : (g i).kind ≠ .table)
    {rs : List (Option (Iv ℚ))} {r : Option (Iv ℚ)}
    (hf : List.Forall₂ (fun r j => SoundAt g v tab j r) rs (g i).inputs) (hr : rangeFunction (g i).kind rs = .ok r) :
    SoundAt g v tab i r := by
  intro a ha x hx
  subst ha
  have hx : x = v i := by unfold pts at hx; rw [if_neg h2] at hx; simpa using hx
  subst hx
  by_cases hload : (g i).kind = .load
  · obtain ⟨t, rest, e1, e2⟩ := hc.load i hload
    rw [hload] at hr
    rw [e1] at hf
    cases hf with
    | @cons q _ qs _ hq hqs =>
      unfold rangeFunction at hr
      dsimp only at hr
      cases hs : allSome (q :: qs) with
      | none => rw [hs] at hr; simp at hr
      | some as =>
        rw [hs] at hr
        cases q with
        | none => simp [allSome] at hs
        | some b =>
          simp only [allSome, Option.map_eq_some_iff] at hs
          obtain ⟨as', _, rfl⟩ := hs
          simp only [bareRange, Except.ok.injEq, Option.some.injEq] at hr
          subst hr
          exact hq b rfl _ e2
  · obtain ⟨ht, hm⟩ := hc.op i h1 h2 hload
    have hpts : ∀ j ∈ (g i).inputs, ∀ a, SoundAt g v tab j (some a) → a.Has (v j) := by
      intro j hj a hs
      have := hs a rfl (v j)
      apply this
      unfold pts
      rw [if_neg (ht j hj)]; simp
    have gen : ∀ as, allSome rs = some as → bareRange (g i).kind as = .ok (some a) → a.Has (v i) := by
      intro as has hb
      have hf2 := allSome_forall₂ hf has
      refine bare_sound hu (xs := (g i).inputs.map v) ?_ hb hm hload
      rw [List.forall₂_map_right_iff]
      exact (List.forall₂_iff_get.2 ⟨hf2.length_eq, fun n h3 h4 => hpts _ (List.get_mem _ _) _ (by
        exact (List.forall₂_iff_get.1 hf2).2 n h3 h4)⟩)
    generalize hk : (g i).kind = k at hr hm gen hu
    unfold rangeFunction at hr
    split at hr
    · -- select
      generalize (g i).inputs = l at hf hm hpts
      split at hr
      · simp only [Except.ok.injEq, Option.some.injEq] at hr
        subst hr
        simp only [List.forall₂_cons_left_iff, List.forall₂_nil_left_iff] at hf
        obtain ⟨c, _, _, ⟨p, _, hp, ⟨q, _, hq, rfl, rfl⟩, rfl⟩, rfl⟩ := hf
        have hp' := hpts p (by simp) _ hp
        have hq' := hpts q (by simp) _ hq
        simp only [List.map_cons, List.map_nil, Means] at hm
        rw [hm]
        split
        · exact ⟨le_trans (min_le_left _ _) hp'.1, le_trans hp'.2 (le_max_left _ _)⟩
        · exact ⟨le_trans (min_le_right _ _) hq'.1, le_trans hq'.2 (le_max_right _ _)⟩
      · simp at hr
      · simp at hr
    · simp at hr
    · rename_i w
      simp only [Except.ok.injEq, Option.some.injEq] at hr
      subst hr
      rcases hl : (g i).inputs with _ | ⟨p, _ | ⟨q, rest⟩⟩
      · rw [hl] at hm; simp [Means] at hm
      · rw [hl] at hm
        simp only [List.map_cons, List.map_nil, Means] at hm
        obtain ⟨n, hn, he⟩ := hm
        rw [he]
        exact ⟨Nat.cast_nonneg n, Nat.cast_le.2 hn⟩
      · rw [hl] at hm; simp [Means] at hm
    · cases hs : allSome rs with
      | none => rw [hs] at hr; simp at hr
      | some as => rw [hs] at hr; exact gen as hs hr

/-- One evaluation keeps everything sound. -/
theorem evaluate_sound {g : Graph} {v : ℕ → ℚ} {tab : ℕ → List ℚ} (hc : Consistent g v tab) (hu : ∀ i, ¬ Unsound (g i).kind)
    (upd : Bool) : ∀ (fuel i : ℕ) (s : St) (r : Option (Iv ℚ)) (s' : St), StSound g v tab s →
      evaluateRange g upd fuel i s = .ok (r, s') → SoundAt g v tab i r ∧ StSound g v tab s'
  | 0, i, s, r, s', _, h => by simp [evaluateRange] at h
  | fuel + 1, i, s, r, s', hs, h => by
    unfold evaluateRange at h
    cases hi : s.interval i with
    | some a =>
      rw [hi] at h
      simp only [Except.ok.injEq, Prod.mk.injEq] at h
      obtain ⟨rfl, rfl⟩ := h
      exact ⟨hi ▸ hs.1 i, hs⟩
    | none =>
      rw [hi] at h
      cases hl : s.memo.lookup i with
      | some q =>
        rw [hl] at h
        simp only [Except.ok.injEq, Prod.mk.injEq] at h
        obtain ⟨rfl, rfl⟩ := h
        exact ⟨hs.2 i q (lookup_mem hl), hs⟩
      | none =>
        rw [hl] at h
        have hnone : SoundAt g v tab i none := fun a ha => by simp at ha
        dsimp only at h
        split at h
        · simp only [Except.ok.injEq, Prod.mk.injEq] at h
          obtain ⟨rfl, rfl⟩ := h
          exact ⟨hnone, stSound_finish false hs hnone⟩
        · simp only [Except.ok.injEq, Prod.mk.injEq] at h
          obtain ⟨rfl, rfl⟩ := h
          exact ⟨hnone, stSound_finish false hs hnone⟩
        · simp only [Except.ok.injEq, Prod.mk.injEq] at h
          obtain ⟨rfl, rfl⟩ := h
          exact ⟨hnone, stSound_finish upd hs hnone⟩
        · rename_i hk
          split at h
          · simp at h
          · rename_i j rest hj
            simp only [bind, Except.bind] at h
            cases h1 : evaluateRange g upd fuel j s with
            | error e => rw [h1] at h; simp at h
            | ok p =>
              obtain ⟨q, s1⟩ := p
              rw [h1] at h
              simp only [pure, Except.pure, Except.ok.injEq, Prod.mk.injEq] at h
              obtain ⟨rfl, rfl⟩ := h
              obtain ⟨a1, a2⟩ := evaluate_sound hc hu upd fuel j s q s1 hs h1
              have : SoundAt g v tab i q := by
                intro a ha x hx
                obtain ⟨ht, hm⟩ := hc.op i (by simp [hk]) (by simp [hk]) (by simp [hk])
                unfold pts at hx
                rw [hk, if_neg (by simp)] at hx
                have hx : x = v i := by simpa using hx
                rw [hk, hj] at hm
                simp only [List.map_cons, Means] at hm
                rw [hx, hm]
                refine a1 a ha _ ?_
                unfold pts
                rw [if_neg (ht j (by rw [hj]; simp))]; simp
              exact ⟨this, stSound_finish upd a2 this⟩
        · rename_i hk1 hk2 hk3 hk4
          simp only [bind, Except.bind] at h
          cases h1 : mapS (evaluateRange g upd fuel) (g i).inputs s with
          | error e => rw [h1] at h; simp at h
          | ok p =>
            obtain ⟨rs, s1⟩ := p
            rw [h1] at h
            simp only at h
            cases h2 : rangeFunction (g i).kind rs with
            | error e => rw [h2] at h; simp at h
            | ok q =>
              rw [h2] at h
              simp only [pure, Except.pure, Except.ok.injEq, Prod.mk.injEq] at h
              obtain ⟨rfl, rfl⟩ := h
              obtain ⟨a1, a2⟩ := mapS_sound _ _ _ _ (fun j _ s r s' => evaluate_sound hc hu upd fuel j s r s') hs h1
              have := rangeFunction_sound hc (hu i) hk1 hk2 a1 h2
              exact ⟨this, stSound_finish upd a2 this⟩

/-- C10: whatever sequence of range evaluations is made on a graph (with or without storing the intervals on the nodes, with
fresh or shared memoization maps), every reported interval contains the value of its node, for every valuation that follows the
operations and respects the declared intervals.  Missing for the full claim: Modulo and biased RawExponentExtraction, whose
range functions are wrong (see below). -/
theorem C10_sound_partial (g : Graph) (hu : ∀ i, ¬ Unsound (g i).kind) (v : ℕ → ℚ) (tab : ℕ → List ℚ)
    (hc : Consistent g v tab) (calls : List (ℕ × Bool × Bool)) (res : List (ℕ × Option (Iv ℚ))) (s' : St)
    (h : runCalls g calls (St.init g) = .ok (res, s')) :
    (∀ i a, (i, some a) ∈ res → ∀ x ∈ pts g v tab i, a.Has x) ∧
    (∀ i a, s'.interval i = some a → ∀ x ∈ pts g v tab i, a.Has x) := by
  have key : ∀ (calls : List (ℕ × Bool × Bool)) (s : St) (res : List (ℕ × Option (Iv ℚ))) (s' : St), StSound g v tab s →
      runCalls g calls s = .ok (res, s') → (∀ i r, (i, r) ∈ res → SoundAt g v tab i r) ∧ StSound g v tab s' := by
    intro calls
    induction calls with
    | nil =>
      intro s res s' hs h
      simp only [runCalls, Except.ok.injEq, Prod.mk.injEq] at h
      obtain ⟨rfl, rfl⟩ := h
      exact ⟨fun i r h => by simp at h, hs⟩
    | cons c rest ih =>
      obtain ⟨i, upd, keep⟩ := c
      intro s res s' hs h
      simp only [runCalls, bind, Except.bind] at h
      have hs0 : StSound g v tab (if keep = true then s else { s with memo := [] }) := by
        cases keep
        · exact ⟨hs.1, fun j r hj => by simp at hj⟩
        · exact hs
      cases h1 : evaluateRange g upd (i + 1) i (if keep = true then s else { s with memo := [] }) with
      | error e => rw [h1] at h; simp at h
      | ok p =>
        obtain ⟨r, s1⟩ := p
        rw [h1] at h
        simp only at h
        obtain ⟨a1, a2⟩ := evaluate_sound hc hu upd _ _ _ _ _ hs0 h1
        cases h2 : runCalls g rest s1 with
        | error e => rw [h2] at h; simp at h
        | ok q =>
          obtain ⟨rs, s2⟩ := q
          rw [h2] at h
          simp only [pure, Except.pure, Except.ok.injEq, Prod.mk.injEq] at h
          obtain ⟨rfl, rfl⟩ := h
          obtain ⟨b1, b2⟩ := ih s1 rs s2 a2 h2
          refine ⟨fun j q hj => ?_, b2⟩
          rw [List.mem_cons, Prod.mk.injEq] at hj
          rcases hj with ⟨rfl, rfl⟩ | hj
          · exact a1
          · exact b1 j q hj
  obtain ⟨k1, k2⟩ := key calls (St.init g) res s' ⟨fun i a ha => hc.declared i a ha, fun i r h => by simp [St.init] at h⟩ h
  exact ⟨fun i a hi => k1 i (some a) hi a rfl, fun i a hi => k2.1 i a hi⟩

/-! ## The evaluation ends and does not raise -/

/-- Number of inputs of an operation; `none` when any number is accepted. -/
def ArityOk : Kind → ℕ → Prop
  | .abs, n | .neg, n | .nearest, n | .ceil, n | .floor, n | .pow2, n | .expInsert, n | .ret, n | .mantExtract, n
  | .expExtract, n | .rawExpExtract _, n | .recipSeed, n => n = 1
  | .add, n | .sub, n | .mul, n | .div, n | .modulo, n | .min, n | .max, n => n = 2
  | .fma .dotProduct, n => n = 4
  | .fma .dotProductNegate, _ => False
  | .fma _, n | .select, n => n = 3
  | .load, n | .placeholder, n => 1 ≤ n
  | _, _ => True

theorem allSome_length : ∀ {rs : List (Option (Iv ℚ))} {as : List (Iv ℚ)}, allSome rs = some as → as.length = rs.length
  | [], as, h => by simp only [allSome, Option.some.injEq] at h; subst h; rfl
  | none :: rs, as, h => by simp [allSome] at h
  | some a :: rs, as, h => by
    simp only [allSome, Option.map_eq_some_iff] at h
    obtain ⟨as', h1, rfl⟩ := h
    simp [allSome_length h1]

theorem len1 {α : Type} {l : List α} (h : l.length = 1) : ∃ a, l = [a] := List.length_eq_one_iff.1 h
theorem len2 {α : Type} {l : List α} (h : l.length = 2) : ∃ a b, l = [a, b] := List.length_eq_two.1 h
theorem len3 {α : Type} {l : List α} (h : l.length = 3) : ∃ a b c, l = [a, b, c] := List.length_eq_three.1 h
theorem len4 {α : Type} {l : List α} (h : l.length = 4) : ∃ a b c d, l = [a, b, c, d] := by
  rcases l with _ | ⟨a, _ | ⟨b, _ | ⟨c, _ | ⟨d, _ | ⟨e, l⟩⟩⟩⟩⟩ <;> simp at h
  exact ⟨a, b, c, d, rfl⟩

theorem rangeFunction_total {k : Kind} {rs : List (Option (Iv ℚ))} (h : ArityOk k rs.length) (h1 : k ≠ .leaf) (h2 : k ≠ .table)
    (h3 : k ≠ .comparison) (h4 : k ≠ .placeholder) : ∃ r, rangeFunction k rs = .ok r := by
  have gen : (∀ as : List (Iv ℚ), as.length = rs.length → ∃ r, bareRange k as = .ok r) →
      ∃ r, (match allSome rs with | none => .ok none | some l => bareRange k l : Except Err (Option (Iv ℚ))) = .ok r := by
    intro hb
    cases hs : allSome rs with
    | none => exact ⟨none, rfl⟩
    | some as => exact hb as (allSome_length hs)
  cases k <;> simp only [ne_eq, not_true_eq_false, reduceCtorEq, not_false_eq_true] at h1 h2 h3 h4 <;> unfold rangeFunction <;>
    try dsimp only
  case select =>
    obtain ⟨a, b, c, rfl⟩ := len3 h
    rcases b with _ | b <;> rcases c with _ | c <;> exact ⟨_, rfl⟩
  case clz w => cases w <;> exact ⟨_, rfl⟩
  case fma s =>
    cases s <;> apply gen <;> intro as hl <;> simp only [ArityOk] at h <;> rw [h] at hl
    case dotProduct => obtain ⟨a, b, c, d, rfl⟩ := len4 hl; exact ⟨_, rfl⟩
    all_goals obtain ⟨a, b, c, rfl⟩ := len3 hl; exact ⟨_, rfl⟩
  case load =>
    apply gen; intro as hl
    cases as with
    | nil => simp only [ArityOk] at h; simp at hl; omega
    | cons a t => exact ⟨_, rfl⟩
  case unknown => apply gen; intro as hl; exact ⟨_, rfl⟩
  case trunc => apply gen; intro as hl; exact ⟨_, rfl⟩
  all_goals
    apply gen; intro as hl
    simp only [ArityOk] at h
    rw [h] at hl
    first
      | (obtain ⟨a, rfl⟩ := len1 hl; exact ⟨_, rfl⟩)
      | (obtain ⟨a, b, rfl⟩ := len2 hl; exact ⟨_, rfl⟩)

theorem mapS_total {f : ℕ → St → Except Err (Option (Iv ℚ) × St)} : ∀ (l : List ℕ) (s : St),
    (∀ i ∈ l, ∀ s, ∃ p, f i s = .ok p) → ∃ rs s', mapS f l s = .ok (rs, s') ∧ rs.length = l.length
  | [], s, _ => ⟨[], s, rfl, rfl⟩
  | i :: l, s, h => by
    obtain ⟨⟨r, s1⟩, h1⟩ := h i (by simp) s
    obtain ⟨rs, s2, h2, hl⟩ := mapS_total l s1 (fun j hj => h j (List.mem_cons_of_mem _ hj))
    refine ⟨r :: rs, s2, ?_, by simp [hl]⟩
    simp only [mapS, bind, Except.bind, h1, h2, pure, Except.pure]

theorem evaluate_total {g : Graph} (ha : Acyclic g) (hw : ∀ i, ArityOk (g i).kind (g i).inputs.length) (upd : Bool) :
    ∀ (fuel i : ℕ) (s : St), i < fuel → ∃ p, evaluateRange g upd fuel i s = .ok p
  | 0, i, s, h => by omega
  | fuel + 1, i, s, h => by
    unfold evaluateRange
    cases hi : s.interval i with
    | some a => exact ⟨_, rfl⟩
    | none =>
      cases hl : s.memo.lookup i with
      | some q => exact ⟨_, rfl⟩
      | none =>
        dsimp only
        split
        · exact ⟨_, rfl⟩
        · exact ⟨_, rfl⟩
        · exact ⟨_, rfl⟩
        · rename_i hk
          have hw' := hw i
          rw [hk] at hw'
          split
          · rename_i hj
            rw [hj] at hw'
            simp [ArityOk] at hw'
          · rename_i j rest hj
            have := ha i j (by rw [hj]; simp)
            obtain ⟨⟨r, s1⟩, h1⟩ := evaluate_total ha hw upd fuel j s (by omega)
            simp only [bind, Except.bind, h1]
            exact ⟨_, rfl⟩
        · rename_i hk1 hk2 hk3 hk4
          obtain ⟨rs, s1, h1, hlen⟩ := mapS_total (g i).inputs s
            (fun j hj s => evaluate_total ha hw upd fuel j s (by have := ha i j hj; omega))
          obtain ⟨r, h2⟩ := rangeFunction_total (k := (g i).kind) (rs := rs) (by rw [hlen]; exact hw i) hk1 hk2 hk3 hk4
          simp only [bind, Except.bind, h1, h2]
          exact ⟨_, rfl⟩

/-- C10: on every acyclic graph whose operations have the right number of inputs (and no DotProductNegate), every sequence of
range evaluations ends without raising. -/
theorem C10_total_partial (g : Graph) (ha : Acyclic g) (hw : ∀ i, ArityOk (g i).kind (g i).inputs.length)
    (calls : List (ℕ × Bool × Bool)) (s : St) : ∃ res s', runCalls g calls s = .ok (res, s') := by
  induction calls generalizing s with
  | nil => exact ⟨[], s, rfl⟩
  | cons c rest ih =>
    obtain ⟨i, upd, keep⟩ := c
    obtain ⟨⟨r, s1⟩, h1⟩ := evaluate_total ha hw upd (i + 1) i (if keep = true then s else { s with memo := [] }) (by omega)
    obtain ⟨res, s2, h2⟩ := ih s1
    refine ⟨(i, r) :: res, s2, ?_⟩
    simp only [runCalls, bind, Except.bind, h1, h2, pure, Except.pure]

/-! ## Witnesses -/

/-- A graph from a finite list of nodes; other identifiers are unannotated leaves. -/
def ofList (l : List Node) : Graph := fun i => l.getD i ⟨.leaf, [], none⟩

/-- x in [-1,2], y in [3,4], x*y, |x|, Select(c, x*y, |x|). -/
def exGraph : Graph := ofList
  [⟨.leaf, [], some ⟨-1, 2⟩⟩, ⟨.leaf, [], some ⟨3, 4⟩⟩, ⟨.mul, [0, 1], none⟩, ⟨.abs, [0], none⟩, ⟨.comparison, [0, 1], none⟩,
   ⟨.select, [4, 2, 3], none⟩]

example : (match runCalls exGraph [(5, false, true), (2, true, false)] (St.init exGraph) with
    | .ok (res, _) => res | .error _ => []) = [(5, some ⟨-4, 8⟩), (2, some ⟨-4, 8⟩)] := by decide +kernel

example : ArityOk (exGraph 5).kind (exGraph 5).inputs.length ∧ ¬ Unsound (exGraph 2).kind :=
  ⟨rfl, fun h => h⟩

/-- A consistent valuation of the example graph exists, so the hypotheses of C10 are met by a non-trivial graph. -/
example : ∃ v tab, Consistent exGraph v tab := by
  refine ⟨fun i => if i = 0 then -1 else if i = 1 then 3 else if i = 2 then -3 else if i = 3 then 1 else if i = 5 then 1 else 0,
    fun _ => [], ⟨?_, ?_, ?_⟩⟩
  · intro i a h
    rcases i with _ | _ | _ | _ | _ | _ | i <;> simp [exGraph, ofList, pts] at h ⊢ <;> subst h <;> simp [Iv.Has] <;> norm_num
  · intro i h
    rcases i with _ | _ | _ | _ | _ | _ | i <;> simp [exGraph, ofList] at h
  · intro i h1 h2 h3
    rcases i with _ | _ | _ | _ | _ | _ | i <;> simp [exGraph, ofList] at h1 h2 h3 ⊢ <;> simp [Means]

/-- C10 fails for Modulo: for every non-zero divisor interval reduced to a point `d > 0`, the reported range of `x mod d` is
`[d, d]`, which contains no remainder at all. -/
theorem C10_modulo_unsound (d x : ℚ) (hd : 0 < d) : ∃ r,
    bareRange .modulo [⟨x, x⟩, ⟨d, d⟩] = .ok (some r) ∧ ∀ y, Means .modulo [x, d] y → ¬ r.Has y := by
  refine ⟨⟨d, d⟩, rfl, ?_⟩
  rintro y ⟨_, rfl⟩ ⟨h1, _⟩
  change d ≤ _ at h1
  have h2 : x / d < ⌊x / d⌋ + 1 := Int.lt_floor_add_one _
  rw [div_lt_iff₀ hd] at h2
  linarith [mul_comm d (⌊x / d⌋ : ℚ)]

/-- C10 fails for RawExponentExtraction in every format with a non-zero bias: the reported range of the biased exponent of any
non-zero constant does not contain it. -/
theorem C10_raw_exponent_unsound (bias : ℤ) (hb : bias ≠ 0) (x : ℚ) (hx : x ≠ 0) : ∃ r,
    bareRange (.rawExpExtract bias) [⟨x, x⟩] = .ok (some r) ∧ ∀ y, Means (.rawExpExtract bias) [x] y → ¬ r.Has y := by
  have key : ivExp ⟨x, x⟩ = some ⟨(Int.log 2 |x| : ℤ), (Int.log 2 |x| : ℤ)⟩ := by
    unfold ivExp ivAbs Iv.neg
    dsimp only
    rcases lt_or_gt_of_ne hx with h | h
    · rw [if_neg (show ¬ 0 ≤ x by linarith), if_pos h.le]
      dsimp only
      rw [if_neg (by linarith), abs_of_neg h]
    · rw [if_pos h.le]
      dsimp only
      rw [if_neg (by linarith), abs_of_pos h]
  refine ⟨_, congrArg Except.ok key, ?_⟩
  rintro y ⟨_, rfl⟩ ⟨h1, h2⟩
  change ((Int.log 2 |x| : ℤ) : ℚ) ≤ _ at h1
  change _ ≤ ((Int.log 2 |x| : ℤ) : ℚ) at h2
  have h3 : Int.log 2 |x| ≤ Int.log 2 |x| + bias := by exact_mod_cast h1
  have h4 : Int.log 2 |x| + bias ≤ Int.log 2 |x| := by exact_mod_cast h2
  omega

/-- C10 fails for DotProductNegate: its range evaluation raises on all four-interval inputs, although the operation has a value
and the same evaluation of DotProduct succeeds. -/
theorem C10_dot_product_negate_raises (a b c d : Iv ℚ) :
    rangeFunction (.fma .dotProductNegate) [some a, some b, some c, some d] = .error .nameError ∧
    ∃ r, rangeFunction (.fma .dotProduct) [some a, some b, some c, some d] = .ok (some r) := ⟨rfl, _, rfl⟩

end Verif.Range
