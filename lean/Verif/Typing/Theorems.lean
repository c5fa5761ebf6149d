import Verif.Typing.Model
import Mathlib.Tactic.Positivity
import Mathlib.Tactic.NormNum
import Mathlib.Tactic.Zify
import Mathlib.Data.List.Nodup

/-! # C87: the formats given to the nodes of an operation graph -/

namespace Verif.Typing

open Verif.Float (Fmt)

/-! ## Formats of integers -/

/-- C87: the format chosen for an interval of integers holds all of them if and only if 64 bits are enough -/
theorem C87_integer_format (lo hi : ℤ) (h : lo ≤ hi) :
    (∀ k : ℤ, lo ≤ k → k ≤ hi → (integerFormat (some (lo, hi))).holds k) ↔ (lo < 0 → -2 ^ 63 ≤ lo ∧ hi < 2 ^ 63) ∧ (0 ≤ lo → hi < 2 ^ 64) := by
  have inj : ∀ a b : ℤ, ((a : ℚ) = b) → a = b := fun a b h => by exact_mod_cast h
  constructor
  · intro hk
    have e1 := hk lo le_rfl h
    have e2 := hk hi h le_rfl
    unfold integerFormat at e1 e2
    simp only at e1 e2
    refine ⟨fun h0 => ?_, fun h0 => ?_⟩
    · rw [if_pos h0] at e1 e2
      split_ifs at e1 e2
      · obtain ⟨a, ha, b, c⟩ := e1
        obtain ⟨a', ha', b', c'⟩ := e2
        have := inj _ _ ha
        have := inj _ _ ha'
        norm_num at b c b' c' ⊢; omega
      · constructor <;> omega
    · rw [if_neg (by omega)] at e1 e2
      split_ifs at e1 e2
      · obtain ⟨a', ha', b', c'⟩ := e2
        have := inj _ _ ha'
        norm_num at b' c' ⊢; omega
      · omega
  · rintro ⟨h1, h2⟩ k hl hh
    unfold integerFormat
    simp only
    split_ifs with a b c
    · obtain ⟨h3, h4⟩ := h1 a
      exact ⟨k, rfl, by norm_num at h3 h4 ⊢; omega, by norm_num at h3 h4 ⊢; omega⟩
    · exact ⟨k, rfl, by norm_num at b ⊢; omega, by norm_num at b ⊢; omega⟩
    · have h4 := h2 (by omega)
      exact ⟨k, rfl, by omega, by norm_num at h4 ⊢; omega⟩
    · exact ⟨k, rfl, by omega, by norm_num at c ⊢; omega⟩

example : (-5 : ℤ) ≤ 2 ^ 40 := by norm_num

/-- C87: without an interval the format does not hold the integers out of 32 bits -/
theorem C87_integer_format_wrong (k : ℤ) (hk : 2 ^ 31 ≤ k) : ¬ (integerFormat none).holds k := by
  rintro ⟨a, ha, b, c⟩
  have : k = a := by exact_mod_cast ha
  norm_num at c hk
  omega

example : (2 : ℤ) ^ 31 ≤ 2 ^ 52 := by norm_num

/-! ## Merging -/

theorem le_maxBits {args : List T} {t : T} (h : t ∈ args) (hc : t.concrete = true) : t.bits ≤ maxBits args := by
  unfold maxBits
  induction args with
  | nil => cases h
  | cons a as ih =>
    rcases List.mem_cons.1 h with rfl | h
    · rw [List.filter_cons_of_pos hc]; simp
    · by_cases ha : a.concrete = true
      · rw [List.filter_cons_of_pos ha]; simp; right; simpa using ih h
      · rw [List.filter_cons_of_neg ha]; exact ih h

theorem maxBits_mem {args : List T} (h : maxBits args ≠ 0) : ∃ t ∈ args, t.concrete = true ∧ t.bits = maxBits args := by
  unfold maxBits at h ⊢
  induction args with
  | nil => simp at h
  | cons a as ih =>
    by_cases ha : a.concrete = true
    · rw [List.filter_cons_of_pos ha] at h ⊢
      simp only [List.map_cons, List.foldr_cons] at h ⊢
      rcases le_total (((as.filter T.concrete).map T.bits).foldr max 0) a.bits with hle | hle
      · exact ⟨a, by simp, ha, by rw [max_eq_left hle]⟩
      · rw [max_eq_right hle] at h ⊢
        obtain ⟨t, h1, h2, h3⟩ := ih h
        exact ⟨t, by simp [h1], h2, h3⟩
    · rw [List.filter_cons_of_neg ha] at h ⊢
      obtain ⟨t, h1, h2, h3⟩ := ih h
      exact ⟨t, by simp [h1], h2, h3⟩

/-- a number of a smaller IEEE format is one of a larger one -/
theorem finite_mono {F G : Fmt} (hf : F.f ≤ G.f) (hmin : G.emin ≤ F.emin - (G.f - F.f)) (hmax : F.emax ≤ G.emax) (hmin' : G.emin ≤ F.emin) {v : ℚ} (h : F.Finite v) : G.Finite v := by
  obtain ⟨m, E, h1, h2, h3, h4⟩ := h
  refine ⟨m * 2 ^ (G.f - F.f), E, ?_, by omega, by omega, ?_⟩
  · rw [abs_mul, abs_of_pos (by positivity : (0 : ℤ) < 2 ^ (G.f - F.f))]
    calc |m| * 2 ^ (G.f - F.f) < 2 ^ (F.f + 1) * 2 ^ (G.f - F.f) := by
          apply mul_lt_mul_of_pos_right h1 (by positivity)
      _ = 2 ^ (G.f + 1) := by rw [← pow_add]; congr 1; omega
  · rw [h4]; push_cast
    rw [← zpow_natCast, mul_assoc, ← zpow_add₀ (by norm_num)]
    congr 2
    rw [Nat.cast_sub hf]; ring

theorem ieee_mono {m n : ℕ} (h : m ≤ n) {F G : Fmt} (hF : ieee m = some F) (hG : ieee n = some G) {v : ℚ} (hv : F.Finite v) : G.Finite v := by
  unfold ieee at hF hG
  split at hF <;> split at hG <;> first | omega | (cases hF; done) | (cases hG; done) | skip
  all_goals
    cases hF; cases hG
    first
      | exact hv
      | exact finite_mono (by norm_num) (by norm_num [Fmt.emin, Fmt.emax]) (by norm_num [Fmt.emax]) (by norm_num [Fmt.emin, Fmt.emax]) hv

/-- C87 (partial): the format of an operation on floating-point operands holds the values of all of them -/
theorem C87_merge_float_partial (args : List T) (t : T) (hfp : ∀ u ∈ args, u.concrete = true → ∃ n, u = .fp n) (h : mergeFloat args = .ok t) :
    ∀ u ∈ args, ∀ v, u.holds v → t.holds v := by
  intro u hu v hv
  have hc : u.concrete = true := by cases u <;> first | rfl | exact hv.elim
  obtain ⟨n, rfl⟩ := hfp u hu hc
  obtain ⟨F, hF, hv⟩ := hv
  unfold mergeFloat at h
  simp only at h
  split_ifs at h with h1 h2
  cases h
  have hle := le_maxBits hu hc
  have hG : ∃ G, ieee (maxBits args) = some G := by rcases h2 with h | h | h <;> rw [h] <;> exact ⟨_, rfl⟩
  obtain ⟨G, hG⟩ := hG
  exact ⟨G, hG, ieee_mono hle hF hG hv⟩

example : mergeFloat [.fp 32, .aFloat, .fp 64] = .ok (.fp 64) ∧ ∀ u ∈ [T.fp 32, .aFloat, .fp 64], u.concrete = true → ∃ n, u = .fp n := by
  refine ⟨rfl, ?_⟩
  intro u hu hc
  simp at hu
  rcases hu with rfl | rfl | rfl
  · exact ⟨_, rfl⟩
  · cases hc
  · exact ⟨_, rfl⟩

theorem not_finite32 : ¬ (⟨8, 23⟩ : Fmt).Finite (2 ^ 24 + 1) := by
  rintro ⟨m, E, h1, h2, h3, h4⟩
  have hm := abs_lt.1 h1
  norm_num [Fmt.emin, Fmt.emax] at h1 h2 h3 hm
  rcases le_or_gt E 23 with hE | hE
  · obtain ⟨k, hk⟩ := Int.eq_ofNat_of_zero_le (show 0 ≤ 23 - E by omega)
    have h5 : ((2 : ℚ) ^ 24 + 1) * 2 ^ k = m := by
      rw [h4, show E - ((23 : ℕ) : ℤ) = -(k : ℤ) by push_cast; omega, zpow_neg, zpow_natCast]
      field_simp
    have h6 : ((2 : ℤ) ^ 24 + 1) * 2 ^ k = m := by exact_mod_cast h5
    have h7 : (1 : ℤ) ≤ 2 ^ k := one_le_pow₀ (by norm_num)
    norm_num at h6
    omega
  · obtain ⟨k, hk⟩ := Int.eq_ofNat_of_zero_le (show 0 ≤ E - 24 by omega)
    have h5 : ((2 : ℚ) ^ 24 + 1) = m * 2 ^ (k + 1) := by
      rw [h4, show E - ((23 : ℕ) : ℤ) = ((k + 1 : ℕ) : ℤ) by push_cast; omega, zpow_natCast]
    have h6 : ((2 : ℤ) ^ 24 + 1) = m * 2 ^ (k + 1) := by exact_mod_cast h5
    have : ((2 : ℤ) ^ 24 + 1) = 2 * (m * 2 ^ k) := by rw [h6, pow_succ]; ring
    norm_num at this
    omega

/-- C87: the format of the operation on a 32-bit integer and a binary32 number, and that on a 64-bit integer and a binary64 one, are those of the latter: they do not hold the integers -/
theorem C87_merge_mixed_wrong : mergeFloat [.ix true 32, .fp 32] = .ok (.fp 32) ∧ (T.ix true 32).holds (2 ^ 24 + 1) ∧ ¬ (T.fp 32).holds (2 ^ 24 + 1) := by
  refine ⟨rfl, ⟨2 ^ 24 + 1, by norm_num, by norm_num, by norm_num⟩, ?_⟩
  rintro ⟨F, hF, hv⟩
  cases hF
  exact not_finite32 hv

theorem anySigned_spec : ∀ (args : List T) (s : Bool), anySigned args = .ok s → (s = false → ∀ u ∈ args, u.concrete = true → ∃ n, u = .ix false n) ∧
    (s = true → ∃ n, T.ix true n ∈ args) := by
  intro args
  induction args with
  | nil => intro s h; cases h; simp
  | cons a as ih =>
    intro s h
    unfold anySigned at h
    by_cases ha : a.concrete = true
    · rw [if_pos ha] at h
      cases a with
      | ix sg n =>
        cases sg with
        | true =>
          simp [signedOf, bind, Except.bind, pure, Except.pure] at h
          subst h
          exact ⟨by simp, fun _ => ⟨n, by simp⟩⟩
        | false =>
          simp [signedOf, bind, Except.bind, pure, Except.pure] at h
          obtain ⟨i1, i2⟩ := ih s h
          refine ⟨fun hs u hu hc => ?_, fun hs => ?_⟩
          · rcases List.mem_cons.1 hu with rfl | hu
            · exact ⟨n, rfl⟩
            · exact i1 hs u hu hc
          · obtain ⟨m, hm⟩ := i2 hs
            exact ⟨m, by simp [hm]⟩
      | _ => simp [signedOf, bind, Except.bind, T.concrete] at h ha
    · rw [if_neg ha] at h
      obtain ⟨i1, i2⟩ := ih s h
      refine ⟨fun hs u hu hc => ?_, fun hs => ?_⟩
      · rcases List.mem_cons.1 hu with rfl | hu
        · exact absurd hc ha
        · exact i1 hs u hu hc
      · obtain ⟨m, hm⟩ := i2 hs
        exact ⟨m, by simp [hm]⟩

/-- C87 (partial): the format of an operation on integers holds the values of all the operands, unless an unsigned one of the largest size is mixed with a signed one -/
theorem C87_merge_int_partial (args : List T) (t : T) (hix : ∀ u ∈ args, u.concrete = true → ∃ s n, u = .ix s n ∧ 1 ≤ n)
    (hmix : (∃ n, T.ix true n ∈ args) → ∀ n, T.ix false n ∈ args → n < maxBits args) (h : mergeInt args = .ok t) : ∀ u ∈ args, ∀ v, u.holds v → t.holds v := by
  intro u hu v hv
  have hc : u.concrete = true := by cases u <;> first | rfl | exact hv.elim
  obtain ⟨su, n, rfl, hn⟩ := hix u hu hc
  unfold mergeInt at h
  cases hs : anySigned args with
  | error e => rw [hs] at h; cases h
  | ok s =>
    rw [hs] at h
    simp only [bind, Except.bind, pure, Except.pure] at h
    split_ifs at h with h1
    cases h
    have hle : n ≤ maxBits args := le_maxBits hu hc
    obtain ⟨i1, i2⟩ := anySigned_spec args s hs
    cases s with
    | false =>
      obtain ⟨m, hm⟩ := i1 rfl _ hu hc
      cases hm
      obtain ⟨k, hk, a, b⟩ := hv
      exact ⟨k, hk, a, lt_of_lt_of_le b (pow_le_pow_right₀ (by norm_num) hle)⟩
    | true =>
      cases su with
      | true =>
        obtain ⟨k, hk, a, b⟩ := hv
        have : (2 : ℤ) ^ (n - 1) ≤ 2 ^ (maxBits args - 1) := pow_le_pow_right₀ (by norm_num) (by omega)
        exact ⟨k, hk, by omega, by omega⟩
      | false =>
        obtain ⟨k, hk, a, b⟩ := hv
        have hlt := hmix (i2 rfl) n hu
        have : (2 : ℤ) ^ n ≤ 2 ^ (maxBits args - 1) := pow_le_pow_right₀ (by norm_num) (by omega)
        have : (0 : ℤ) < 2 ^ (maxBits args - 1) := by positivity
        exact ⟨k, hk, by omega, by omega⟩

example : mergeInt [.ix true 64, .ix false 32, .aInt] = .ok (.ix true 64) := rfl

/-- C87: an operation on a signed and an unsigned integers of the same size is signed: it does not hold half of the values of the second -/
theorem C87_merge_int_wrong (n : ℕ) (hn : n = 32 ∨ n = 64) (k : ℤ) (h1 : 2 ^ (n - 1) ≤ k) (h2 : k < 2 ^ n) :
    mergeInt [.ix false n, .ix true n] = .ok (.ix true n) ∧ (T.ix false n).holds k ∧ ¬ (T.ix true n).holds k := by
  refine ⟨by rcases hn with rfl | rfl <;> rfl, ⟨k, rfl, le_trans (by positivity) h1, h2⟩, ?_⟩
  rintro ⟨a, ha, b, c⟩
  have : k = a := by exact_mod_cast ha
  omega

example : (2 : ℤ) ^ (32 - 1) ≤ 3000000000 ∧ (3000000000 : ℤ) < 2 ^ 32 := by norm_num

/-- C87: an operation on integers of 8 or 16 bits, or on constants only, has no format: the pass fails -/
theorem C87_merge_small_wrong (n : ℕ) (hn : n < 32) (s : Bool) : mergeInt [.ix s n, .ix s n] = .error .keyError ∧ mergeInt [.aInt, .aInt] = .error .keyError ∧
    mergeFloat [.aFloat, .aFloat] = .error .valueError := by
  refine ⟨?_, rfl, rfl⟩
  have : maxBits [.ix s n, .ix s n] = n := by
    show max n (max n 0) = n
    simp
  unfold mergeInt
  rw [this]
  cases s <;> simp [anySigned, signedOf, T.concrete, bind, Except.bind, pure, Except.pure, show ¬ n = 32 by omega, show ¬ n = 64 by omega]

/-! ## The passes -/

/-- a node that is not a variable or a constant -/
def Inner (nd : Node) : Prop := nd.op ≠ .var ∧ ∀ b, nd.op ≠ .cst b

theorem set_same (σ : St) (i : ℕ) (t : Option T) : σ.set i t i = t := by simp [St.set]
theorem set_other (σ : St) {i j : ℕ} (t : Option T) (h : j ≠ i) : σ.set i t j = σ j := by simp [St.set, h]

theorem prop_keep (c : ℕ → Bool) (t : Option T) : ∀ (l : List ℕ) (σ : St) (i : ℕ), (c i = false ∨ ∃ u, σ i = some u ∧ u.concrete = true) → propagate c t l σ i = σ i := by
  intro l
  induction l with
  | nil => intro σ i _; rfl
  | cons a as ih =>
    intro σ i h
    unfold propagate
    have key : (if c a && isAbs (σ a) then σ.set a t else σ) i = σ i := by
      by_cases hai : i = a
      · subst hai
        rcases h with h | ⟨u, h, h'⟩
        · simp [h]
        · simp [h, h', isAbs]
      · split_ifs
        · exact set_other σ t hai
        · rfl
    rw [ih _ i, key]
    rcases h with h | ⟨u, h, h'⟩
    · exact .inl h
    · exact .inr ⟨u, by rw [key]; exact h, h'⟩

theorem prop_set (c : ℕ → Bool) (t : T) (ht : t.concrete = true) : ∀ (l : List ℕ) (σ : St) (i : ℕ), i ∈ l → c i = true → ∀ u, σ i = some u → u.concrete = false → propagate c (some t) l σ i = some t := by
  intro l
  induction l with
  | nil => intro σ i h; cases h
  | cons a as ih =>
    intro σ i hi hc u hu hu'
    unfold propagate
    by_cases hai : i = a
    · subst hai
      have : (c i && isAbs (σ i)) = true := by simp [hc, hu, hu', isAbs]
      rw [if_pos this, prop_keep c _ as _ i (.inr ⟨t, set_same _ _ _, ht⟩), set_same]
    · have hi' : i ∈ as := by rcases List.mem_cons.1 hi with h | h; exacts [absurd h hai, h]
      apply ih _ i hi' hc u _ hu'
      split_ifs
      · rw [set_other σ _ hai]; exact hu
      · exact hu

theorem bind_ok {α β : Type} {x : Except Err α} {f : α → Except Err β} {v : β} (h : (x >>= f) = .ok v) : ∃ a, x = .ok a ∧ f a = .ok v := by
  cases x with
  | error e => cases h
  | ok a => exact ⟨a, rfl, h⟩

theorem mergeOps_concrete {t : T} {args : List T} {r : T} (h : mergeOps t args = .ok r) : r.concrete = true ∧ r.bits = maxBits args := by
  cases t <;> simp only [mergeOps] at h <;> try cases h
  · unfold mergeFloat at h
    simp only at h
    split_ifs at h
    cases h; exact ⟨rfl, rfl⟩
  · unfold mergeInt at h
    obtain ⟨s, _, h⟩ := bind_ok h
    simp only at h
    split_ifs at h
    cases h; exact ⟨rfl, rfl⟩

theorem rule_concrete {σ : St} {nd : Node} {t r : T} (hi : Inner nd) (h : rule σ nd t = .ok r) : r.concrete = true := by
  unfold rule at h
  split at h
  · rename_i e; exact absurd e hi.1
  · rename_i b e; exact absurd e (hi.2 b)
  · obtain ⟨l, _, h⟩ := bind_ok h; exact (mergeOps_concrete h).1
  · obtain ⟨l, _, h⟩ := bind_ok h; exact (mergeOps_concrete h).1
  · obtain ⟨l, _, h⟩ := bind_ok h; exact (mergeOps_concrete h).1
  · cases h; unfold integerFormat; split
    · rfl
    · split_ifs <;> rfl
  · cases h; rfl
  · cases h; rfl

/-- the state after the rule and before the constants -/
theorem inst_form {c : ℕ → Bool} {σ σ' : St} {nd : Node} (h : instStep c σ nd = .ok σ') : ∃ σ1 t l, σ' = propagate c t l σ1 ∧
    ((σ1 = σ ∧ ∀ t, σ nd.id = some t → t.concrete = true) ∨ ∃ t r, σ nd.id = some t ∧ t.concrete = false ∧ rule σ nd t = .ok r ∧ σ1 = σ.set nd.id (some r)) ∧
    (nd.op = .arith true → t = σ1 nd.id ∧ l = nd.args) := by
  unfold instStep at h
  obtain ⟨σ1, h1, h2⟩ := bind_ok h
  have A : (σ1 = σ ∧ ∀ t, σ nd.id = some t → t.concrete = true) ∨ ∃ t r, σ nd.id = some t ∧ t.concrete = false ∧ rule σ nd t = .ok r ∧ σ1 = σ.set nd.id (some r) := by
    split at h1
    · rename_i t ht
      split_ifs at h1 with hc
      · cases h1; left; exact ⟨rfl, fun t' ht' => by rw [ht] at ht'; cases ht'; exact hc⟩
      · obtain ⟨r, h3, h4⟩ := bind_ok h1
        cases h4
        right
        exact ⟨t, r, ht, by simpa using hc, h3, rfl⟩
    · rename_i ht; cases h1; left; exact ⟨rfl, fun t' ht' => by rw [ht] at ht'; cases ht'⟩
  split at h2
  · cases h2; exact ⟨σ1, _, _, rfl, A, fun _ => ⟨rfl, rfl⟩⟩
  · rename_i e; cases h2; exact ⟨σ1, _, _, rfl, A, fun h => by rw [e] at h; cases h⟩
  · rename_i e; cases h2; exact ⟨σ1, _, _, rfl, A, fun h => by rw [e] at h; cases h⟩
  · rename_i e
    obtain ⟨l, _, h3⟩ := bind_ok h2
    obtain ⟨m, _, h4⟩ := bind_ok h3
    cases h4
    exact ⟨σ1, _, _, rfl, A, fun h => by rw [e] at h; cases h⟩
  · rename_i e1 e2 e3 e4
    exact ⟨σ1, none, [], (Except.ok.inj h2).symm, A, fun h => absurd h e1⟩

theorem inst_keep {c : ℕ → Bool} {σ σ' : St} {nd : Node} (h : instStep c σ nd = .ok σ') (i : ℕ) (u : T) (hu : σ i = some u) (hc : u.concrete = true) : σ' i = some u := by
  obtain ⟨σ1, t, l, e, A, _⟩ := inst_form h
  have h1 : σ1 i = some u := by
    rcases A with ⟨rfl, _⟩ | ⟨t, r, a, b, _, rfl⟩
    · exact hu
    · by_cases hi : i = nd.id
      · subst hi; rw [hu] at a; cases a; rw [hc] at b; cases b
      · rw [set_other _ _ hi]; exact hu
  rw [e, prop_keep c t l σ1 i (.inr ⟨u, h1, hc⟩), h1]

theorem inst_other {c : ℕ → Bool} {σ σ' : St} {nd : Node} (h : instStep c σ nd = .ok σ') (i : ℕ) (hi : i ≠ nd.id) (hc : c i = false) : σ' i = σ i := by
  obtain ⟨σ1, t, l, e, A, _⟩ := inst_form h
  rw [e, prop_keep c t l σ1 i (.inl hc)]
  rcases A with ⟨rfl, _⟩ | ⟨t, r, a, b, _, rfl⟩
  · rfl
  · exact set_other _ _ hi

theorem inst_done {c : ℕ → Bool} {σ σ' : St} {nd : Node} (h : instStep c σ nd = .ok σ') (hi : Inner nd) (hs : ∃ t, σ nd.id = some t) : ∃ t, σ' nd.id = some t ∧ t.concrete = true := by
  obtain ⟨σ1, t, l, e, A, _⟩ := inst_form h
  have h1 : ∃ t, σ1 nd.id = some t ∧ t.concrete = true := by
    rcases A with ⟨rfl, h⟩ | ⟨t, r, a, b, hr, rfl⟩
    · obtain ⟨t, ht⟩ := hs; exact ⟨t, ht, h t ht⟩
    · exact ⟨r, set_same _ _ _, rule_concrete hi hr⟩
  obtain ⟨u, h1, h2⟩ := h1
  exact ⟨u, by rw [e, prop_keep c t l σ1 _ (.inr ⟨u, h1, h2⟩), h1], h2⟩

theorem pass_keep {c : ℕ → Bool} : ∀ (g : List Node) (σ σ' : St), instPass c σ g = .ok σ' → ∀ i u, σ i = some u → u.concrete = true → σ' i = some u := by
  intro g
  induction g with
  | nil => intro σ σ' h i u hu _; cases h; exact hu
  | cons nd g ih =>
    intro σ σ' h i u hu hc
    unfold instPass at h
    rw [List.foldlM_cons] at h
    obtain ⟨σ1, h1, h2⟩ := bind_ok h
    exact ih σ1 σ' h2 i u (inst_keep h1 i u hu hc) hc

theorem pass_done {c : ℕ → Bool} : ∀ (g : List Node) (σ σ' : St), instPass c σ g = .ok σ' → (∀ nd ∈ g, Inner nd → c nd.id = false ∧ ∃ t, σ nd.id = some t) →
    ∀ nd ∈ g, Inner nd → ∃ t, σ' nd.id = some t ∧ t.concrete = true := by
  intro g
  induction g with
  | nil => intro σ σ' h _ nd hnd; cases hnd
  | cons n0 g ih =>
    intro σ σ' h hs nd hnd hi
    unfold instPass at h
    rw [List.foldlM_cons] at h
    obtain ⟨σ1, h1, h2⟩ := bind_ok h
    have hsome : ∀ nd ∈ n0 :: g, Inner nd → c nd.id = false ∧ ∃ t, σ1 nd.id = some t := by
      intro m hm him
      obtain ⟨a, b⟩ := hs m hm him
      refine ⟨a, ?_⟩
      by_cases hid : m.id = n0.id
      · obtain ⟨sg, t, l, e, A, _⟩ := inst_form h1
        rw [e, prop_keep c t l sg _ (.inl a)]
        rcases A with ⟨rfl, _⟩ | ⟨t, r, _, _, _, rfl⟩
        · exact b
        · rw [hid]; exact ⟨r, set_same _ _ _⟩
      · rw [inst_other h1 _ hid a]; exact b
    rcases List.mem_cons.1 hnd with rfl | hnd
    · obtain ⟨t, ht, htc⟩ := inst_done h1 hi (hs nd (by simp) hi).2
      exact ⟨t, pass_keep g σ1 σ' h2 _ t ht htc, htc⟩
    · exact ih σ1 σ' h2 (fun m hm => hsome m (by simp [hm])) nd hnd hi

theorem abs_form {d : Option T} {σ σ' : St} {nd : Node} (h : absStep d σ nd = .ok σ') : (σ' = σ ∧ ∃ t, σ nd.id = some t) ∨ (σ nd.id = none ∧ ∃ t, σ' = σ.set nd.id (some t)) := by
  unfold absStep at h
  split at h
  · rename_i t ht; cases h; exact .inl ⟨rfl, t, ht⟩
  · rename_i hn
    right
    refine ⟨hn, ?_⟩
    split at h
    · cases h
    · cases h; exact ⟨_, rfl⟩
    · obtain ⟨l, _, h⟩ := bind_ok h; obtain ⟨t, _, h⟩ := bind_ok h; cases h; exact ⟨_, rfl⟩
    · obtain ⟨l, _, h⟩ := bind_ok h; obtain ⟨t, _, h⟩ := bind_ok h; cases h; exact ⟨_, rfl⟩
    all_goals cases h; exact ⟨_, rfl⟩

theorem abs_pass {d : Option T} : ∀ (g : List Node) (σ σ' : St), absPass d σ g = .ok σ' → (∀ i u, σ i = some u → σ' i = some u) ∧ ∀ nd ∈ g, ∃ t, σ' nd.id = some t := by
  intro g
  induction g with
  | nil => intro σ σ' h; cases h; exact ⟨fun _ _ h => h, by simp⟩
  | cons nd g ih =>
    intro σ σ' h
    unfold absPass at h
    rw [List.foldlM_cons] at h
    obtain ⟨σ1, h1, h2⟩ := bind_ok h
    obtain ⟨i1, i2⟩ := ih σ1 σ' h2
    have k : (∀ i u, σ i = some u → σ1 i = some u) ∧ ∃ t, σ1 nd.id = some t := by
      rcases abs_form h1 with ⟨rfl, ht⟩ | ⟨hn, t, rfl⟩
      · exact ⟨fun _ _ h => h, ht⟩
      · refine ⟨fun i u hu => ?_, t, set_same _ _ _⟩
        by_cases hi : i = nd.id
        · subst hi; rw [hn] at hu; cases hu
        · rw [set_other _ _ hi]; exact hu
    refine ⟨fun i u hu => i1 i u (k.1 i u hu), fun m hm => ?_⟩
    rcases List.mem_cons.1 hm with rfl | hm
    · obtain ⟨t, ht⟩ := k.2; exact ⟨t, i1 _ _ ht⟩
    · exact i2 m hm

/-- C87: the passes keep the formats that are given, and give one that is not abstract to every operation -/
theorem C87_all_typed (d : Option T) (c : ℕ → Bool) (σ0 σ1 σ2 : St) (g : List Node) (hc : ∀ nd ∈ g, Inner nd → c nd.id = false) (h1 : absPass d σ0 g = .ok σ1)
    (h2 : instPass c σ1 g = .ok σ2) :
    (∀ i t, σ0 i = some t → t.concrete = true → σ2 i = some t) ∧ ∀ nd ∈ g, Inner nd → ∃ t, σ2 nd.id = some t ∧ t.concrete = true := by
  obtain ⟨k1, k2⟩ := abs_pass g σ0 σ1 h1
  exact ⟨fun i t h hc => pass_keep g σ1 σ2 h2 i t (k1 i t h) hc, pass_done g σ1 σ2 h2 fun nd hnd hi => ⟨hc nd hnd hi, k2 nd hnd⟩⟩

theorem formats_mem {σ : St} : ∀ {l : List ℕ} {ts : List T}, formats σ l = .ok ts → ∀ i ∈ l, ∃ t ∈ ts, σ i = some t := by
  intro l
  induction l with
  | nil => intro ts h i hi; cases hi
  | cons a as ih =>
    intro ts h i hi
    unfold formats at h
    split at h
    · cases h
    · rename_i t ht
      obtain ⟨l, h1, h2⟩ := bind_ok h
      cases h2
      rcases List.mem_cons.1 hi with rfl | hi
      · exact ⟨t, by simp, ht⟩
      · obtain ⟨u, hu, hu'⟩ := ih h1 i hi
        exact ⟨u, by simp [hu], hu'⟩

theorem foldlM_append' {c : ℕ → Bool} (a b : List Node) (σ σ' : St) (h : instPass c σ (a ++ b) = .ok σ') : ∃ σa, instPass c σ a = .ok σa ∧ instPass c σa b = .ok σ' := by
  unfold instPass at *
  rw [List.foldlM_append] at h
  exact bind_ok h

/-- C87: the operands of an arithmetic operation whose format is left to the passes, including its constants, end up with formats that are not abstract nor larger than that of the operation -/
theorem C87_operands_fit (d : Option T) (c : ℕ → Bool) (σ0 σ1 σ2 : St) (pre post : List Node) (nd : Node) (hop : nd.op = .arith true)
    (hc : ∀ m ∈ pre ++ nd :: post, Inner m → c m.id = false) (hid : ∀ m ∈ pre, m.id ≠ nd.id)
    (hargs : ∀ a ∈ nd.args, c a = true ∨ (∃ t, σ0 a = some t ∧ t.concrete = true) ∨ ∃ m ∈ pre, m.id = a ∧ Inner m)
    (h1 : absPass d σ0 (pre ++ nd :: post) = .ok σ1) (habs : ∀ t, σ1 nd.id = some t → t.concrete = false) (h2 : instPass c σ1 (pre ++ nd :: post) = .ok σ2) :
    ∃ t, σ2 nd.id = some t ∧ t.concrete = true ∧ ∀ a ∈ nd.args, ∃ u, σ2 a = some u ∧ u.concrete = true ∧ u.bits ≤ t.bits := by
  obtain ⟨k1, k2⟩ := abs_pass _ σ0 σ1 h1
  obtain ⟨σa, ha, hb⟩ := foldlM_append' pre (nd :: post) σ1 σ2 h2
  have hinner : Inner nd := ⟨by rw [hop]; simp, by rw [hop]; simp⟩
  have hcn : c nd.id = false := hc nd (by simp) hinner
  unfold instPass at hb
  rw [List.foldlM_cons] at hb
  obtain ⟨σb, hb1, hb2⟩ := bind_ok hb
  -- the format of the node is still abstract
  have hother : ∀ (g : List Node) (σ σ' : St), (∀ m ∈ g, m.id ≠ nd.id) → instPass c σ g = .ok σ' → σ' nd.id = σ nd.id := by
    intro g
    induction g with
    | nil => intro σ σ' _ h; cases h; rfl
    | cons m g ih =>
      intro σ σ' hm h
      unfold instPass at h
      rw [List.foldlM_cons] at h
      obtain ⟨s, e1, e2⟩ := bind_ok h
      rw [ih s σ' (fun x hx => hm x (by simp [hx])) e2, inst_other e1 nd.id (fun h => hm m (by simp) h.symm) hcn]
  obtain ⟨t1, ht1⟩ := k2 nd (by simp)
  have hna : σa nd.id = some t1 := by rw [hother pre σ1 σa hid ha]; exact ht1
  have ht1c := habs t1 ht1
  obtain ⟨σs, t, l, e, A, P⟩ := inst_form hb1
  obtain ⟨rfl, rfl⟩ := P hop
  rcases A with ⟨_, hA⟩ | ⟨t', r, e1, _, hr, rfl⟩
  · rw [hA t1 hna] at ht1c; cases ht1c
  · rw [hna] at e1
    cases e1
    have hr' := hr
    unfold rule at hr'
    rw [hop] at hr'
    obtain ⟨ts, hf, hm⟩ := bind_ok hr'
    obtain ⟨hrc, hrb⟩ := mergeOps_concrete hm
    rw [set_same] at e
    have hbn : σb nd.id = some r := by
      rw [e, prop_keep c _ _ _ _ (.inr ⟨r, set_same _ _ _, hrc⟩), set_same]
    refine ⟨r, pass_keep post σb σ2 hb2 _ r hbn hrc, hrc, ?_⟩
    intro a ha'
    have hfin : ∃ u, σb a = some u ∧ u.concrete = true ∧ u.bits ≤ r.bits := by
      by_cases han : a = nd.id
      · subst han; exact ⟨r, hbn, hrc, le_rfl⟩
      · obtain ⟨u, hu, hu'⟩ := formats_mem hf a ha'
        have hset : (σa.set nd.id (some r)) a = some u := by rw [set_other _ _ han]; exact hu'
        by_cases huc : u.concrete = true
        · refine ⟨u, ?_, huc, ?_⟩
          · rw [e, prop_keep c _ _ _ _ (.inr ⟨u, hset, huc⟩), hset]
          · rw [hrb]; exact le_maxBits hu huc
        · have hca : c a = true := by
            rcases hargs a ha' with h | ⟨t, h, h'⟩ | ⟨m, hm, hma, him⟩
            · exact h
            · exfalso
              have := pass_keep pre σ1 σa ha a t (k1 a t h) h'
              rw [hu'] at this; cases this; exact huc h'
            · exfalso
              obtain ⟨t, h, h'⟩ := pass_done pre σ1 σa ha (fun x hx hix => ⟨hc x (by simp [hx]) hix, k2 x (by simp [hx])⟩) m hm him
              rw [hma, hu'] at h; cases h; exact huc h'
          refine ⟨r, ?_, hrc, le_rfl⟩
          rw [e]
          exact prop_set c r hrc nd.args _ a ha' hca u hset (by simpa using huc)
    obtain ⟨u, a1, a2, a3⟩ := hfin
    exact ⟨u, pass_keep post σb σ2 hb2 a u a1 a2, a2, a3⟩

/-- two variables, of 32 and 64 bits, a constant, and the sums of the constant and of each variable -/
def sample : List Node := [⟨0, .var, []⟩, ⟨1, .var, []⟩, ⟨2, .cst false, []⟩, ⟨3, .arith true, [0, 2]⟩, ⟨4, .arith true, [1, 2]⟩]
def sampleSt : St := fun i => if i = 0 then some (.fp 32) else if i = 1 then some (.fp 64) else none

theorem sample_abs : ∃ σ1, absPass none sampleSt sample = .ok σ1 ∧ σ1 0 = some (.fp 32) ∧ σ1 1 = some (.fp 64) ∧ σ1 2 = some .aFloat ∧ σ1 3 = some .aFloat ∧ σ1 4 = some .aFloat :=
  ⟨_, rfl, rfl, rfl, rfl, rfl, rfl⟩

/-- the hypotheses of `C87_operands_fit` for the first sum -/
example : ∃ σ1 σ2, absPass none sampleSt ([⟨0, .var, []⟩, ⟨1, .var, []⟩, ⟨2, .cst false, []⟩] ++ ⟨3, .arith true, [0, 2]⟩ :: [⟨4, .arith true, [1, 2]⟩]) = .ok σ1 ∧
    (∀ t, σ1 3 = some t → t.concrete = false) ∧ instPass (fun i => i == 2) σ1 sample = .ok σ2 := by
  refine ⟨_, _, rfl, ?_, rfl⟩
  intro t ht
  have : some T.aFloat = some t := ht
  cases this; rfl

/-- C87: a constant takes the format of the first operation that uses it: a sum in binary64 gets a constant of binary32, which does not hold its value -/
theorem C87_shared_constant_wrong : ∃ σ1 σ2, absPass none sampleSt sample = .ok σ1 ∧ instPass (fun i => i == 2) σ1 sample = .ok σ2 ∧
    σ2 4 = some (.fp 64) ∧ σ2 2 = some (.fp 32) ∧ (T.fp 64).holds (2 ^ 24 + 1) ∧ ¬ (T.fp 32).holds (2 ^ 24 + 1) := by
  refine ⟨_, _, rfl, rfl, rfl, rfl, ⟨_, rfl, 2 ^ 24 + 1, 52, by norm_num, by norm_num [Fmt.emin, Fmt.emax], by norm_num [Fmt.emax], by norm_num⟩, ?_⟩
  rintro ⟨F, hF, hv⟩
  cases hF
  exact not_finite32 hv

/-- C87: the constant compared with an integer of 16 bits loses its format, and that compared with an unsigned integer is unsigned whatever its value -/
theorem C87_comparison_constant_wrong :
    (∃ σ1 σ2, absPass none (fun i => if i = 0 then some (.ix true 16) else none) [⟨0, .var, []⟩, ⟨1, .cst true, []⟩, ⟨2, .cmp, [0, 1]⟩] = .ok σ1 ∧
      instPass (fun i => i == 1) σ1 [⟨0, .var, []⟩, ⟨1, .cst true, []⟩, ⟨2, .cmp, [0, 1]⟩] = .ok σ2 ∧ σ1 1 = some .aInt ∧ σ2 1 = none) ∧
    (∃ σ1 σ2, absPass none (fun i => if i = 0 then some (.ix false 32) else none) [⟨0, .var, []⟩, ⟨1, .cst true, []⟩, ⟨2, .cmp, [0, 1]⟩] = .ok σ1 ∧
      instPass (fun i => i == 1) σ1 [⟨0, .var, []⟩, ⟨1, .cst true, []⟩, ⟨2, .cmp, [0, 1]⟩] = .ok σ2 ∧ σ2 1 = some (.ix false 32) ∧ ¬ (T.ix false 32).holds (-1)) := by
  refine ⟨⟨_, _, rfl, rfl, rfl, rfl⟩, ⟨_, _, rfl, rfl, rfl, ?_⟩⟩
  rintro ⟨k, hk, h0, _⟩
  have : (0 : ℚ) ≤ k := by exact_mod_cast h0
  linarith

end Verif.Typing
