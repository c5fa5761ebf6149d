import Verif.Elem.Rel
import Verif.Float.Theorems
import Verif.Check.Theorems
import Verif.Search.Spec
import Verif.Search.Model

/-! # C95: the search of a threshold by dichotomy -/

namespace Verif.Search

open Verif.Float (Fmt fpNext)
open Verif.Check Verif.Elem

theorem rn_le_ru (F : Fmt) (x : ℝ) : (roundUnb F .RN x : ℝ) ≤ roundUnb F .RU x :=
  ru_between_le (roundUnb_unb F .RU x) (le_ru F x)

theorem mid_gt (F : Fmt) {l r : ℚ} (h : l < r) : l < midPoint F l r := by
  have h1 := le_ru F (((l + r) / 2 : ℚ) : ℝ)
  have h2 : (l + r) / 2 ≤ midPoint F l r := by unfold midPoint; exact_mod_cast h1
  linarith

theorem mid_le {F : Fmt} {l r : ℚ} (hr : Unbounded F r) (h : l < r) : midPoint F l r ≤ r := by
  have h1 := ru_le (x := (((l + r) / 2 : ℚ) : ℝ)) hr (by exact_mod_cast (by linarith : (l + r) / 2 ≤ r))
  unfold midPoint; exact_mod_cast h1

/-- the invariant of the loop -/
theorem loop_inv {F : Fmt} (f : ℝ → ℝ) (limit : ℝ) : ∀ (n : ℕ) (s l r e x : ℚ), Unbounded F r → l < r → s ≤ l → r ≤ e →
    (l = s ∨ ¬ reached F f limit l) → reached F f limit r → loop F f limit n l r = some x →
    ∃ r', Unbounded F r' ∧ x < r' ∧ s ≤ x ∧ r' ≤ e ∧ (x = s ∨ ¬ reached F f limit x) ∧ reached F f limit r' ∧ fpNext F x = some r' := by
  intro n
  induction n with
  | zero => intro s l r e x _ _ _ _ _ _ h; simp [loop] at h
  | succ n ih =>
    intro s l r e x hu hlt hs he hl hr h
    rw [loop] at h
    by_cases h1 : l = r ∨ fpNext F l = some r
    · rw [if_pos h1] at h
      obtain rfl : l = x := by simpa using h
      rcases h1 with h1 | h1
      · exact absurd h1 hlt.ne
      · exact ⟨r, hu, hlt, hs, he, hl, hr, h1⟩
    · rw [if_neg h1] at h
      have hm := mid_gt F hlt
      have hm2 := mid_le hu hlt
      by_cases h2 : reached F f limit (midPoint F l r)
      · rw [if_pos h2] at h
        exact ih s l _ e x (roundUnb_unb F _ _) hm hs (le_trans hm2 he) hl h2 h
      · rw [if_neg h2] at h
        have hne : midPoint F l r ≠ r := by intro e; rw [e] at h2; exact h2 hr
        exact ih s _ r e x hu (lt_of_le_of_ne hm2 hne) (by linarith) he (Or.inr h2) hr h

/-- **C95 (partial).** A search that ends returns a number `x` whose `fp_next` is a number `r` between the bounds where the function rounded *upwards* reaches
the limit, and at `x` itself it does not, unless `x` is the start point. Missing: this is the number before the documented one and another rounding
(`C95_result_wrong`), and the search may not end (`C95_endless_wrong`). -/
theorem C95_search_partial {F : Fmt} {f : ℝ → ℝ} {limit : ℝ} {s e : ℚ} (he : Unbounded F e) (ha : Asserts F f limit s e) {n : ℕ} {x : ℚ}
    (h : loop F f limit n s e = some x) :
    ∃ r, fpNext F x = some r ∧ s ≤ x ∧ x < r ∧ r ≤ e ∧ (x = s ∨ (roundUnb F .RU (f x) : ℝ) < limit) ∧ limit ≤ (roundUnb F .RU (f r) : ℝ) := by
  obtain ⟨h1, h2, h3⟩ := ha
  obtain ⟨r, a, b, c, d, g, i, j⟩ := loop_inv f limit n s s e e x he h3 le_rfl le_rfl (Or.inl rfl) (le_trans h2 (rn_le_ru F _)) h
  refine ⟨r, j, c, b, d, ?_, i⟩
  rcases g with g | g
  · exact Or.inl g
  · exact Or.inr (not_le.1 g)

/-- **C95, disagreement.** The documented result is a number where the function, rounded, reaches the limit. Whatever the function, the bounds and the format,
no search that ends returns such a number: rounded to nearest, and already rounded upwards unless the start point is returned, the function is below the
limit there. -/
theorem C95_result_wrong {F : Fmt} (hf : 1 ≤ F.f) {f : ℝ → ℝ} {limit : ℝ} {s e : ℚ} (he : Unbounded F e) (ha : Asserts F f limit s e) {n : ℕ} {x : ℚ}
    (h : loop F f limit n s e = some x) : (roundUnb F .RN (f x) : ℝ) < limit ∧ ¬ IsThreshold F f limit s e x := by
  have h1 : (roundUnb F .RN (f x) : ℝ) < limit := by
    obtain ⟨r, _, _, _, _, g, _⟩ := C95_search_partial he ha h
    rcases g with g | g
    · rw [g]; exact ha.1
    · exact lt_of_le_of_lt (rn_le_ru F _) g
  refine ⟨h1, ?_⟩
  rintro ⟨_, _, _, ⟨v, hv, hl⟩, _⟩
  have : v = roundUnb F .RN (f x) := nearest_unique hf hv
  rw [this] at hl
  linarith

/-- **C95, disagreement.** The search does not end if it starts at a power of two (the error function is searched from `1.0` and the gamma function from `2`)
and the limit is reached by all the numbers above it: `fp_next` of a power of two is that power of two, so that the loop never sees adjacent bounds. -/
theorem C95_endless_wrong {F : Fmt} (he : 2 ≤ F.e) (hf : 1 ≤ F.f) {f : ℝ → ℝ} {limit : ℝ} {k : ℤ} (h1 : F.emin ≤ k) (h2 : k ≤ F.emax)
    (hr : ∀ q : ℚ, Unbounded F q → (2 : ℚ) ^ k < q → limit ≤ (roundUnb F .RU (f q) : ℝ)) :
    ∀ (n : ℕ) (e : ℚ), Unbounded F e → (2 : ℚ) ^ k < e → loop F f limit n ((2 : ℚ) ^ k) e = none := by
  intro n
  induction n with
  | zero => intro e _ _; rfl
  | succ n ih =>
    intro e hu hlt
    have hn := (Float.C60_next_of_power_is_stuck F he hf k h1 h2).1
    rw [loop, if_neg (by rw [hn]; simp [hlt.ne]), if_pos (show reached F f limit (midPoint F _ e) from hr _ (roundUnb_unb F .RU _) (mid_gt F hlt))]
    exact ih _ (roundUnb_unb F _ _) (mid_gt F hlt)

/-- the hypotheses of `C95_endless_wrong` are met, with the assertions of the search: the identity, from 1 to 2, up to the number after 1 of binary32 -/
example : Asserts ⟨8, 23⟩ (fun x => x) (1 + (2 : ℝ) ^ (-23 : ℤ)) 1 2 ∧ ∀ n, loop ⟨8, 23⟩ (fun x => x) (1 + (2 : ℝ) ^ (-23 : ℤ)) n 1 2 = none := by
  have hpos : (0 : ℝ) < (2 : ℝ) ^ (-23 : ℤ) := by norm_num
  have hu1 : Unbounded ⟨8, 23⟩ 1 := by simpa using unb_int (F := ⟨8, 23⟩) (by decide) (n := 1) (by norm_num)
  have hu2 : Unbounded ⟨8, 23⟩ 2 := by simpa using unb_int (F := ⟨8, 23⟩) (by decide) (n := 2) (by norm_num)
  have e1 : roundUnb ⟨8, 23⟩ .RN (((1 : ℚ) : ℝ)) = 1 := ru_exact hu1
  have e2 : roundUnb ⟨8, 23⟩ .RN (((2 : ℚ) : ℝ)) = 2 := ru_exact hu2
  refine ⟨⟨?_, ?_, by norm_num⟩, ?_⟩
  · rw [e1]; push_cast; linarith
  · rw [e2]; norm_num
  · intro n
    have := C95_endless_wrong (F := ⟨8, 23⟩) (by decide) (by decide) (f := fun x => x) (limit := 1 + (2 : ℝ) ^ (-23 : ℤ)) (k := 0) (by decide) (by decide) ?_ n 2 hu2
      (by norm_num)
    · simpa using this
    · intro q hq hlt
      have h1 : (1 : ℚ) + (2 : ℚ) ^ (-23 : ℤ) ≤ q := by
        obtain ⟨m, E, hm, hE, rfl⟩ := hq
        rw [zpow_zero] at hlt
        simp only at hE hlt ⊢
        have hz : (0 : ℚ) < (2 : ℚ) ^ (E - (23 : ℕ)) := Float.zp _
        have hm' : (m : ℚ) < 2 ^ 24 := by exact_mod_cast (abs_lt.1 hm).2
        have hE0 : 0 ≤ E := by
          by_contra hc
          have : (2 : ℚ) ^ (E - (23 : ℕ)) ≤ (2 : ℚ) ^ (-24 : ℤ) := zpow_le_zpow_right₀ (by norm_num) (by push_cast; omega)
          have h0 : (0 : ℚ) < m := by
            by_contra h0
            have := mul_nonneg (neg_nonneg.2 (not_lt.1 h0)) hz.le
            linarith
          have : (m : ℚ) * (2 : ℚ) ^ (E - (23 : ℕ)) < 2 ^ 24 * (2 : ℚ) ^ (-24 : ℤ) :=
            mul_lt_mul hm' this hz (by norm_num)
          have h9 : (2 : ℚ) ^ 24 * (2 : ℚ) ^ (-24 : ℤ) = 1 := by norm_num
          rw [h9] at this
          exact absurd (lt_trans hlt this) (lt_irrefl _)
        obtain ⟨c, hc⟩ : ∃ c : ℤ, (2 : ℚ) ^ (E - (23 : ℕ)) = c * (2 : ℚ) ^ (-23 : ℤ) := by
          refine ⟨2 ^ E.toNat, ?_⟩
          have : E = (E.toNat : ℤ) := by omega
          push_cast
          rw [← zpow_natCast, ← this, ← zpow_add₀ (by norm_num)]
          congr 1
        rw [hc] at hlt ⊢
        have h3 : ((2 ^ 23 : ℤ) : ℚ) < ((m * c : ℤ) : ℚ) := by push_cast; norm_num at hlt ⊢; linarith
        have h4 : (2 ^ 23 : ℤ) + 1 ≤ m * c := by exact_mod_cast h3
        have h5 : ((2 ^ 23 : ℤ) : ℚ) + 1 ≤ ((m * c : ℤ) : ℚ) := by exact_mod_cast h4
        push_cast at h5
        norm_num at h5 ⊢
        linarith
      have h2 := le_ru ⟨8, 23⟩ ((q : ℚ) : ℝ)
      have h3 : (1 : ℝ) + (2 : ℝ) ^ (-23 : ℤ) ≤ ((q : ℚ) : ℝ) := by
        have : (((1 : ℚ) + (2 : ℚ) ^ (-23 : ℤ) : ℚ) : ℝ) ≤ ((q : ℚ) : ℝ) := by exact_mod_cast h1
        push_cast at this; exact this
      exact le_trans h3 h2

/-- the middle of two numbers of one binade -/
theorem mid_grid {F : Fmt} {E : ℤ} (hE : F.emin ≤ E) {a b : ℤ} (ha : 2 ^ F.f ≤ a) (hab : a < b) (hb : b ≤ 2 ^ (F.f + 1)) :
    midPoint F (a * (2 : ℚ) ^ (E - F.f)) (b * (2 : ℚ) ^ (E - F.f)) = ((a + b + 1) / 2 : ℤ) * (2 : ℚ) ^ (E - F.f) := by
  have hq : (0 : ℝ) < (2 : ℝ) ^ (E - F.f) := r2 _
  have h2p : (0 : ℤ) < 2 ^ F.f := by positivity
  have ha' : ((2 ^ F.f : ℤ) : ℝ) ≤ (a : ℝ) := by exact_mod_cast ha
  have hab' : (a : ℝ) < (b : ℝ) := by exact_mod_cast hab
  have hb' : (b : ℝ) ≤ ((2 ^ (F.f + 1) : ℤ) : ℝ) := by exact_mod_cast hb
  push_cast at ha' hb'
  have hz : (((a * (2 : ℚ) ^ (E - F.f) + b * (2 : ℚ) ^ (E - F.f)) / 2 : ℚ) : ℝ) = ((a : ℝ) + b) / 2 * (2 : ℝ) ^ (E - F.f) := by
    push_cast; ring
  have e1 : (2 : ℝ) ^ F.f * (2 : ℝ) ^ (E - F.f) = (2 : ℝ) ^ E := by
    rw [← zpow_natCast, ← r2add]; congr 1; ring
  have e2 : (2 : ℝ) ^ (F.f + 1) * (2 : ℝ) ^ (E - F.f) = (2 : ℝ) ^ (E + 1) := by
    rw [← zpow_natCast, ← r2add]; congr 1; push_cast; ring
  have hpos : 0 < ((a : ℝ) + b) / 2 * (2 : ℝ) ^ (E - F.f) := by
    have : (0 : ℝ) < (2 : ℝ) ^ F.f := by positivity
    have : (0 : ℝ) < ((a : ℝ) + b) / 2 := by linarith
    positivity
  have hlog : Int.log 2 |((a : ℝ) + b) / 2 * (2 : ℝ) ^ (E - F.f)| = E := by
    apply log_eqR
    · rw [abs_of_pos hpos, ← e1]; exact mul_le_mul_of_nonneg_right (by linarith) hq.le
    · rw [abs_of_pos hpos, ← e2]; exact mul_lt_mul_of_pos_right (by linarith) hq
  have hlp : lastPlace F (((a : ℝ) + b) / 2 * (2 : ℝ) ^ (E - F.f)) = E - F.f := by unfold lastPlace; rw [hlog, max_eq_left hE]
  unfold midPoint
  rw [hz]
  unfold roundUnb
  rw [if_neg hpos.ne', hlp]
  congr 2
  rw [mul_div_assoc, div_self hq.ne', mul_one]
  change ⌈((a : ℝ) + b) / 2⌉ = _
  rw [Int.ceil_eq_iff]
  have h3 : 2 * ((a + b + 1) / 2) ≤ a + b + 1 ∧ a + b ≤ 2 * ((a + b + 1) / 2) := by omega
  have h4 : (2 : ℝ) * ((((a + b + 1) / 2 : ℤ)) : ℝ) ≤ (a : ℝ) + b + 1 := by exact_mod_cast h3.1
  have h5 : (a : ℝ) + b ≤ (2 : ℝ) * ((((a + b + 1) / 2 : ℤ)) : ℝ) := by exact_mod_cast h3.2
  constructor <;> linarith

theorem next_grid {F : Fmt} (he : 2 ≤ F.e) {E : ℤ} (hE : F.emin ≤ E) (hE2 : E < F.emax) {a : ℤ} (ha : 2 ^ F.f < a) (hb : a < 2 ^ (F.f + 1)) :
    fpNext F (a * (2 : ℚ) ^ (E - F.f)) = some ((a + 1 : ℤ) * (2 : ℚ) ^ (E - F.f)) := by
  have hq : (0 : ℚ) < (2 : ℚ) ^ (E - F.f) := Float.zp _
  have ha' : ((2 ^ F.f : ℤ) : ℚ) < (a : ℚ) := by exact_mod_cast ha
  have hb' : (a : ℚ) < ((2 ^ (F.f + 1) : ℤ) : ℚ) := by exact_mod_cast hb
  push_cast at ha' hb'
  have e1 : (2 : ℚ) ^ F.f * (2 : ℚ) ^ (E - F.f) = (2 : ℚ) ^ E := by
    rw [← zpow_natCast, ← zpow_add₀ (by norm_num)]; congr 1; ring
  have e2 : (2 : ℚ) ^ (F.f + 1) * (2 : ℚ) ^ (E - F.f) = (2 : ℚ) ^ (E + 1) := by
    rw [← zpow_natCast, ← zpow_add₀ (by norm_num)]; congr 1; push_cast; ring
  have hpos : 0 < (a : ℚ) * (2 : ℚ) ^ (E - F.f) := by
    have : (0 : ℚ) < (2 : ℚ) ^ F.f := by positivity
    have : (0 : ℚ) < a := by linarith
    positivity
  have hul : Float.ulp F (a * (2 : ℚ) ^ (E - F.f)) = (2 : ℚ) ^ (E - F.f) := by
    unfold Float.ulp
    rw [abs_of_pos hpos, Float.clog_eq (k := E)]
    · congr 1; ring
    · rw [← e1]; exact mul_lt_mul_of_pos_right ha' hq
    · rw [← e2]; exact mul_le_mul_of_nonneg_right hb'.le hq.le
  unfold fpNext
  rw [hul, show (a : ℚ) * (2 : ℚ) ^ (E - F.f) + (2 : ℚ) ^ (E - F.f) = ((a + 1 : ℤ) : ℚ) * (2 : ℚ) ^ (E - F.f) by push_cast; ring]
  apply Float.rnd_finite (by omega)
  have h2p : (0 : ℤ) < 2 ^ F.f := by positivity
  by_cases hc : a + 1 = 2 ^ (F.f + 1)
  · refine ⟨2 ^ F.f, E + 1, ?_, by omega, by omega, ?_⟩
    · rw [abs_of_pos h2p, pow_succ]; omega
    · rw [hc]; push_cast
      rw [show E + 1 - (F.f : ℤ) = 1 + (E - F.f) by ring, zpow_add₀ (by norm_num), pow_succ]; norm_num; ring
  · exact ⟨a + 1, E, by rw [abs_of_pos (by omega)]; omega, hE, hE2.le, rfl⟩

/-- **C95.** Between two numbers of one binade, the first of which is not the power of two, the search ends, whatever the function: in at most as many iterations
as there are numbers between them. (With `C95_search_partial`, its result is then determined.) -/
theorem C95_ends {F : Fmt} (he : 2 ≤ F.e) (f : ℝ → ℝ) (limit : ℝ) {E : ℤ} (hE : F.emin ≤ E) (hE2 : E < F.emax) :
    ∀ (n : ℕ) (a b : ℤ), 2 ^ F.f < a → a < b → b ≤ 2 ^ (F.f + 1) → b - a ≤ n → ∃ x, loop F f limit n (a * (2 : ℚ) ^ (E - F.f)) (b * (2 : ℚ) ^ (E - F.f)) = some x := by
  intro n
  induction n with
  | zero => intro a b _ h _ h'; push_cast at h'; omega
  | succ n ih =>
    intro a b ha hab hb hn
    push_cast at hn
    rw [loop]
    by_cases h1 : (a : ℚ) * (2 : ℚ) ^ (E - F.f) = b * (2 : ℚ) ^ (E - F.f) ∨ fpNext F (a * (2 : ℚ) ^ (E - F.f)) = some (b * (2 : ℚ) ^ (E - F.f))
    · rw [if_pos h1]; exact ⟨_, rfl⟩
    · rw [if_neg h1]
      rw [next_grid he hE hE2 ha (by omega)] at h1
      have hne : b ≠ a + 1 := by
        rintro rfl
        exact h1 (Or.inr rfl)
      rw [mid_grid hE ha.le hab hb]
      split_ifs
      · exact ih a _ ha (by omega) (by omega) (by omega)
      · exact ih _ b (by omega) (by omega) hb (by omega)

/-- the hypotheses of `C95_ends` are met: the numbers of binary32 from `1.5` to `2` -/
example : ∃ x, loop ⟨8, 23⟩ (fun x => x * x) 3 (2 ^ 22) ((3 * 2 ^ 22 : ℤ) * (2 : ℚ) ^ ((0 : ℤ) - (23 : ℕ))) ((2 ^ 24 : ℤ) * (2 : ℚ) ^ ((0 : ℤ) - (23 : ℕ))) = some x :=
  C95_ends (F := ⟨8, 23⟩) (by decide) _ _ (E := 0) (by decide) (by decide) (2 ^ 22) (3 * 2 ^ 22) (2 ^ 24) (by norm_num) (by norm_num) (by norm_num) (by norm_num)

/-- **C95, the decreasing variant (partial).** A search that ends returns a number where the function rounded upwards reaches the limit; it is the end point, or
its `fp_next` is the end point, or the function rounded upwards is below the limit at its `fp_next`. Missing: as above, the documented rounding is the one to
nearest, and the search may not end (`C95_mirror_endless_wrong`). -/
theorem C95_mirror_partial {F : Fmt} {f : ℝ → ℝ} {limit : ℝ} {s e : ℚ} (he : Unbounded F e) (ha : AssertsM F f limit s e) {n : ℕ} {x : ℚ}
    (h : loopM F f limit n s e = some x) :
    limit ≤ (roundUnb F .RU (f x) : ℝ) ∧ s ≤ x ∧
      (x = e ∨ ∃ r, fpNext F x = some r ∧ x < r ∧ r ≤ e ∧ (r = e ∨ (roundUnb F .RU (f r) : ℝ) < limit)) := by
  have inv : ∀ (n : ℕ) (l r x : ℚ), Unbounded F r → l ≤ r → s ≤ l → r ≤ e → reached F f limit l → (r = e ∨ ¬ reached F f limit r) →
      loopM F f limit n l r = some x → reached F f limit x ∧ s ≤ x ∧
        (x = e ∨ ∃ r, fpNext F x = some r ∧ x < r ∧ r ≤ e ∧ (r = e ∨ ¬ reached F f limit r)) := by
    intro n
    induction n with
    | zero => intro l r x _ _ _ _ _ _ h; simp [loopM] at h
    | succ n ih =>
      intro l r x hu hle hs hre hl hr h
      rw [loopM] at h
      by_cases h1 : l = r ∨ fpNext F l = some r
      · rw [if_pos h1] at h
        obtain rfl : l = x := by simpa using h
        refine ⟨hl, hs, ?_⟩
        by_cases hlr : l = r
        · left
          rcases hr with hr | hr
          · rw [hlr, hr]
          · rw [hlr] at hl; exact absurd hl hr
        · right
          rcases h1 with h1 | h1
          · exact absurd h1 hlr
          · exact ⟨r, h1, lt_of_le_of_ne hle hlr, hre, hr⟩
      · rw [if_neg h1] at h
        have hlt : l < r := lt_of_le_of_ne hle (fun e => h1 (Or.inl e))
        have hm := mid_gt F hlt
        have hm2 := mid_le hu hlt
        by_cases h2 : reached F f limit (midPoint F l r)
        · rw [if_pos h2] at h
          exact ih _ r x hu hm2 (by linarith) hre h2 hr h
        · rw [if_neg h2] at h
          exact ih l _ x (roundUnb_unb F _ _) hm.le hs (le_trans hm2 hre) hl (Or.inr h2) h
  obtain ⟨a, b, c⟩ := inv n s e x he ha.2.2.le le_rfl le_rfl (le_trans ha.1 (rn_le_ru F _)) (Or.inl rfl) h
  refine ⟨a, b, ?_⟩
  rcases c with c | ⟨r, c1, c2, c3, c4⟩
  · exact Or.inl c
  · refine Or.inr ⟨r, c1, c2, c3, ?_⟩
    rcases c4 with c4 | c4
    · exact Or.inl c4
    · exact Or.inr (not_le.1 c4)

/-- **C95, disagreement.** The decreasing variant does not end either, from a power of two that is the last number to reach the limit: the result it is looking
for. -/
theorem C95_mirror_endless_wrong {F : Fmt} (he : 2 ≤ F.e) (hf : 1 ≤ F.f) {f : ℝ → ℝ} {limit : ℝ} {k : ℤ} (h1 : F.emin ≤ k) (h2 : k ≤ F.emax)
    (hr : ∀ q : ℚ, Unbounded F q → (2 : ℚ) ^ k < q → (roundUnb F .RU (f q) : ℝ) < limit) :
    ∀ (n : ℕ) (e : ℚ), Unbounded F e → (2 : ℚ) ^ k < e → loopM F f limit n ((2 : ℚ) ^ k) e = none := by
  intro n
  induction n with
  | zero => intro e _ _; rfl
  | succ n ih =>
    intro e hu hlt
    have hn := (Float.C60_next_of_power_is_stuck F he hf k h1 h2).1
    rw [loopM, if_neg (by rw [hn]; simp [hlt.ne]), if_neg (by
      have := hr _ (roundUnb_unb F .RU _) (mid_gt F hlt)
      exact not_le.2 this)]
    exact ih _ (roundUnb_unb F _ _) (mid_gt F hlt)

end Verif.Search
