import Verif.Rng.Model
import Mathlib.Tactic.Linarith
import Mathlib.Tactic.Ring
import Mathlib.Tactic.NormNum
import Mathlib.Tactic.FieldSimp
import Mathlib.Algebra.BigOperators.Group.List.Basic

/-! # Random generators of fixed-point, integer and raw bit-vector inputs (C55) -/

namespace Verif.Rng

theorem randrange_some {d : ℕ} {lo hi r : ℤ} (h : randrange d lo hi = some r) : lo ≤ r ∧ r < hi := by
  unfold randrange at h
  split at h
  · rename_i hlt
    have h1 := Int.emod_nonneg (d : ℤ) (by omega : hi - lo ≠ 0)
    have h2 := Int.emod_lt_of_pos (d : ℤ) (by omega : 0 < hi - lo)
    simp only [Option.some.injEq] at h
    omega
  · cases h

theorem randrange_surj {lo hi r : ℤ} (h1 : lo ≤ r) (h2 : r < hi) : randrange (r - lo).toNat lo hi = some r := by
  unfold randrange
  rw [if_pos (by omega), Int.toNat_of_nonneg (by omega), Int.emod_eq_of_lt (by omega) (by omega)]
  simp

theorem randrange_ex (d : ℕ) {lo hi : ℤ} (h : lo < hi) : ∃ r, randrange d lo hi = some r ∧ lo ≤ r ∧ r < hi := by
  have : ∃ r, randrange d lo hi = some r := ⟨_, if_pos h⟩
  obtain ⟨r, hr⟩ := this
  exact ⟨r, hr, randrange_some hr⟩

theorem random01_nonneg (d : ℕ) : 0 ≤ random01 d := by unfold random01; positivity

theorem random01_lt (d : ℕ) : random01 d < 1 := by
  unfold random01
  have : d % 2 ^ 53 < 2 ^ 53 := Nat.mod_lt _ (by positivity)
  have h : ((d % 2 ^ 53 : ℕ) : ℚ) < 2 ^ 53 := by exact_mod_cast this
  rw [div_lt_one (by positivity)]; exact h

theorem pick_mem {C : Type} {sub : ℚ → ℚ → ℚ} {l : List (C × ℚ)} {x : ℚ} {c : C} (h : pick sub l x = some c) : ∃ w, (c, w) ∈ l := by
  induction l generalizing x with
  | nil => simp [pick] at h
  | cons a l ih =>
    obtain ⟨c', w⟩ := a
    unfold pick at h
    split at h
    · simp only [Option.some.injEq] at h; subst h; exact ⟨w, by simp⟩
    · obtain ⟨w', hw'⟩ := ih h
      exact ⟨w', by simp [hw']⟩

theorem pick_ex {C : Type} {l : List (C × ℚ)} {x : ℚ} (hx : x ≤ (l.map Prod.snd).sum) (hne : l ≠ []) :
    ∃ c, pick (· - ·) l x = some c := by
  induction l generalizing x with
  | nil => exact absurd rfl hne
  | cons a l ih =>
    obtain ⟨c', w⟩ := a
    unfold pick
    by_cases h : x - w ≤ 0
    · exact ⟨c', if_pos h⟩
    · rw [if_neg h]
      simp only [List.map_cons, List.sum_cons] at hx
      refine ih (by linarith) ?_
      rintro rfl
      simp at hx
      exact h (by linarith)

theorem pick_pos {C : Type} {l : List (C × ℚ)} {x : ℚ} (hx : 0 < x) {c : C} (h : pick (· - ·) l x = some c) :
    ∃ w, 0 < w ∧ (c, w) ∈ l := by
  induction l generalizing x with
  | nil => simp [pick] at h
  | cons a l ih =>
    obtain ⟨c', w⟩ := a
    unfold pick at h
    split at h
    · rename_i hw
      simp only [Option.some.injEq] at h; subst h; exact ⟨w, by linarith, by simp⟩
    · rename_i hw
      obtain ⟨w', h1, h2⟩ := ih (not_le.1 hw) h
      exact ⟨w', h1, by simp [h2]⟩

/-- **C55** (choice of a category) When the weights sum to 1, every draw chooses a category, and every draw but 0 one of positive
weight. -/
theorem C55_category {C : Type} {l : List (C × ℚ)} (hsum : (l.map Prod.snd).sum = 1) (d : ℕ) :
    (∃ c, pick (· - ·) l (random01 d) = some c) ∧
      ∀ c, pick (· - ·) l (random01 d) = some c → d % 2 ^ 53 ≠ 0 → ∃ w, 0 < w ∧ (c, w) ∈ l := by
  refine ⟨pick_ex (by rw [hsum]; exact (random01_lt d).le) (by rintro rfl; simp at hsum), fun c hc hd => pick_pos ?_ hc⟩
  unfold random01
  have : (0 : ℚ) < ((d % 2 ^ 53 : ℕ) : ℚ) := by exact_mod_cast Nat.pos_of_ne_zero hd
  positivity

example : (weights.map Prod.snd).sum = 1 := by norm_num [weights]

/-- The draw 0 chooses a category of weight 0: the head of a multi-limb value is then a special value, and no value is produced. -/
theorem C55_zero_weight_wrong (F : Float.Fmt) (fs : List Float.Fmt) (d g : ℕ → ℕ) (hd : d 0 = 0) (hg : g 0 = 0) (ds : List (ℕ → ℕ)) :
    (mpWeights.map Prod.snd).sum = 1 ∧ pick (· - ·) mpWeights (random01 0) = some .special ∧
      mpNewValue (· - ·) F fs mpWeights d g ds = none := by
  have h : pick (· - ·) mpWeights (random01 0) = some .special := by simp [pick, mpWeights, random01]
  refine ⟨by norm_num [mpWeights], h, ?_⟩
  unfold mpNewValue fNewValue
  rw [hd, h]
  simp [fgen, specials, hg]

/-! ## Fixed-point -/

theorem grid_int (frac : ℤ) (n : ℤ) : Fixed.OnGrid frac (n * (2 : ℚ) ^ (-frac)) := ⟨n, rfl⟩

theorem grid_sub {frac : ℤ} {a b : ℚ} (ha : Fixed.OnGrid frac a) (hb : Fixed.OnGrid frac b) : Fixed.OnGrid frac (a - b) := by
  obtain ⟨m, rfl⟩ := ha; obtain ⟨n, rfl⟩ := hb
  exact ⟨m - n, by push_cast; ring⟩

theorem grid_add {frac : ℤ} {a b : ℚ} (ha : Fixed.OnGrid frac a) (hb : Fixed.OnGrid frac b) : Fixed.OnGrid frac (a + b) := by
  obtain ⟨m, rfl⟩ := ha; obtain ⟨n, rfl⟩ := hb
  exact ⟨m + n, by push_cast; ring⟩

theorem holds_between {f : Fixed.Fmt} {lo hi v : ℚ} (hl : f.Holds lo) (hh : f.Holds hi) (h1 : lo ≤ v) (h2 : v ≤ hi)
    (hg : Fixed.OnGrid f.frac v) : f.Holds v := by
  unfold Fixed.Fmt.Holds at *
  refine ⟨hg, ?_⟩
  split
  · rename_i hs
    rw [if_pos hs] at hl hh
    exact ⟨le_trans hl.2.1 h1, lt_of_le_of_lt h2 hh.2.2⟩
  · rename_i hs
    rw [if_neg hs] at hl hh
    exact ⟨le_trans hl.2.1 h1, lt_of_le_of_lt h2 hh.2.2⟩

theorem rectify_within {G : FixGen} (h : G.lo ≤ G.hi) (v : ℚ) : Within G.lo G.hi (G.rectify v) := by
  unfold FixGen.rectify Within
  exact ⟨le_max_left _ _, max_le h (min_le_left _ _)⟩

theorem rectify_grid {G : FixGen} {v : ℚ} (hl : Fixed.OnGrid G.fmt.frac G.lo) (hh : Fixed.OnGrid G.fmt.frac G.hi)
    (hv : Fixed.OnGrid G.fmt.frac v) : Fixed.OnGrid G.fmt.frac (G.rectify v) := by
  unfold FixGen.rectify
  rcases max_choice G.lo (min G.hi v) with h | h <;> rw [h]
  · exact hl
  · rcases min_choice G.hi v with h | h <;> rw [h] <;> assumption

theorem two_pow_grid {frac k : ℤ} (hk : 0 ≤ k) (c : ℤ) : Fixed.OnGrid frac (((2 : ℚ) ^ k - c) * (2 : ℚ) ^ (-frac)) := by
  obtain ⟨n, rfl⟩ := Int.eq_ofNat_of_zero_le hk
  exact ⟨2 ^ n - c, by push_cast; rw [zpow_natCast]⟩

theorem rawMax_grid {G : FixGen} (hs : 1 ≤ G.fmt.int + G.fmt.frac) : Fixed.OnGrid G.fmt.frac G.rawMax := by
  unfold FixGen.rawMax FixGen.scale
  have := two_pow_grid (frac := G.fmt.frac) (k := G.fmt.int + G.fmt.frac - if G.fmt.signed then 1 else 0)
    (by split <;> omega) 1
  exact_mod_cast this

theorem rawMin_grid {G : FixGen} (hs : 1 ≤ G.fmt.int + G.fmt.frac) : Fixed.OnGrid G.fmt.frac G.rawMin := by
  unfold FixGen.rawMin FixGen.scale
  split
  · obtain ⟨n, hn⟩ := Int.eq_ofNat_of_zero_le (by omega : 0 ≤ G.fmt.int + G.fmt.frac - 1)
    exact ⟨-2 ^ n, by rw [hn, zpow_natCast]; push_cast; ring⟩
  · exact ⟨0, by simp⟩

theorem highlow_pos (G : FixGen) : 0 < G.highlow := by unfold FixGen.highlow; positivity

theorem unscale_int {frac : ℤ} {v : ℚ} (h : Fixed.OnGrid frac v) : ∃ n : ℤ, v * (2 : ℚ) ^ frac = n ∧ v = n * (2 : ℚ) ^ (-frac) := by
  obtain ⟨n, rfl⟩ := h
  refine ⟨n, ?_, rfl⟩
  rw [mul_assoc, ← zpow_add₀ (by norm_num)]; simp

theorem randrangeQ_int (d : ℕ) (m n : ℤ) : randrangeQ d (m : ℚ) ((n : ℚ) + 1) = randrange d m (n + 1) := by
  unfold randrangeQ
  have : ((n : ℚ) + 1) = ((n + 1 : ℤ) : ℚ) := by push_cast; rfl
  rw [this, if_pos ⟨Rat.den_intCast _, Rat.den_intCast _⟩, Rat.num_intCast, Rat.num_intCast]

theorem low_ok {G : FixGen} (hl : G.fmt.Holds G.lo) (hh : G.fmt.Holds G.hi) (h : G.lo ≤ G.hi) (d : ℕ → ℕ) :
    ∃ v, G.genLow d = some v ∧ Within G.lo G.hi v ∧ G.fmt.Holds v := by
  obtain ⟨r, hr, -, -⟩ := randrange_ex (d 1) (highlow_pos G)
  have hw := rectify_within h (G.lo + G.scale r)
  refine ⟨G.rectify (G.lo + G.scale r), by simp [FixGen.genLow, hr], hw, ?_⟩
  exact holds_between hl hh hw.1 hw.2 (rectify_grid hl.1 hh.1 (grid_add hl.1 (grid_int _ r)))

/-- **C55** (fixed-point, by category) A fixed-point generator on an interval with representable bounds produces a representable
value of the interval, in every category but two: the zero of the category `ZeroValue` must be in the interval, and the format must be
signed for the category `NearZero`. -/
theorem C55_fixed_partial {f : Fixed.Fmt} {lo hi : ℚ} (hl : f.Holds lo) (hh : f.Holds hi) (h : lo ≤ hi) (hs : 1 ≤ f.int + f.frac)
    (c : Cat) (hz : c = .zero → lo ≤ 0 ∧ 0 ≤ hi) (hn : c = .nearZero → f.signed = true) (d : ℕ → ℕ) :
    ∃ v, FixGen.gen ⟨f, lo, hi⟩ d c = some v ∧ Within lo hi v ∧ f.Holds v := by
  let G : FixGen := ⟨f, lo, hi⟩
  have main : ∀ w, Fixed.OnGrid f.frac w → Within lo hi (G.rectify w) ∧ f.Holds (G.rectify w) := fun w hw => by
    have h1 := rectify_within (G := G) h w
    exact ⟨h1, holds_between hl hh h1.1 h1.2 (rectify_grid (G := G) hl.1 hh.1 hw)⟩
  cases c with
  | max => exact ⟨_, rfl, main _ (rawMax_grid (G := G) hs)⟩
  | min => exact ⟨_, rfl, main _ (rawMin_grid (G := G) hs)⟩
  | zero =>
    obtain ⟨h1, h2⟩ := hz rfl
    exact ⟨0, rfl, ⟨h1, h2⟩, holds_between hl hh h1 h2 ⟨0, by simp⟩⟩
  | high =>
    obtain ⟨r, hr, -, -⟩ := randrange_ex (d 1) (highlow_pos G)
    exact ⟨G.rectify (G.hi - G.scale r), by simp only [FixGen.gen]; rw [hr]; rfl,
      main _ (grid_sub hh.1 (grid_int _ r))⟩
  | low => exact low_ok (G := G) hl hh h d
  | nearZero =>
    obtain ⟨r, hr, -, -⟩ := randrange_ex (d 1) (hi := G.highlow * 2) (lo := 0) (by have := highlow_pos G; omega)
    have hsg := hn rfl
    exact ⟨G.rectify (G.scale ((0 - G.highlow + r : ℤ) : ℚ)), by simp only [FixGen.gen]; rw [if_pos hsg, hr]; rfl, main _ (grid_int _ _)⟩
  | standard =>
    obtain ⟨m, hm, hm'⟩ := unscale_int hl.1
    obtain ⟨n, hn1, hn'⟩ := unscale_int hh.1
    have hp : (0 : ℚ) < (2 : ℚ) ^ (-f.frac) := by positivity
    have hmn : m ≤ n := by
      rw [hm', hn'] at h
      exact_mod_cast le_of_mul_le_mul_right h hp
    obtain ⟨r, hr, h1, h2⟩ := randrange_ex (d 1) (lo := m) (hi := n + 1) (by omega)
    have h1' : (m : ℚ) ≤ r := by exact_mod_cast h1
    have h2' : (r : ℚ) ≤ n := by exact_mod_cast (by omega : r ≤ n)
    have hw : Within lo hi ((r : ℚ) * (2 : ℚ) ^ (-f.frac)) := by
      constructor
      · rw [hm']; exact mul_le_mul_of_nonneg_right h1' hp.le
      · rw [hn']; exact mul_le_mul_of_nonneg_right h2' hp.le
    refine ⟨(r : ℚ) * (2 : ℚ) ^ (-f.frac), ?_, hw, holds_between hl hh hw.1 hw.2 (grid_int _ r)⟩
    simp only [FixGen.gen, FixGen.unscale]
    rw [hm, hn1, randrangeQ_int, hr]
    rfl

/-- **C55** (signed fixed-point) A generator of a signed format on an interval that contains 0, with representable bounds, always
produces a representable value of the interval, and every such value is produced by some draws. -/
theorem C55_fixed_signed {f : Fixed.Fmt} {lo hi : ℚ} (hsg : f.signed = true) (hl : f.Holds lo) (hh : f.Holds hi) (h1 : lo ≤ 0)
    (h2 : 0 ≤ hi) (hs : 1 ≤ f.int + f.frac) :
    (∀ d, ∃ v, FixGen.newValue (· - ·) ⟨f, lo, hi⟩ d = some v ∧ Within lo hi v ∧ f.Holds v) ∧
      ∀ v, Within lo hi v → f.Holds v → ∃ d, FixGen.newValue (· - ·) ⟨f, lo, hi⟩ d = some v := by
  constructor
  · intro d
    obtain ⟨c, hc⟩ := (C55_category (l := weights) (by norm_num [weights]) (d 0)).1
    obtain ⟨v, hv⟩ := C55_fixed_partial hl hh (h1.trans h2) hs c (fun _ => ⟨h1, h2⟩) (fun _ => hsg) d
    refine ⟨v, ?_, hv.2⟩
    unfold FixGen.newValue
    rw [hc]; exact hv.1
  · intro v hv hr
    obtain ⟨m, hm, hm'⟩ := unscale_int hl.1
    obtain ⟨n, hn, hn'⟩ := unscale_int hh.1
    obtain ⟨k, hk, hk'⟩ := unscale_int hr.1
    have hp : (0 : ℚ) < (2 : ℚ) ^ (-f.frac) := by positivity
    have hmk : m ≤ k := by
      have := hv.1; rw [hm', hk'] at this
      exact_mod_cast le_of_mul_le_mul_right this hp
    have hkn : k ≤ n := by
      have := hv.2; rw [hn', hk'] at this
      exact_mod_cast le_of_mul_le_mul_right this hp
    refine ⟨fun i => if i = 0 then 2 ^ 52 else (k - m).toNat, ?_⟩
    have hc : pick (· - ·) weights (random01 (2 ^ 52)) = some .standard := by norm_num [pick, weights, random01]
    unfold FixGen.newValue
    simp only [if_true]
    rw [hc]
    simp only [Option.bind_some, FixGen.gen, FixGen.unscale]
    rw [hm, hn, randrangeQ_int]
    simp only [one_ne_zero, if_false]
    rw [randrange_surj hmk (by omega), hk']
    rfl

/-- the interval `[-1/2, 3/4]` of the signed format with 2 integer bits and 3 fraction bits -/
example : ∀ d, ∃ v, FixGen.newValue (· - ·) ⟨⟨2, 3, true⟩, -1 / 2, 3 / 4⟩ d = some v ∧ Within (-1 / 2) (3 / 4) v ∧
    Fixed.Fmt.Holds ⟨2, 3, true⟩ v :=
  (C55_fixed_signed (f := ⟨2, 3, true⟩) rfl ⟨⟨-4, by norm_num⟩, by norm_num⟩ ⟨⟨6, by norm_num⟩, by norm_num⟩ (by norm_num)
    (by norm_num) (by norm_num)).1

/-- **C55** (extremal values) The categories of the extremal values produce the bounds of the interval. -/
theorem C55_fixed_extremes {f : Fixed.Fmt} {lo hi : ℚ} (hl : f.Holds lo) (hh : f.Holds hi) (h : lo ≤ hi)
    (hs : 1 ≤ f.int + f.frac) (d : ℕ → ℕ) :
    FixGen.gen ⟨f, lo, hi⟩ d .max = some hi ∧ FixGen.gen ⟨f, lo, hi⟩ d .min = some lo := by
  have hp : (0 : ℚ) < (2 : ℚ) ^ (-f.frac) := by positivity
  have e : ∀ k : ℤ, (2 : ℚ) ^ (k + f.frac) * (2 : ℚ) ^ (-f.frac) = (2 : ℚ) ^ k := fun k => by
    rw [← zpow_add₀ (by norm_num)]; congr 1; ring
  have key : ∀ k : ℤ, 0 ≤ k + f.frac → hi < (2 : ℚ) ^ k → hi ≤ ((2 : ℚ) ^ (k + f.frac) - 1) * (2 : ℚ) ^ (-f.frac) := fun k h0 hk => by
    obtain ⟨n, rfl⟩ := hh.1
    rw [← e k] at hk
    have hk' := lt_of_mul_lt_mul_right hk hp.le
    apply mul_le_mul_of_nonneg_right _ hp.le
    obtain ⟨j, hj⟩ := Int.eq_ofNat_of_zero_le h0
    rw [hj, zpow_natCast] at hk' ⊢
    have h3 : n < 2 ^ j := by exact_mod_cast hk'
    have h4 : n ≤ 2 ^ j - 1 := by omega
    exact_mod_cast h4
  have kl := hl.2
  have kh := hh.2
  simp only [FixGen.gen, FixGen.rectify, FixGen.rawMax, FixGen.rawMin, FixGen.scale, Option.some.injEq]
  by_cases hsg : f.signed = true
  · simp only [hsg, if_true] at kl kh ⊢
    have h1 := key (f.int - 1) (by omega) kh.2
    rw [show f.int - 1 + f.frac = f.int + f.frac - 1 by ring] at h1
    have h2 := e (f.int - 1)
    rw [show f.int - 1 + f.frac = f.int + f.frac - 1 by ring] at h2
    rw [min_eq_left h1, max_eq_right h]
    refine ⟨rfl, max_eq_left (le_trans (min_le_right _ _) ?_)⟩
    rw [neg_mul, h2]; exact kl.1
  · simp only [hsg, Bool.false_eq_true, if_false] at kl kh ⊢
    have h1 := key f.int (by omega) kh.2
    rw [sub_zero, min_eq_left h1, max_eq_right h]
    refine ⟨rfl, max_eq_left (le_trans (min_le_right _ _) ?_)⟩
    rw [zero_mul]; exact kl.1

/-- The category `ZeroValue` produces 0 on an interval that does not contain it: here `[1, 3]` in 4-bit signed integers. -/
theorem C55_fixed_zero_wrong : ∃ (f : Fixed.Fmt) (lo hi : ℚ) (d : ℕ → ℕ) (v : ℚ), f.Holds lo ∧ f.Holds hi ∧ lo ≤ hi ∧
    FixGen.newValue (· - ·) ⟨f, lo, hi⟩ d = some v ∧ ¬ Within lo hi v := by
  refine ⟨⟨4, 0, true⟩, 1, 3, fun _ => 225179981368524, 0, ⟨⟨1, by norm_num⟩, by norm_num⟩, ⟨⟨3, by norm_num⟩, by norm_num⟩,
    by norm_num, ?_, by norm_num [Within]⟩
  have hc : pick (· - ·) weights (random01 225179981368524) = some .zero := by norm_num [pick, weights, random01]
  unfold FixGen.newValue
  rw [hc]; rfl

/-- The category `NearZero` of an unsigned format scales twice: here it produces `2^-10` in a format with 5 fraction bits. -/
theorem C55_fixed_near_zero_wrong : ∃ (f : Fixed.Fmt) (d : ℕ → ℕ) (v : ℚ), f.signed = false ∧
    FixGen.newValue (· - ·) (FixGen.full f) d = some v ∧ ¬ f.Holds v := by
  refine ⟨⟨5, 5, false⟩, fun i => if i = 0 then 1801439850948198 else 1, (2 : ℚ) ^ (-10 : ℤ), rfl, ?_, ?_⟩
  · have hc : pick (· - ·) weights (random01 1801439850948198) = some .nearZero := by norm_num [pick, weights, random01]
    unfold FixGen.newValue
    simp only [if_true]
    rw [hc]
    norm_num [FixGen.gen, FixGen.full, FixGen.genLow, randrange, FixGen.highlow, FixGen.rectify, FixGen.scale, FixGen.rawMin, FixGen.rawMax]
    rw [show (1 % 2 ^ (Int.toNat 10 / 5) : ℤ) = 1 by decide]
    norm_num
  · rintro ⟨⟨n, hn⟩, -⟩
    norm_num at hn
    have h : (n : ℚ) * 32 = 1 := by linarith
    have : n * 32 = 1 := by exact_mod_cast h
    omega

/-! ## Integers and raw bit vectors -/

/-- **C55** (integers) Every value an integer generator produces is in the range of the format, and every value of the range is
produced by some draws. -/
theorem C55_int_partial {size : ℕ} (hs : 1 ≤ size) (signed : Bool) :
    (∀ sub d v, intNewValue sub size signed d = some v →
      (if signed then -2 ^ (size - 1) ≤ v ∧ v < 2 ^ (size - 1) else 0 ≤ v ∧ v < 2 ^ size)) ∧
    ∀ v : ℤ, (if signed then -2 ^ (size - 1) ≤ v ∧ v < 2 ^ (size - 1) else 0 ≤ v ∧ v < 2 ^ size) →
      ∃ d, intNewValue (· - ·) size signed d = some v := by
  constructor
  · intro sub d v h
    unfold intNewValue at h
    rw [Option.bind_eq_some_iff] at h
    obtain ⟨c, -, hc⟩ := h
    have hp : (0 : ℤ) < 2 ^ (size - 1) := by positivity
    have hq : (0 : ℤ) < 2 ^ size := by positivity
    cases c <;> cases signed <;> simp [intGen] at hc ⊢ <;> first
      | omega
      | (have := randrange_some hc; omega)
  · intro v hv
    refine ⟨fun i => if i = 0 then 2 ^ 52 else (v - if signed then -2 ^ (size - 1) else 0).toNat, ?_⟩
    have hc : pick (· - ·) weights (random01 (2 ^ 52)) = some .standard := by norm_num [pick, weights, random01]
    unfold intNewValue
    simp only [if_true]
    rw [hc]
    cases signed
    · simp only [Bool.false_eq_true, if_false] at hv
      simpa [intGen] using randrange_surj hv.1 hv.2
    · simp only [if_true] at hv
      simpa [intGen] using randrange_surj hv.1 hv.2

/-- Three categories of the integer generator raise on every draw. -/
theorem C55_int_wrong (size : ℕ) (signed : Bool) : ∃ d, intNewValue (· - ·) size signed d = none := by
  refine ⟨fun _ => 450359962737049, ?_⟩
  have hc : pick (· - ·) weights (random01 450359962737049) = some .high := by norm_num [pick, weights, random01]
  unfold intNewValue
  rw [hc]; rfl

/-- **C55** (raw bit vectors) A generator on `[lo, hi]` always produces a number of the interval, and every number of the interval
that has `size` bits is produced by some draws. -/
theorem C55_raw (size : ℕ) {lo hi : ℤ} (h : lo ≤ hi) :
    (∀ g, ∃ v, rawNewValue size lo hi g = some v ∧ lo ≤ v ∧ v ≤ hi) ∧
      ∀ v, lo ≤ v → v ≤ hi → 0 ≤ v → v < 2 ^ size → ∃ g, rawNewValue size lo hi g = some v := by
  constructor
  · intro g
    obtain ⟨s, hs, -, -⟩ := randrange_ex (g 0) (lo := 0) (hi := (size : ℤ) + 1) (by omega)
    obtain ⟨r, hr, -, -⟩ := randrange_ex (g 1) (lo := 0) (hi := 2 ^ s.toNat) (by positivity)
    refine ⟨max (min r hi) lo, ?_, le_max_right _ _, max_le (min_le_right _ _) h⟩
    simp only [rawNewValue, hs, Option.bind_some, hr, Option.map_some]
  · intro v h1 h2 h3 h4
    refine ⟨fun i => if i = 0 then size else v.toNat, ?_⟩
    have hs := randrange_surj (lo := 0) (r := size) (hi := (size : ℤ) + 1) (by omega) (by omega)
    have hr := randrange_surj (lo := 0) (r := v) (hi := 2 ^ size) h3 h4
    simp only [Int.sub_zero, Int.toNat_natCast] at hs hr
    simp only [rawNewValue, if_true, hs, Option.bind_some, Int.toNat_natCast, one_ne_zero, if_false, hr, Option.map_some]
    rw [min_eq_left h2, max_eq_left h1]

example : ∃ g, rawNewValue 8 3 200 g = some 77 := (C55_raw 8 (by norm_num)).2 77 (by norm_num) (by norm_num) (by norm_num) (by norm_num)

end Verif.Rng
