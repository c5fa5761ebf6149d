import Verif.Check.Model
import Verif.Float.Theorems
import Mathlib.Algebra.Order.Floor.Ring
import Mathlib.Algebra.Order.Round

/-! # Lemmas on the rounding of reals -/

namespace Verif.Check

open Verif.Float (Fmt Val)

theorem rp (k : ℤ) : (0 : ℝ) < (2 : ℝ) ^ k := zpow_pos (by norm_num) k

theorem radd (a b : ℤ) : (2 : ℝ) ^ (a + b) = (2 : ℝ) ^ a * (2 : ℝ) ^ b := zpow_add₀ (by norm_num) _ _

theorem rle {a b : ℤ} (h : a ≤ b) : (2 : ℝ) ^ a ≤ (2 : ℝ) ^ b := zpow_le_zpow_right₀ (by norm_num) h

/-- a number on a coarser grid is on the finer one -/
theorem grid_coarse (m : ℤ) {a b : ℤ} (h : a ≤ b) : ∃ n : ℤ, (m : ℚ) * (2 : ℚ) ^ b = n * (2 : ℚ) ^ a := by
  obtain ⟨k, hk⟩ := Int.eq_ofNat_of_zero_le (sub_nonneg.2 h)
  refine ⟨m * 2 ^ k, ?_⟩
  rw [show b = k + a by omega, Float.zadd, zpow_natCast]; push_cast; ring

theorem log_le {x : ℝ} (hx : x ≠ 0) : (2 : ℝ) ^ Int.log 2 |x| ≤ |x| := by
  have := Int.zpow_log_le_self (b := 2) (by norm_num) (abs_pos.2 hx)
  simpa using this

theorem lt_log (x : ℝ) : |x| < (2 : ℝ) ^ (Int.log 2 |x| + 1) := by
  have := Int.lt_zpow_succ_log_self (b := 2) (by norm_num) |x|
  simpa using this

/-- A number is on the grid of `x`, or it is smaller than the power of two under `x`, which is on the grid. -/
theorem grid_or_small {F : Fmt} {x : ℝ} (hx : x ≠ 0) {w : ℚ} (hw : Unbounded F w) :
    (∃ n : ℤ, w = n * (2 : ℚ) ^ lastPlace F x) ∨
      (|(w : ℝ)| < (2 : ℝ) ^ Int.log 2 |x| ∧ lastPlace F x = Int.log 2 |x| - F.f) := by
  obtain ⟨m, E, hm, hE, rfl⟩ := hw
  rcases le_or_gt (lastPlace F x) (E - F.f) with h | h
  · exact Or.inl (grid_coarse m h)
  · right
    unfold lastPlace at h ⊢
    have hmax : max (Int.log 2 |x|) F.emin = Int.log 2 |x| := by
      rcases max_choice (Int.log 2 |x|) F.emin with h' | h' <;> omega
    rw [hmax] at h ⊢
    refine ⟨?_, rfl⟩
    push_cast
    rw [abs_mul, abs_of_pos (rp (E - F.f))]
    have h1 : |(m : ℝ)| < (2 : ℝ) ^ (F.f + 1) := by exact_mod_cast hm
    calc |(m : ℝ)| * (2 : ℝ) ^ (E - F.f) < (2 : ℝ) ^ (F.f + 1) * (2 : ℝ) ^ (E - F.f) := mul_lt_mul_of_pos_right h1 (rp _)
      _ = (2 : ℝ) ^ (E + 1) := by
        rw [show E + 1 = (F.f + 1 : ℕ) + (E - F.f) by push_cast; ring, radd, zpow_natCast]
      _ ≤ _ := rle (by omega)

theorem pow_grid {F : Fmt} {x : ℝ} (h : lastPlace F x = Int.log 2 |x| - F.f) :
    (2 : ℝ) ^ Int.log 2 |x| = ((2 ^ F.f : ℤ) : ℝ) * (2 : ℝ) ^ lastPlace F x := by
  rw [h, show Int.log 2 |x| = (F.f : ℤ) + (Int.log 2 |x| - F.f) by ring, radd, zpow_natCast]
  push_cast
  congr 2
  ring

/-- greatest number below -/
theorem le_floor {F : Fmt} {x : ℝ} (hx : x ≠ 0) {w : ℚ} (hw : Unbounded F w) (h : (w : ℝ) ≤ x) :
    (w : ℝ) ≤ ⌊x / (2 : ℝ) ^ lastPlace F x⌋ * (2 : ℝ) ^ lastPlace F x := by
  have hs := rp (lastPlace F x)
  have key : ∀ n : ℤ, (n : ℝ) * (2 : ℝ) ^ lastPlace F x ≤ x → (n : ℝ) * (2 : ℝ) ^ lastPlace F x ≤ ⌊x / (2 : ℝ) ^ lastPlace F x⌋ * (2 : ℝ) ^ lastPlace F x := by
    intro n hn
    have : n ≤ ⌊x / (2 : ℝ) ^ lastPlace F x⌋ := Int.le_floor.2 ((le_div_iff₀ hs).2 hn)
    exact mul_le_mul_of_nonneg_right (by exact_mod_cast this) hs.le
  rcases grid_or_small hx hw with ⟨n, hn⟩ | ⟨h1, h2⟩
  · have e : (w : ℝ) = n * (2 : ℝ) ^ lastPlace F x := by rw [hn]; push_cast; rfl
    rw [e] at h ⊢
    exact key n h
  · have h3 := log_le hx
    have h4 := pow_grid h2
    rcases lt_or_gt_of_ne hx with hneg | hpos
    · rw [abs_of_neg hneg] at h3 h1
      linarith [neg_abs_le (w : ℝ)]
    · rw [abs_of_pos hpos] at h3 h1 h4
      have := key (2 ^ F.f) (by rw [← h4]; exact h3)
      rw [← h4] at this
      linarith [le_abs_self (w : ℝ)]

theorem log_abs_neg (F : Fmt) (x : ℝ) : lastPlace F (-x) = lastPlace F x := by simp [lastPlace]

theorem unb_neg {F : Fmt} {w : ℚ} (hw : Unbounded F w) : Unbounded F (-w) := by
  obtain ⟨m, E, hm, hE, rfl⟩ := hw
  exact ⟨-m, E, by rwa [abs_neg], hE, by push_cast; ring⟩

/-- least number above -/
theorem ceil_le {F : Fmt} {x : ℝ} (hx : x ≠ 0) {w : ℚ} (hw : Unbounded F w) (h : x ≤ (w : ℝ)) :
    ⌈x / (2 : ℝ) ^ lastPlace F x⌉ * (2 : ℝ) ^ lastPlace F x ≤ (w : ℝ) := by
  have := le_floor (x := -x) (neg_ne_zero.2 hx) (unb_neg hw) (by push_cast; linarith)
  rw [log_abs_neg, neg_div, Int.floor_neg] at this
  push_cast at this
  linarith

theorem toInt_cases (m : Mode) (y : ℝ) : toInt m y = ⌊y⌋ ∨ toInt m y = ⌈y⌉ := by
  cases m
  · simp only [toInt]
    have h0 := Int.fract_nonneg y
    have h1 : y - ⌊y⌋ = Int.fract y := rfl
    rw [h1]
    by_cases hz : Int.fract y = 0
    · left; simp [hz]
    · have : ⌈y⌉ = ⌊y⌋ + 1 := by
        rw [Int.ceil_eq_iff]
        have h2 := Int.floor_add_fract y
        have h3 := Int.fract_lt_one y
        have h4 := lt_of_le_of_ne h0 (Ne.symm hz)
        push_cast
        constructor <;> linarith
      rw [this]
      split_ifs <;> simp
  · left; rfl
  · right; rfl

theorem toInt_near (y : ℝ) : |y - toInt .RN y| ≤ 1 / 2 := by
  simp only [toInt]
  have h0 := Int.fract_nonneg y
  have h1 := Int.fract_lt_one y
  have h2 : y - ⌊y⌋ = Int.fract y := rfl
  have h3 := Int.floor_add_fract y
  rw [h2]
  split_ifs with a b c <;> push_cast <;> rw [abs_le] <;> constructor <;> linarith

theorem toInt_tie {y : ℝ} (h : |y - toInt .RN y| = 1 / 2) : Even (toInt .RN y) := by
  simp only [toInt] at h ⊢
  have h0 := Int.fract_nonneg y
  have h1 := Int.fract_lt_one y
  have h2 : y - ⌊y⌋ = Int.fract y := rfl
  have h3 := Int.floor_add_fract y
  rw [h2] at h ⊢
  split_ifs at h ⊢ with a b c
  · exfalso; rw [h2, abs_of_nonneg h0] at h; linarith
  · exfalso
    push_cast at h
    rw [show y - (⌊y⌋ + 1) = -(1 - Int.fract y) by linarith, abs_neg, abs_of_nonneg (by linarith)] at h
    linarith
  · exact Int.even_iff.2 c
  · rw [Int.even_iff]; omega

/-- the nearest integer is at least as near as any integer -/
theorem toInt_min (y : ℝ) (n : ℤ) : |y - toInt .RN y| ≤ |y - n| := by
  have h := toInt_near y
  by_cases e : n = toInt .RN y
  · rw [e]
  · have h1 : (1 : ℝ) ≤ |(n : ℝ) - toInt .RN y| := by
      have : (1 : ℤ) ≤ |n - toInt .RN y| := Int.one_le_abs (sub_ne_zero.2 e)
      exact_mod_cast this
    have h2 : |(n : ℝ) - toInt .RN y| ≤ |y - n| + |y - toInt .RN y| := by
      have := abs_sub_le (n : ℝ) y (toInt .RN y)
      rwa [abs_sub_comm (n : ℝ) y] at this
    linarith

theorem scaled_lt {F : Fmt} {x : ℝ} : |x / (2 : ℝ) ^ lastPlace F x| < (2 : ℝ) ^ (F.f + 1) := by
  rw [abs_div, abs_of_pos (rp _), div_lt_iff₀ (rp _)]
  refine lt_of_lt_of_le (lt_log x) ?_
  rw [← zpow_natCast (2 : ℝ) (F.f + 1), ← radd]
  refine rle ?_
  unfold lastPlace
  push_cast
  omega

theorem toInt_abs {F : Fmt} (m : Mode) (x : ℝ) : |toInt m (x / (2 : ℝ) ^ lastPlace F x)| ≤ 2 ^ (F.f + 1) := by
  have h := abs_lt.1 (scaled_lt (F := F) (x := x))
  have hf : -(2 ^ (F.f + 1) : ℤ) ≤ ⌊x / (2 : ℝ) ^ lastPlace F x⌋ := Int.le_floor.2 (by push_cast; exact h.1.le)
  have hf' : ⌊x / (2 : ℝ) ^ lastPlace F x⌋ < 2 ^ (F.f + 1) := Int.floor_lt.2 (by push_cast; exact h.2)
  have hc : -(2 ^ (F.f + 1) : ℤ) < ⌈x / (2 : ℝ) ^ lastPlace F x⌉ := Int.lt_ceil.2 (by push_cast; exact h.1)
  have hc' : ⌈x / (2 : ℝ) ^ lastPlace F x⌉ ≤ 2 ^ (F.f + 1) := Int.ceil_le.2 (by push_cast; exact h.2.le)
  rw [abs_le]
  rcases toInt_cases m (x / (2 : ℝ) ^ lastPlace F x) with e | e <;> rw [e] <;> constructor <;> omega

theorem unb_of {F : Fmt} {n : ℤ} {q : ℤ} (hn : |n| ≤ 2 ^ (F.f + 1)) (hq : F.emin - F.f ≤ q) : Unbounded F (n * (2 : ℚ) ^ q) := by
  rcases lt_or_eq_of_le hn with h | h
  · exact ⟨n, q + F.f, h, by omega, by congr 2; ring⟩
  · have hp : (0 : ℤ) < 2 ^ F.f := by positivity
    rcases abs_eq (by positivity) |>.1 h with e | e
    · refine ⟨2 ^ F.f, q + 1 + F.f, by rw [abs_of_pos hp, pow_succ]; omega, by omega, ?_⟩
      rw [e, show q + 1 + (F.f : ℤ) - F.f = q + 1 by ring, Float.zsucc]; push_cast; ring
    · refine ⟨-2 ^ F.f, q + 1 + F.f, by rw [abs_neg, abs_of_pos hp, pow_succ]; omega, by omega, ?_⟩
      rw [e, show q + 1 + (F.f : ℤ) - F.f = q + 1 by ring, Float.zsucc]; push_cast; ring

theorem lastPlace_ge (F : Fmt) (x : ℝ) : F.emin - F.f ≤ lastPlace F x := by unfold lastPlace; omega

theorem unb_zero (F : Fmt) : Unbounded F 0 := ⟨0, F.emin, by simp, le_refl _, by simp⟩

theorem roundUnb_unb (F : Fmt) (m : Mode) (x : ℝ) : Unbounded F (roundUnb F m x) := by
  unfold roundUnb
  split_ifs
  · exact unb_zero F
  · exact unb_of (toInt_abs m x) (lastPlace_ge F x)

theorem roundUnb_cast {F : Fmt} {m : Mode} {x : ℝ} (hx : x ≠ 0) :
    ((roundUnb F m x : ℚ) : ℝ) = toInt m (x / (2 : ℝ) ^ lastPlace F x) * (2 : ℝ) ^ lastPlace F x := by
  simp only [roundUnb, hx, if_false]; push_cast; rfl

theorem rd_le (F : Fmt) (x : ℝ) : (roundUnb F .RD x : ℝ) ≤ x := by
  by_cases hx : x = 0
  · simp [roundUnb, hx]
  · rw [roundUnb_cast hx]
    have := Int.floor_le (x / (2 : ℝ) ^ lastPlace F x)
    rwa [le_div_iff₀ (rp _)] at this

theorem le_rd {F : Fmt} {x : ℝ} {w : ℚ} (hw : Unbounded F w) (h : (w : ℝ) ≤ x) : (w : ℝ) ≤ roundUnb F .RD x := by
  by_cases hx : x = 0
  · simpa [roundUnb, hx] using h
  · rw [roundUnb_cast hx]; exact le_floor hx hw h

theorem le_ru (F : Fmt) (x : ℝ) : x ≤ (roundUnb F .RU x : ℝ) := by
  by_cases hx : x = 0
  · simp [roundUnb, hx]
  · rw [roundUnb_cast hx]
    have := Int.le_ceil (x / (2 : ℝ) ^ lastPlace F x)
    rwa [div_le_iff₀ (rp _)] at this

theorem ru_le {F : Fmt} {x : ℝ} {w : ℚ} (hw : Unbounded F w) (h : x ≤ (w : ℝ)) : (roundUnb F .RU x : ℝ) ≤ w := by
  by_cases hx : x = 0
  · simpa [roundUnb, hx] using h
  · rw [roundUnb_cast hx]; exact ceil_le hx hw h

/-- the number computed by `.RN` is the nearest one -/
theorem rn_min {F : Fmt} {x : ℝ} {w : ℚ} (hw : Unbounded F w) : |x - (roundUnb F .RN x : ℝ)| ≤ |x - w| := by
  by_cases hx : x = 0
  · simp [roundUnb, hx]
  rw [roundUnb_cast hx]
  set s := (2 : ℝ) ^ lastPlace F x with hs
  have hsp : 0 < s := rp _
  have scale : ∀ n : ℤ, |x - n * s| = |x / s - n| * s := by
    intro n
    rw [show x - n * s = (x / s - n) * s by field_simp, abs_mul, abs_of_pos hsp]
  have key : ∀ n : ℤ, |x - toInt .RN (x / s) * s| ≤ |x - n * s| := by
    intro n
    rw [scale, scale]
    exact mul_le_mul_of_nonneg_right (toInt_min _ n) hsp.le
  rcases grid_or_small hx hw with ⟨n, hn⟩ | ⟨h1, h2⟩
  · have e : (w : ℝ) = n * s := by rw [hn]; push_cast; rfl
    rw [e]; exact key n
  · have h3 := log_le hx
    have h4 := pow_grid h2
    rw [← hs] at h4
    have h6 : -x ≤ |x| ∧ x ≤ |x| := ⟨neg_le_abs x, le_abs_self x⟩
    have h7 : x < 0 → |x| = -x := fun h => abs_of_neg h
    have h8 : 0 < x → |x| = x := fun h => abs_of_pos h
    generalize (2 : ℝ) ^ Int.log 2 |x| = P at h1 h3 h4
    rcases lt_or_gt_of_ne hx with hneg | hpos
    · refine le_trans (key (-2 ^ F.f)) ?_
      have e : ((-2 ^ F.f : ℤ) : ℝ) * s = -P := by rw [h4]; push_cast; ring
      rw [e]
      have h5 := neg_abs_le (w : ℝ)
      rw [h7 hneg] at h3
      rw [abs_of_nonpos (show x - -P ≤ 0 by linarith), abs_of_nonpos (show x - (w : ℝ) ≤ 0 by linarith)]
      linarith
    · refine le_trans (key (2 ^ F.f)) ?_
      rw [← h4]
      have h5 := le_abs_self (w : ℝ)
      rw [h8 hpos] at h3
      rw [abs_of_nonneg (show 0 ≤ x - P by linarith), abs_of_nonneg (show 0 ≤ x - (w : ℝ) by linarith)]
      linarith

/-- finite numbers are the numbers of bounded magnitude -/
theorem finite_iff {F : Fmt} (he : 2 ≤ F.e) {v : ℚ} : F.Finite v ↔ Unbounded F v ∧ |v| ≤ Float.omega F := by
  constructor
  · intro h
    obtain ⟨m, E, hm, h1, h2, e⟩ := id h
    exact ⟨⟨m, E, hm, h1, e⟩, (Float.C02_omega_is_greatest F he).2 v h⟩
  · rintro ⟨⟨m, E, hm, h1, rfl⟩, h⟩
    rcases le_or_gt E F.emax with h2 | h2
    · exact ⟨m, E, hm, h1, h2, rfl⟩
    · -- on the grid of the largest binade
      obtain ⟨n, hn⟩ := grid_coarse m (show F.emax - F.f ≤ E - F.f by omega)
      rw [hn] at h ⊢
      refine ⟨n, F.emax, ?_, Float.emin_le_emax F he, le_refl _, rfl⟩
      rw [Float.omega_eq F (by omega), abs_mul, abs_of_pos (Float.zp _), mul_le_mul_iff_of_pos_right (Float.zp _)] at h
      have : |(n : ℚ)| < 2 ^ (F.f + 1) := by linarith
      exact_mod_cast this

/-- `.RN` computes the nearest number with ties to even -/
theorem rn_nearest {F : Fmt} (hf : 1 ≤ F.f) (x : ℝ) : NearestEven F x (roundUnb F .RN x) := by
  refine ⟨roundUnb_unb F _ x, fun w hw => rn_min hw, ?_⟩
  intro w hw hne htie
  by_cases hx : x = 0
  · exfalso
    simp [roundUnb, hx] at htie hne
    exact hne htie
  set s := (2 : ℝ) ^ lastPlace F x with hs
  have hsp : 0 < s := rp _
  have scale : ∀ n : ℤ, |x - n * s| = |x / s - n| * s := by
    intro n
    rw [show x - n * s = (x / s - n) * s by field_simp, abs_mul, abs_of_pos hsp]
  have hc := roundUnb_cast (F := F) (m := .RN) hx
  rw [← hs] at hc
  have habs := toInt_abs (F := F) .RN x
  rw [← hs] at habs
  -- the integer is even
  have heven : Even (toInt .RN (x / s)) := by
    rcases grid_or_small hx hw with ⟨n, hn⟩ | ⟨h1, h2⟩
    · have e : (w : ℝ) = n * s := by rw [hn]; push_cast; rfl
      have hnn : n ≠ toInt .RN (x / s) := by
        rintro rfl
        apply hne
        have : (w : ℝ) = roundUnb F .RN x := by rw [e, hc]
        exact_mod_cast this
      rw [e, hc, scale, scale, mul_left_inj' hsp.ne'] at htie
      apply toInt_tie
      have h1 : (1 : ℝ) ≤ |(n : ℝ) - toInt .RN (x / s)| := by
        have : (1 : ℤ) ≤ |n - toInt .RN (x / s)| := Int.one_le_abs (sub_ne_zero.2 hnn)
        exact_mod_cast this
      have h2 : |(n : ℝ) - toInt .RN (x / s)| ≤ |x / s - n| + |x / s - toInt .RN (x / s)| := by
        have := abs_sub_le (n : ℝ) (x / s) (toInt .RN (x / s))
        rwa [abs_sub_comm (n : ℝ) (x / s)] at this
      have h3 := toInt_near (x / s)
      linarith
    · -- a smaller number is strictly further
      exfalso
      have h3 := log_le hx
      have h4 := pow_grid h2
      have h7 : x < 0 → |x| = -x := fun h => abs_of_neg h
      have h8 : 0 < x → |x| = x := fun h => abs_of_pos h
      have hu : ∀ sg : ℤ, |sg| = 1 → |x - roundUnb F .RN x| ≤ |x - sg * (2 : ℝ) ^ (Int.log 2 (|x|))| := by
        intro sg hsg
        have hun : Unbounded F ((sg * 2 ^ F.f : ℤ) * (2 : ℚ) ^ lastPlace F x) := by
          refine unb_of ?_ (lastPlace_ge F x)
          rw [abs_mul, hsg, one_mul, abs_of_pos (by positivity)]
          exact pow_le_pow_right₀ (by norm_num) (by omega)
        have := rn_min (x := x) hun
        rw [show (((((sg * 2 ^ F.f : ℤ) : ℚ) * (2 : ℚ) ^ lastPlace F x : ℚ)) : ℝ) = sg * (2 : ℝ) ^ Int.log 2 |x| by
          rw [h4]; push_cast; ring] at this
        exact this
      generalize (2 : ℝ) ^ Int.log 2 |x| = P at h1 h3 hu
      rcases lt_or_gt_of_ne hx with hneg | hpos
      · have h5 := neg_abs_le (w : ℝ)
        rw [h7 hneg] at h3
        have := hu (-1) (by norm_num)
        rw [← htie] at this
        push_cast at this
        rw [abs_of_nonpos (show x - -1 * P ≤ 0 by linarith), abs_of_nonpos (show x - (w : ℝ) ≤ 0 by linarith)] at this
        linarith
      · have h5 := le_abs_self (w : ℝ)
        rw [h8 hpos] at h3
        have := hu 1 (by norm_num)
        rw [← htie] at this
        push_cast at this
        rw [abs_of_nonneg (show 0 ≤ x - 1 * P by linarith), abs_of_nonneg (show 0 ≤ x - (w : ℝ) by linarith)] at this
        linarith
  -- the least exponent
  have hval : roundUnb F .RN x = toInt .RN (x / s) * (2 : ℚ) ^ lastPlace F x := by
    simp only [roundUnb, hx, if_false]; rfl
  rw [hval]
  have hp : (0 : ℤ) < 2 ^ F.f := by positivity
  rcases lt_or_eq_of_le habs with h | h
  · refine ⟨toInt .RN (x / s), lastPlace F x + F.f, h, by have := lastPlace_ge F x; omega, ?_, heven, by congr 2; ring⟩
    by_cases hm : F.emin ≤ Int.log 2 |x|
    · left
      have hl : lastPlace F x = Int.log 2 |x| - F.f := by unfold lastPlace; rw [max_eq_left hm]
      have h4 := pow_grid hl
      rw [← hs] at h4
      have h3 := log_le hx
      have h5 : ((2 ^ F.f : ℤ) : ℝ) ≤ |x / s| := by
        rw [abs_div, abs_of_pos hsp, le_div_iff₀ hsp, ← h4]; exact h3
      rcases lt_or_gt_of_ne hx with hneg | hpos
      · have : x / s < 0 := div_neg_of_neg_of_pos hneg hsp
        rw [abs_of_neg this] at h5
        have h6 : toInt .RN (x / s) ≤ -2 ^ F.f := by
          have hc' : ⌈x / s⌉ ≤ -2 ^ F.f := Int.ceil_le.2 (by push_cast at h5 ⊢; linarith)
          have hf' : ⌊x / s⌋ ≤ ⌈x / s⌉ := Int.floor_le_ceil _
          rcases toInt_cases .RN (x / s) with e | e <;> rw [e] <;> omega
        rw [abs_of_neg (by omega)]; omega
      · have : 0 < x / s := div_pos hpos hsp
        rw [abs_of_pos this] at h5
        have h6 : 2 ^ F.f ≤ toInt .RN (x / s) := by
          have hf' : 2 ^ F.f ≤ ⌊x / s⌋ := Int.le_floor.2 (by push_cast at h5 ⊢; linarith)
          have hc' : ⌊x / s⌋ ≤ ⌈x / s⌉ := Int.floor_le_ceil _
          rcases toInt_cases .RN (x / s) with e | e <;> rw [e] <;> omega
        rw [abs_of_pos (by omega)]; exact h6
    · right
      unfold lastPlace
      rw [max_eq_right (by omega)]; ring
  · have he2 : Even ((2 : ℤ) ^ F.f) := (Int.even_pow.2 ⟨even_two, by omega⟩)
    rcases abs_eq (by positivity) |>.1 h with e | e
    · refine ⟨2 ^ F.f, lastPlace F x + 1 + F.f, by rw [abs_of_pos hp, pow_succ]; omega, by have := lastPlace_ge F x; omega,
        Or.inl (le_abs_self _), he2, ?_⟩
      rw [e, show lastPlace F x + 1 + (F.f : ℤ) - F.f = lastPlace F x + 1 by ring, Float.zsucc]; push_cast; ring
    · refine ⟨-2 ^ F.f, lastPlace F x + 1 + F.f, by rw [abs_neg, abs_of_pos hp, pow_succ]; omega, by have := lastPlace_ge F x; omega,
        Or.inl (by rw [abs_neg]; exact le_abs_self _), he2.neg, ?_⟩
      rw [e, show lastPlace F x + 1 + (F.f : ℤ) - F.f = lastPlace F x + 1 by ring, Float.zsucc]; push_cast; ring

end Verif.Check
