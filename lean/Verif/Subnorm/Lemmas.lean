import Verif.Subnorm.Spec
import Verif.Subnorm.Model
import Verif.Blocks.Exist
import Mathlib.Tactic

namespace Verif.Subnorm

open Verif.Blocks (Rep Nearest)

theorem p2 (e : ℤ) : (0 : ℚ) < (2 : ℚ) ^ e := zpow_pos (by norm_num) e

theorem p2s (e : ℤ) : (2 : ℚ) ^ (e + 1) = 2 * (2 : ℚ) ^ e := by rw [zpow_add₀ (by norm_num)]; ring

/-- a multiple of the grid at less than half a step is the nearest one -/
theorem grid_unique {g x y : ℚ} (hg : 0 < g) (h : GridNearest g x y) {k : ℤ} (hk : |x - k * g| < g / 2) : y = k * g := by
  obtain ⟨m, rfl, h1, -⟩ := h
  have h2 : |((m - k : ℤ) : ℚ)| * g < 1 * g := by
    rw [← abs_of_pos hg, ← abs_mul, abs_of_pos hg]
    have : ((m - k : ℤ) : ℚ) * g = (x - k * g) - (x - m * g) := by push_cast; ring
    rw [this]
    exact lt_of_le_of_lt (abs_sub _ _) (by linarith)
  have h3 := lt_of_mul_lt_mul_right h2 hg.le
  have h4 : |m - k| < 1 := by exact_mod_cast h3
  have h5 := Int.abs_lt_one_iff.1 h4
  rw [show m = k by omega]

/-- an even multiple at half a step or less is the one chosen -/
theorem grid_even {g x y : ℚ} (hg : 0 < g) (h : GridNearest g x y) {k : ℤ} (he : Even k) (hk : |x - k * g| ≤ g / 2) : y = k * g := by
  rcases lt_or_eq_of_le hk with hlt | heq
  · exact grid_unique hg h hlt
  obtain ⟨m, rfl, h1, h2⟩ := h
  rcases lt_or_eq_of_le h1 with hlt | heq'
  · exact (grid_unique hg (y := k * g) (k := m) ⟨k, rfl, hk, fun _ => he⟩ hlt).symm
  have hm := h2 heq'
  have h3 : |((m - k : ℤ) : ℚ)| * g ≤ 1 * g := by
    rw [← abs_of_pos hg, ← abs_mul, abs_of_pos hg]
    have : ((m - k : ℤ) : ℚ) * g = (x - k * g) - (x - m * g) := by push_cast; ring
    rw [this]
    exact le_trans (abs_sub _ _) (by linarith)
  have h4 : |m - k| ≤ 1 := by exact_mod_cast le_of_mul_le_mul_right h3 hg
  obtain ⟨a, rfl⟩ := hm
  obtain ⟨b, rfl⟩ := he
  have := abs_le.1 h4
  rw [show a + a = b + b by omega]

theorem binade {x : ℚ} (hx : x ≠ 0) : (2 : ℚ) ^ Int.log 2 |x| ≤ |x| ∧ |x| < (2 : ℚ) ^ (Int.log 2 |x| + 1) := by
  have h1 := Int.zpow_log_le_self (b := 2) (by norm_num) (abs_pos.2 hx)
  have h2 := Int.lt_zpow_succ_log_self (b := 2) (by norm_num) |x|
  push_cast at h1 h2
  exact ⟨h1, h2⟩

theorem Rep_mul {p : ℕ} {m e : ℤ} (hm : |m| ≤ 2 ^ p) (hp : 1 ≤ p) : Rep p ⊥ ((m : ℚ) * (2 : ℚ) ^ e) := by
  rcases lt_or_eq_of_le hm with h | h
  · exact ⟨m, e, h, bot_le, rfl⟩
  · obtain ⟨q, rfl⟩ : ∃ q, p = q + 1 := ⟨p - 1, by omega⟩
    rcases abs_eq (by positivity : (0 : ℤ) ≤ 2 ^ (q + 1)) |>.1 h with h | h
    · refine ⟨2 ^ q, e + 1, ?_, bot_le, ?_⟩
      · rw [abs_of_pos (by positivity)]; exact pow_lt_pow_right₀ (by norm_num) (by omega)
      · rw [h, p2s]; push_cast; ring
    · refine ⟨-2 ^ q, e + 1, ?_, bot_le, ?_⟩
      · rw [abs_neg, abs_of_pos (by positivity)]; exact pow_lt_pow_right₀ (by norm_num) (by omega)
      · rw [h, p2s]; push_cast; ring

theorem RNE.nearest {p : ℕ} (hp : 1 ≤ p) {rnd : ℚ → ℚ} (h : RNE p rnd) : Nearest p ⊥ rnd := by
  intro x
  rcases eq_or_ne x 0 with rfl | hx0
  · rw [h.1]
    exact ⟨⟨0, 0, by simp, bot_le, by simp⟩, fun y _ => by rw [sub_self, abs_zero]; exact abs_nonneg _⟩
  obtain ⟨hlow, hhigh⟩ := binade hx0
  obtain ⟨M, hM, hd, -⟩ := h.2 x (Int.log 2 |x|) hlow hhigh.le
  generalize Int.log 2 |x| = L at *
  obtain ⟨E, hE⟩ : ∃ E, E = L - p + 1 := ⟨_, rfl⟩
  rw [← hE] at hM hd
  have hpos := p2 E
  have hL1 : (2 : ℚ) ^ (L + 1) = ((2 ^ p : ℤ) : ℚ) * (2 : ℚ) ^ E := by
    rw [show L + 1 = p + E by omega, zpow_add₀ (by norm_num), zpow_natCast]; push_cast; rfl
  constructor
  · rw [hM]
    refine Rep_mul ?_ hp
    have h1 : |(M : ℚ)| * (2 : ℚ) ^ E ≤ (((2 ^ p : ℤ) : ℚ) + 1 / 2) * (2 : ℚ) ^ E := by
      rw [← abs_of_pos hpos, ← abs_mul, abs_of_pos hpos, ← hM]
      have := abs_sub_abs_le_abs_sub (rnd x) x
      rw [abs_sub_comm] at this
      rw [hL1] at hhigh
      linarith
    have h2 := le_of_mul_le_mul_right h1 hpos
    by_contra hc
    push Not at hc
    have : ((2 ^ p : ℤ) : ℚ) + 1 ≤ |(M : ℚ)| := by exact_mod_cast (by omega : (2 : ℤ) ^ p + 1 ≤ |M|)
    linarith
  · have hdist : ∀ z : ℤ, |x - rnd x| ≤ |x - z * (2:ℚ) ^ E| := by
      intro z
      by_contra hc
      push Not at hc
      have := grid_unique hpos (y := rnd x) (k := z) ⟨M, hM, hd, ?_⟩ (by linarith)
      · rw [this] at hc; exact lt_irrefl _ hc
      · intro he
        exfalso
        have h3 := grid_unique (x := x) hpos (y := rnd x) (g := (2:ℚ)^E) (k := z) (h.2 x L hlow hhigh.le |> fun h4 => by rw [hE]; exact h4) (by linarith)
        rw [h3] at hc; exact lt_irrefl _ hc
    rintro y ⟨m, e, hm, -, rfl⟩
    rcases le_or_gt E e with h1 | h1
    · obtain ⟨k, hk⟩ := Int.eq_ofNat_of_zero_le (show 0 ≤ e - E by omega)
      have : (m : ℚ) * (2 : ℚ) ^ e = ((m * 2 ^ k : ℤ) : ℚ) * (2 : ℚ) ^ E := by
        rw [show e = k + E by omega, zpow_add₀ (by norm_num), zpow_natCast]; push_cast; ring
      rw [this]; exact hdist _
    · -- |y| < 2^L ≤ |x|
      have hy : |(m : ℚ) * (2:ℚ) ^ e| < (2:ℚ) ^ L := by
        rw [abs_mul, abs_of_pos (p2 e)]
        have a1 : |(m : ℚ)| < 2 ^ p := by exact_mod_cast hm
        refine (mul_lt_mul_of_pos_right a1 (p2 e)).trans_le ?_
        rw [← zpow_natCast, ← zpow_add₀ (by norm_num)]
        exact zpow_le_zpow_right₀ (by norm_num) (by omega)
      obtain ⟨j, rfl⟩ : ∃ j, p = j + 1 := ⟨p - 1, by omega⟩
      have hB : (2:ℚ) ^ L = ((2 ^ j : ℤ) : ℚ) * (2:ℚ) ^ E := by
        rw [show L = j + E by push_cast at hE; omega, zpow_add₀ (by norm_num), zpow_natCast]; push_cast; rfl
      rw [hB] at hy hlow
      have hd1 := hdist (2 ^ j)
      have hd2 := hdist (-2 ^ j)
      have hcast : ((-2 ^ j : ℤ) : ℚ) * (2:ℚ) ^ E = -(((2 ^ j : ℤ) : ℚ) * (2:ℚ) ^ E) := by
        push_cast; ring
      rw [hcast] at hd2
      generalize ((2 ^ j : ℤ) : ℚ) * (2:ℚ) ^ E = B at *
      generalize (m : ℚ) * (2:ℚ) ^ e = Y at *
      obtain ⟨hl, hu⟩ := abs_lt.1 hy
      rcases le_total 0 x with h2 | h2
      · rw [abs_of_nonneg h2] at hlow
        refine hd1.trans ?_
        rw [abs_of_nonneg (by linarith : 0 ≤ x - B), abs_of_nonneg (by linarith : 0 ≤ x - Y)]
        linarith
      · rw [abs_of_nonpos h2] at hlow
        refine hd2.trans ?_
        rw [abs_of_nonpos (by linarith : x - -B ≤ 0), abs_of_nonpos (by linarith : x - Y ≤ 0)]
        linarith

/-! ## Such a rounding exists -/

/-- the nearest integer, ties to even -/
def toEven (y : ℚ) : ℤ :=
  if y - ⌊y⌋ < 1 / 2 then ⌊y⌋ else if 1 / 2 < y - ⌊y⌋ then ⌊y⌋ + 1 else if Even ⌊y⌋ then ⌊y⌋ else ⌊y⌋ + 1

theorem toEven_spec (y : ℚ) : |y - toEven y| ≤ 1 / 2 ∧ (|y - toEven y| = 1 / 2 → Even (toEven y)) := by
  have h1 := Int.floor_le y
  have h2 := Int.lt_floor_add_one y
  unfold toEven
  split_ifs with a b c
  · rw [abs_of_nonneg (by linarith)]; exact ⟨by linarith, fun h => by linarith⟩
  · push_cast; rw [abs_of_nonpos (by linarith)]; exact ⟨by linarith, fun h => by linarith⟩
  · rw [abs_of_nonneg (by linarith)]; exact ⟨by linarith, fun _ => c⟩
  · push_cast; rw [abs_of_nonpos (by linarith)]; exact ⟨by linarith, fun _ => (Int.not_even_iff_odd.1 c).add_one⟩

/-- rounding to nearest even with `p` bits -/
def rne (p : ℕ) (x : ℚ) : ℚ := toEven (x / (2 : ℚ) ^ (Int.log 2 |x| - p + 1)) * (2 : ℚ) ^ (Int.log 2 |x| - p + 1)

theorem rne_grid (p : ℕ) (x : ℚ) : GridNearest ((2 : ℚ) ^ (Int.log 2 |x| - p + 1)) x (rne p x) := by
  unfold rne
  generalize Int.log 2 |x| - p + 1 = E
  have hpos := p2 E
  obtain ⟨h1, h2⟩ := toEven_spec (x / (2 : ℚ) ^ E)
  have h3 : |x - toEven (x / (2 : ℚ) ^ E) * (2 : ℚ) ^ E| = |x / (2 : ℚ) ^ E - toEven (x / (2 : ℚ) ^ E)| * (2 : ℚ) ^ E := by
    rw [← abs_of_pos hpos, ← abs_mul, abs_of_pos hpos]; congr 1; field_simp
  refine ⟨_, rfl, ?_, ?_⟩
  · rw [h3]; nlinarith
  · rw [h3]
    intro h
    refine h2 ?_
    have : |x / (2 : ℚ) ^ E - toEven (x / (2 : ℚ) ^ E)| * (2 : ℚ) ^ E = 1 / 2 * (2 : ℚ) ^ E := by linarith
    exact mul_right_cancel₀ hpos.ne' this

theorem toEven_int (j : ℤ) : toEven (j : ℚ) = j := by
  unfold toEven
  rw [Int.floor_intCast, sub_self, if_pos (by norm_num)]

theorem rne_RNE {p : ℕ} (hp : 1 ≤ p) : RNE p (rne p) := by
  refine ⟨by simp [rne, toEven], ?_⟩
  intro x e h1 h2
  have hx : x ≠ 0 := by
    rintro rfl
    rw [abs_zero] at h1
    exact absurd h1 (not_le.2 (p2 e))
  obtain ⟨l1, l2⟩ := binade hx
  rcases lt_or_eq_of_le h2 with h2 | h2
  · have : Int.log 2 |x| = e := by
      have a := (zpow_lt_zpow_iff_right₀ (by norm_num : (1:ℚ) < 2)).1 (lt_of_le_of_lt l1 h2)
      have b := (zpow_lt_zpow_iff_right₀ (by norm_num : (1:ℚ) < 2)).1 (lt_of_le_of_lt h1 l2)
      omega
    have h := rne_grid p x
    rwa [this] at h
  · have hl : Int.log 2 |x| = e + 1 := by
      rw [h2] at l1 l2 ⊢
      have a := (zpow_le_zpow_iff_right₀ (by norm_num : (1:ℚ) < 2)).1 l1
      have b := (zpow_lt_zpow_iff_right₀ (by norm_num : (1:ℚ) < 2)).1 l2
      omega
    have h := rne_grid p x
    rw [hl] at h
    have hg : (2 : ℚ) ^ (e + 1 - p + 1) = 2 * (2 : ℚ) ^ (e - p + 1) := by rw [show e + 1 - (p : ℤ) + 1 = (e - p + 1) + 1 by ring, p2s]
    have hx2 : |x| = ((2 ^ p : ℤ) : ℚ) * (2 : ℚ) ^ (e - p + 1) := by
      rw [h2, show e + 1 = p + (e - p + 1) by ring, zpow_add₀ (by norm_num), zpow_natCast]; push_cast; rfl
    have hpos := p2 (e - p + 1)
    obtain ⟨k, hk⟩ : ∃ k : ℤ, x = k * (2 : ℚ) ^ (e - p + 1) := by
      rcases abs_choice x with h | h
      · exact ⟨2 ^ p, by rw [← hx2, h]⟩
      · refine ⟨-2 ^ p, ?_⟩
        rw [h] at hx2
        push_cast at hx2 ⊢
        linarith
    have hx' : rne p x = x := by
      unfold rne
      rw [hl]
      obtain ⟨j, hj⟩ : ∃ j : ℤ, x = j * (2 : ℚ) ^ (e + 1 - p + 1) := by
        obtain ⟨q, rfl⟩ : ∃ q, p = q + 1 := ⟨p - 1, by omega⟩
        rw [hg]
        rcases abs_choice x with h | h
        · exact ⟨2 ^ q, by rw [← h, hx2]; push_cast; ring⟩
        · refine ⟨-2 ^ q, ?_⟩
          have : x = -|x| := by rw [h]; ring
          rw [this, hx2]; push_cast; ring
      have h5 : x / (2 : ℚ) ^ (e + 1 - p + 1) = j := by
        rw [div_eq_iff (p2 _).ne']; exact hj
      rw [h5, toEven_int]; exact hj.symm
    rw [hx']
    exact ⟨k, hk, by rw [sub_self, abs_zero]; positivity, fun h => by rw [sub_self, abs_zero] at h; linarith⟩

end Verif.Subnorm
