import Verif.Blocks.Lift
import Mathlib.Algebra.Order.Round
import Mathlib.Data.Rat.Floor

/-! A rounding to nearest exists for every format (so the hypothesis `Nearest` is satisfiable). -/

namespace Verif.Blocks

/-- exponent of the last place of `x` -/
def lastPlace (p : ℕ) (q : WithBot ℤ) (x : ℚ) : ℤ :=
  match q with
  | none => Int.log 2 |x| - p + 1
  | some q => max q (Int.log 2 |x| - p + 1)

/-- round to nearest, ties upwards -/
def roundNearest (p : ℕ) (q : WithBot ℤ) (x : ℚ) : ℚ :=
  (round (x / (2:ℚ) ^ lastPlace p q x) : ℤ) * (2:ℚ) ^ lastPlace p q x

theorem lastPlace_ge (p : ℕ) (q : WithBot ℤ) (x : ℚ) :
    q ≤ (lastPlace p q x : WithBot ℤ) ∧ Int.log 2 |x| - p + 1 ≤ lastPlace p q x := by
  rcases q with _ | q
  · exact ⟨bot_le, le_refl _⟩
  · exact ⟨WithBot.coe_le_coe.2 (le_max_left _ _), le_max_right _ _⟩

theorem lastPlace_cases (p : ℕ) (q : WithBot ℤ) (x : ℚ) :
    lastPlace p q x = Int.log 2 |x| - p + 1 ∨ (lastPlace p q x : WithBot ℤ) = q := by
  rcases q with _ | q
  · exact Or.inl rfl
  · rcases max_choice q (Int.log 2 |x| - p + 1) with h | h
    · right; show ((max q _ : ℤ) : WithBot ℤ) = _; rw [h]; rfl
    · left; exact h

theorem roundNearest_nearest {p : ℕ} (hp : 1 ≤ p) (q : WithBot ℤ) :
    Nearest p q (roundNearest p q) := by
  intro x
  rcases eq_or_ne x 0 with rfl | hx0
  · have : roundNearest p q 0 = 0 := by simp [roundNearest]
    rw [this]
    exact ⟨Rep_zero p q, fun y _ => by rw [sub_self, abs_zero]; exact abs_nonneg _⟩
  have hax : 0 < |x| := abs_pos.2 hx0
  obtain ⟨hq, hE⟩ := lastPlace_ge p q x
  have hcases := lastPlace_cases p q x
  unfold roundNearest
  generalize lastPlace p q x = E at hq hE hcases
  have hlow := Int.zpow_log_le_self (b := 2) (by norm_num) hax
  have hhigh := Int.lt_zpow_succ_log_self (b := 2) (by norm_num) |x|
  push_cast at hlow hhigh
  have hpos := zpow2_pos E
  have hdist : ∀ z : ℤ, |x - (round (x / (2:ℚ) ^ E) : ℤ) * (2:ℚ) ^ E| ≤ |x - z * (2:ℚ) ^ E| := by
    intro z
    have h1 := round_le (x / (2:ℚ) ^ E) z
    have h2 : ∀ w : ℤ, x - w * (2:ℚ) ^ E = (x / (2:ℚ) ^ E - w) * (2:ℚ) ^ E := by
      intro w; field_simp
    rw [h2, h2, abs_mul, abs_mul, abs_of_pos hpos]
    exact mul_le_mul_of_nonneg_right h1 hpos.le
  have hxE : |x / (2:ℚ) ^ E| < 2 ^ p := by
    rw [abs_div, abs_of_pos hpos, div_lt_iff₀ hpos, ← zpow_natCast, ← zpow_add₀ (by norm_num)]
    exact hhigh.trans_le (zpow_le_zpow_right₀ (by norm_num) (by omega))
  constructor
  · refine Rep_of_FI hp hq ⟨_, 0, ?_, by rw [pow_zero, mul_one]⟩
    obtain ⟨hl, hu⟩ := abs_lt.1 hxE
    have h1 := abs_sub_round (x / (2:ℚ) ^ E)
    obtain ⟨h2, h3⟩ := abs_le.1 h1
    rw [abs_le]
    have hl' : (-(2 ^ p : ℤ) : ℚ) < x / (2:ℚ) ^ E := by push_cast; exact hl
    have hu' : x / (2:ℚ) ^ E < ((2 ^ p : ℤ) : ℚ) := by push_cast; exact hu
    constructor
    · by_contra hc
      push Not at hc
      have : ((round (x / (2:ℚ) ^ E) : ℤ) : ℚ) ≤ -(2 ^ p : ℤ) - 1 := by
        exact_mod_cast (by omega : round (x / (2:ℚ) ^ E) ≤ -2 ^ p - 1)
      linarith
    · by_contra hc
      push Not at hc
      have : ((2 ^ p : ℤ) : ℚ) + 1 ≤ (round (x / (2:ℚ) ^ E) : ℤ) := by
        exact_mod_cast (by omega : 2 ^ p + 1 ≤ round (x / (2:ℚ) ^ E))
      linarith
  · rintro y ⟨m, e, hm, hqe, rfl⟩
    rcases le_or_gt E e with h1 | h1
    · obtain ⟨z, -, hz⟩ := FI_of_Rep hm h1
      rw [hz]; exact hdist z
    · have hEe : E = Int.log 2 |x| - p + 1 := by
        rcases hcases with h | h
        · exact h
        · exfalso
          rw [← h] at hqe
          have := WithBot.coe_le_coe.1 hqe
          omega
      -- |y| < 2^(p-1) 2^E ≤ |x|
      have hy : |(m : ℚ) * (2:ℚ) ^ e| < (2:ℚ) ^ ((p:ℤ) - 1 + E) := by
        rw [abs_mul, abs_of_pos (zpow2_pos e)]
        have a1 : |(m : ℚ)| < 2 ^ p := by exact_mod_cast hm
        refine (mul_lt_mul_of_pos_right a1 (zpow2_pos e)).trans_le ?_
        rw [← zpow_natCast, ← zpow_add₀ (by norm_num)]
        exact zpow_le_zpow_right₀ (by norm_num) (by omega)
      have hx : (2:ℚ) ^ ((p:ℤ) - 1 + E) ≤ |x| := by
        rw [show (p:ℤ) - 1 + E = Int.log 2 |x| by omega]; exact hlow
      obtain ⟨j, rfl⟩ : ∃ j, p = j + 1 := ⟨p - 1, by omega⟩
      have hB : (2:ℚ) ^ (((j + 1 : ℕ):ℤ) - 1 + E) = ((2 ^ j : ℤ) : ℚ) * (2:ℚ) ^ E := by
        rw [zpow_add₀ (by norm_num)]; push_cast
        rw [add_sub_cancel_right, zpow_natCast]
      rw [hB] at hy hx
      have hd1 := hdist (2 ^ j)
      have hd2 := hdist (-2 ^ j)
      have hcast : ((-2 ^ j : ℤ) : ℚ) * (2:ℚ) ^ E = -(((2 ^ j : ℤ) : ℚ) * (2:ℚ) ^ E) := by
        push_cast; ring
      rw [hcast] at hd2
      generalize ((2 ^ j : ℤ) : ℚ) * (2:ℚ) ^ E = B at *
      generalize (m : ℚ) * (2:ℚ) ^ e = Y at *
      obtain ⟨hl, hu⟩ := abs_lt.1 hy
      rcases le_total 0 x with h2 | h2
      · rw [abs_of_nonneg h2] at hx
        refine hd1.trans ?_
        rw [abs_of_nonneg (by linarith : 0 ≤ x - B), abs_of_nonneg (by linarith : 0 ≤ x - Y)]
        linarith
      · rw [abs_of_nonpos h2] at hx
        refine hd2.trans ?_
        rw [abs_of_nonpos (by linarith : x - -B ≤ 0), abs_of_nonpos (by linarith : x - Y ≤ 0)]
        linarith

end Verif.Blocks
