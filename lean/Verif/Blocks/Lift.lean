import Verif.Blocks.Lemmas
import Verif.Blocks.Model

/-! From rational formats to the integer core. -/

namespace Verif.Blocks

theorem zpow2_pos (e : ℤ) : (0:ℚ) < (2:ℚ) ^ e := zpow_pos (by norm_num) _

theorem Rep_neg {p : ℕ} {q : WithBot ℤ} {x : ℚ} (h : Rep p q x) : Rep p q (-x) := by
  obtain ⟨m, e, hm, he, rfl⟩ := h
  exact ⟨-m, e, by rwa [abs_neg], he, by push_cast; ring⟩

theorem Rep_zero (p : ℕ) (q : WithBot ℤ) : Rep p q 0 := by
  rcases q with _ | q
  · exact ⟨0, 0, by simp, bot_le, by simp⟩
  · exact ⟨0, q, by simp, le_refl _, by simp⟩

/-- integers of the core are format numbers -/
theorem Rep_of_FI {p : ℕ} (hp : 1 ≤ p) {q : WithBot ℤ} {e0 : ℤ} (he : q ≤ (e0 : WithBot ℤ))
    {n : ℤ} (h : FI p n) : Rep p q ((n : ℚ) * (2:ℚ) ^ e0) := by
  obtain ⟨m, k, hm, rfl⟩ := h
  have hle : ∀ j : ℕ, q ≤ ((e0 + j : ℤ) : WithBot ℤ) := fun j =>
    he.trans (WithBot.coe_le_coe.2 (by omega))
  rcases hm.lt_or_eq with h1 | h1
  · refine ⟨m, e0 + k, h1, hle k, ?_⟩
    rw [zpow_add₀ (by norm_num), zpow_natCast]; push_cast; ring
  · obtain ⟨j, rfl⟩ : ∃ j, p = j + 1 := ⟨p - 1, by omega⟩
    have hlt : (2:ℤ) ^ j < 2 ^ (j + 1) := by
      rw [pow_succ]; have : (0:ℤ) < 2 ^ j := by positivity
      linarith
    rcases abs_choice m with h2 | h2
    · refine ⟨2 ^ j, e0 + (k + 1 : ℕ), by rwa [abs_of_nonneg (by positivity)], hle _, ?_⟩
      rw [h1] at h2
      rw [← h2, zpow_add₀ (by norm_num), zpow_natCast]; push_cast; ring
    · refine ⟨-2 ^ j, e0 + (k + 1 : ℕ), by rwa [abs_neg, abs_of_nonneg (by positivity)],
        hle _, ?_⟩
      rw [h1] at h2
      rw [show m = -2 ^ (j + 1) by linarith, zpow_add₀ (by norm_num), zpow_natCast]
      push_cast; ring

/-- format numbers of exponent at least `e0` are integers of the core -/
theorem FI_of_Rep {p : ℕ} {m e e0 : ℤ} (hm : |m| < 2 ^ p) (he : e0 ≤ e) :
    ∃ n : ℤ, FI p n ∧ (m : ℚ) * (2:ℚ) ^ e = (n : ℚ) * (2:ℚ) ^ e0 := by
  obtain ⟨k, hk⟩ := Int.eq_ofNat_of_zero_le (show 0 ≤ e - e0 by omega)
  refine ⟨m * 2 ^ k, ⟨m, k, hm.le, rfl⟩, ?_⟩
  rw [show e = (k : ℤ) + e0 by omega, zpow_add₀ (by norm_num), zpow_natCast]
  push_cast; ring

theorem abs_le_scale {x y : ℤ} {e0 : ℤ} :
    |(x : ℚ) * (2:ℚ) ^ e0| ≤ |(y : ℚ) * (2:ℚ) ^ e0| ↔ |x| ≤ |y| := by
  rw [abs_mul, abs_mul, abs_of_pos (zpow2_pos e0), mul_le_mul_iff_left₀ (zpow2_pos e0)]
  norm_cast

/-- a rounding to nearest, seen in units of `2^e0` -/
theorem lift {p : ℕ} (hp : 1 ≤ p) {q : WithBot ℤ} {rnd : ℚ → ℚ} (hr : Nearest p q rnd)
    {e0 : ℤ} (he : q ≤ (e0 : WithBot ℤ)) :
    ∃ r : ℤ → ℤ, NI p r ∧ ∀ n : ℤ, rnd ((n : ℚ) * (2:ℚ) ^ e0) = (r n : ℚ) * (2:ℚ) ^ e0 := by
  have key : ∀ n : ℤ, ∃ z : ℤ, FI p z ∧
      rnd ((n : ℚ) * (2:ℚ) ^ e0) = (z : ℚ) * (2:ℚ) ^ e0 := by
    intro n
    obtain ⟨⟨m, e, hm, hqe, hx⟩, hnear⟩ := hr ((n : ℚ) * (2:ℚ) ^ e0)
    rcases le_or_gt e0 e with h1 | h1
    · obtain ⟨z, hz, hz2⟩ := FI_of_Rep hm h1
      exact ⟨z, hz, hx.trans hz2⟩
    · by_cases hn : FI p n
      · refine ⟨n, hn, ?_⟩
        have := hnear _ (Rep_of_FI hp he hn)
        rw [sub_self, abs_zero] at this
        linarith [abs_nonpos_iff.1 this]
      · exfalso
        have hbig : (2:ℤ) ^ p < |n| := by
          by_contra hc
          exact hn ⟨n, 0, by linarith, by simp⟩
        have hsm : |(m : ℚ) * (2:ℚ) ^ e| < (2:ℚ) ^ p * (2:ℚ) ^ e0 := by
          rw [abs_mul, abs_of_pos (zpow2_pos e)]
          have a1 : |(m : ℚ)| < 2 ^ p := by exact_mod_cast hm
          have a2 : (2:ℚ) ^ e ≤ 2 ^ e0 := zpow_le_zpow_right₀ (by norm_num) h1.le
          exact mul_lt_mul_of_lt_of_le_of_nonneg_of_pos a1 a2 (abs_nonneg _) (zpow2_pos e0)
        have hp0 := Rep_of_FI hp he (FI_pow p p)
        have hB : ((2 ^ p : ℤ) : ℚ) * (2:ℚ) ^ e0 = (2:ℚ) ^ p * (2:ℚ) ^ e0 := by push_cast; ring
        rw [hB] at hp0
        have hbig' : (2:ℚ) ^ p * (2:ℚ) ^ e0 < |(n : ℚ) * (2:ℚ) ^ e0| := by
          rw [abs_mul, abs_of_pos (zpow2_pos e0)]
          refine mul_lt_mul_of_pos_right ?_ (zpow2_pos e0)
          exact_mod_cast hbig
        rw [hx] at hnear
        generalize (2:ℚ) ^ p * (2:ℚ) ^ e0 = B at *
        generalize (n : ℚ) * (2:ℚ) ^ e0 = N at *
        generalize (m : ℚ) * (2:ℚ) ^ e = M at *
        obtain ⟨hl, hu⟩ := abs_lt.1 hsm
        rcases le_total 0 N with h2 | h2
        · rw [abs_of_nonneg h2] at hbig'
          have := hnear _ hp0
          rw [abs_of_nonneg (by linarith : 0 ≤ N - B), abs_of_nonneg (by linarith : 0 ≤ N - M)]
            at this
          linarith
        · rw [abs_of_nonpos h2] at hbig'
          have := hnear _ (Rep_neg hp0)
          rw [abs_of_nonpos (by linarith : N - -B ≤ 0),
            abs_of_nonpos (by linarith : N - M ≤ 0)] at this
          linarith
  choose r h1 h2 using key
  refine ⟨r, fun n => ⟨h1 n, fun y hy => ?_⟩, h2⟩
  have := (hr ((n : ℚ) * (2:ℚ) ^ e0)).2 _ (Rep_of_FI hp he hy)
  rw [h2, ← sub_mul, ← sub_mul] at this
  have h3 := @abs_le_scale (n - r n) (n - y) e0
  push_cast at h3
  exact h3.1 this

/-- two format numbers share a unit -/
theorem common_unit {p : ℕ} {q : WithBot ℤ} {x y : ℚ} (hx : Rep p q x) (hy : Rep p q y) :
    ∃ (e0 : ℤ) (a b : ℤ), q ≤ (e0 : WithBot ℤ) ∧ FI p a ∧ FI p b ∧
      x = (a : ℚ) * (2:ℚ) ^ e0 ∧ y = (b : ℚ) * (2:ℚ) ^ e0 := by
  obtain ⟨m, e, hm, he, rfl⟩ := hx
  obtain ⟨n, f, hn, hf, rfl⟩ := hy
  have hmin : q ≤ ((min e f : ℤ) : WithBot ℤ) := by
    rcases min_choice e f with h | h <;> rw [h] <;> assumption
  obtain ⟨a, ha, ha2⟩ := FI_of_Rep hm (min_le_left e f)
  obtain ⟨b, hb, hb2⟩ := FI_of_Rep hn (min_le_right e f)
  exact ⟨min e f, a, b, hmin, ha, hb, ha2, hb2⟩

theorem rnd_exact {p : ℕ} {q : WithBot ℤ} {rnd : ℚ → ℚ} (hr : Nearest p q rnd) {x : ℚ}
    (h : Rep p q x) : rnd x = x := by
  have := (hr x).2 x h
  rw [sub_self, abs_zero] at this
  linarith [abs_nonpos_iff.1 this]

end Verif.Blocks
