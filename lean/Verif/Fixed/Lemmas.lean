import Verif.Fixed.Model
import Mathlib.Tactic.Linarith
import Mathlib.Tactic.Ring
import Mathlib.Tactic.FieldSimp
import Mathlib.Tactic.Positivity
import Mathlib.Tactic.NormNum
import Mathlib.Tactic.Push

/-! Helper lemmas on grids and powers of two. -/

namespace Verif.Fixed

theorem two_zpow_pos (k : ℤ) : (0 : ℚ) < (2 : ℚ) ^ k := by positivity

theorem two_zpow_le {a b : ℤ} (h : a ≤ b) : (2 : ℚ) ^ a ≤ (2 : ℚ) ^ b :=
  zpow_le_zpow_right₀ (by norm_num) h

theorem two_zpow_succ (k : ℤ) : (2 : ℚ) ^ (k + 1) = 2 * (2 : ℚ) ^ k := by
  rw [zpow_add₀ (by norm_num)]; ring

theorem two_zpow_pred (k : ℤ) : (2 : ℚ) ^ k = 2 * (2 : ℚ) ^ (k - 1) := by
  have := two_zpow_succ (k - 1)
  rwa [sub_add_cancel] at this

theorem OnGrid.mono {a b : ℤ} {v : ℚ} (h : OnGrid a v) (hab : a ≤ b) : OnGrid b v := by
  obtain ⟨n, rfl⟩ := h
  obtain ⟨k, rfl⟩ := Int.le.dest hab
  refine ⟨n * 2 ^ k, ?_⟩
  push_cast
  rw [mul_assoc, neg_add, ← zpow_natCast (2 : ℚ) k, mul_comm ((2 : ℚ) ^ (k : ℤ)), ← zpow_add₀ (by norm_num)]
  congr 2; ring

theorem OnGrid.add {a : ℤ} {v w : ℚ} (hv : OnGrid a v) (hw : OnGrid a w) : OnGrid a (v + w) := by
  obtain ⟨n, rfl⟩ := hv; obtain ⟨m, rfl⟩ := hw
  exact ⟨n + m, by push_cast; ring⟩

theorem OnGrid.neg {a : ℤ} {v : ℚ} (hv : OnGrid a v) : OnGrid a (-v) := by
  obtain ⟨n, rfl⟩ := hv
  exact ⟨-n, by push_cast; ring⟩

theorem OnGrid.sub {a : ℤ} {v w : ℚ} (hv : OnGrid a v) (hw : OnGrid a w) : OnGrid a (v - w) := by
  rw [sub_eq_add_neg]; exact hv.add hw.neg

theorem OnGrid.mul {a b : ℤ} {v w : ℚ} (hv : OnGrid a v) (hw : OnGrid b w) : OnGrid (a + b) (v * w) := by
  obtain ⟨n, rfl⟩ := hv; obtain ⟨m, rfl⟩ := hw
  refine ⟨n * m, ?_⟩
  push_cast
  rw [neg_add, zpow_add₀ (by norm_num)]; ring

theorem zpow_mul_neg (k : ℤ) : (2 : ℚ) ^ (-k) * (2 : ℚ) ^ k = 1 := by
  rw [← zpow_add₀ (by norm_num)]; simp

theorem OnGrid.pow {a : ℤ} {k : ℤ} (h : -a ≤ k) : OnGrid a ((2 : ℚ) ^ k) := by
  obtain ⟨j, hj⟩ := Int.le.dest h
  refine ⟨2 ^ j, ?_⟩
  push_cast
  rw [← zpow_natCast (2 : ℚ) j, ← zpow_add₀ (by norm_num)]
  congr 1; omega

/-- Between two grid points there is at least one grid step. -/
theorem OnGrid.lt_step {a : ℤ} {v w : ℚ} (hv : OnGrid a v) (hw : OnGrid a w) (h : v < w) :
    v + (2 : ℚ) ^ (-a) ≤ w := by
  obtain ⟨n, rfl⟩ := hv; obtain ⟨m, rfl⟩ := hw
  have hp := two_zpow_pos (-a)
  have hnm : n < m := by
    have := lt_of_mul_lt_mul_right h hp.le
    exact_mod_cast this
  have : ((n : ℚ) + 1) ≤ m := by exact_mod_cast hnm
  nlinarith

theorem pyInt_intCast (n : ℤ) : pyInt (n : ℚ) = n := by
  unfold pyInt
  split
  · simp
  · rw [show (-(n : ℚ)) = ((-n : ℤ) : ℚ) by push_cast; rfl, Int.floor_intCast, neg_neg]

theorem maxValue_eq (f : Fmt) :
    maxValue f = (2 : ℚ) ^ (if f.signed then f.int - 1 else f.int) - (2 : ℚ) ^ (-f.frac) := by
  unfold maxValue
  cases f.signed <;> simp only [sub_mul, one_mul, Bool.false_eq_true, if_false, if_true] <;>
    rw [← zpow_add₀ (by norm_num)] <;> congr 2 <;> ring

theorem minValue_eq (f : Fmt) : minValue f = if f.signed then -(2 : ℚ) ^ (f.int - 1) else 0 := by
  unfold minValue
  cases f.signed <;> simp only [Bool.not_false, Bool.not_true, if_true, if_false, Bool.false_eq_true]
  rw [← zpow_add₀ (by norm_num)]
  congr 2; ring

/-- The bounds and the grid describe the value set. -/
theorem holds_iff_bounds (f : Fmt) (hb : 1 ≤ f.bits) (v : ℚ) :
    f.Holds v ↔ OnGrid f.frac v ∧ minValue f ≤ v ∧ v ≤ maxValue f := by
  unfold Fmt.Holds
  rw [maxValue_eq, minValue_eq]
  unfold Fmt.bits at hb
  have key : ∀ k : ℤ, -f.frac ≤ k → OnGrid f.frac v →
      (v < (2 : ℚ) ^ k ↔ v ≤ (2 : ℚ) ^ k - (2 : ℚ) ^ (-f.frac)) := by
    intro k hk hv
    constructor
    · intro h
      have := hv.lt_step (OnGrid.pow hk) h
      linarith
    · intro h
      have := two_zpow_pos (-f.frac)
      linarith
  constructor
  · rintro ⟨hg, hr⟩
    refine ⟨hg, ?_⟩
    cases hs : f.signed <;> simp only [hs, Bool.false_eq_true, if_false, if_true] at hr ⊢
    · exact ⟨hr.1, (key f.int (by omega) hg).1 hr.2⟩
    · exact ⟨hr.1, (key (f.int - 1) (by omega) hg).1 hr.2⟩
  · rintro ⟨hg, hr⟩
    refine ⟨hg, ?_⟩
    cases hs : f.signed <;> simp only [hs, Bool.false_eq_true, if_false, if_true] at hr ⊢
    · exact ⟨hr.1, (key f.int (by omega) hg).2 hr.2⟩
    · exact ⟨hr.1, (key (f.int - 1) (by omega) hg).2 hr.2⟩

theorem zpow_toNat (k : ℤ) (h : 0 ≤ k) : ((2 : ℚ) ^ k.toNat) = (2 : ℚ) ^ k := by
  rw [← zpow_natCast]; congr 1; omega

end Verif.Fixed
