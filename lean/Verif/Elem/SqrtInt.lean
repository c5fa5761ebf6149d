import Mathlib.Data.Real.Basic
import Mathlib.Data.Int.GCD
import Mathlib.RingTheory.Coprime.Lemmas
import Mathlib.Algebra.Ring.Parity
import Mathlib.Tactic.Linarith
import Mathlib.Tactic.NormNum
import Mathlib.Tactic.FieldSimp
import Mathlib.Tactic.LinearCombination
import Mathlib.Tactic.Positivity
import Mathlib.Tactic.Ring

/-! # Distance of square roots to the midpoints of the format, in units of half the last place of the root -/

namespace Verif.Elem

/-- `X` is the radicand, in units of the square of half the last place of the root `s`; `T` such units are the power of two below the root -/
structure Sq (T X : ℤ) (s : ℝ) : Prop where
  hT : ∃ k : ℕ, 21 ≤ k ∧ T = 2 ^ k
  s0 : 0 < s
  hs : s ^ 2 = X
  lo : T ^ 2 ≤ X
  hi : X < 4 * T ^ 2
  g1 : 2 * T ∣ X
  g2 : 2 * T ^ 2 ≤ X → 4 * T ∣ X

namespace Sq

variable {T X : ℤ} {s : ℝ}

theorem big (h : Sq T X s) : 2 ^ 21 ≤ T := by
  obtain ⟨k, hk, rfl⟩ := h.hT
  exact pow_le_pow_right₀ (by norm_num) hk

theorem dvd4 (h : Sq T X s) : (4 : ℤ) ∣ T := by
  obtain ⟨k, hk, rfl⟩ := h.hT
  exact ⟨2 ^ (k - 2), by rw [show (4 : ℤ) = 2 ^ 2 by norm_num, ← pow_add]; congr 1; omega⟩

theorem mod8 (h : Sq T X s) : (8 : ℤ) ∣ X := by
  obtain ⟨a, ha⟩ := h.dvd4
  obtain ⟨b, hb⟩ := h.g1
  exact ⟨a * b, by rw [hb, ha]; ring⟩

theorem upper (h : Sq T X s) : X ≤ 4 * T ^ 2 - 4 * T := by
  have hT := h.big
  by_cases hc : 2 * T ^ 2 ≤ X
  · obtain ⟨b, hb⟩ := h.g2 hc
    have h1 := h.hi
    have : b < T := by
      by_contra hcc
      nlinarith [not_lt.1 hcc]
    nlinarith
  · nlinarith

theorem lt_of_sq (h : Sq T X s) {m : ℝ} (hm : 0 ≤ m) (h1 : m ^ 2 < X) : m < s := by
  rw [← h.hs] at h1
  exact lt_of_pow_lt_pow_left₀ 2 h.s0.le h1

theorem sq_lt_of (h : Sq T X s) {m : ℝ} (hm : 0 ≤ m) (h1 : (X : ℝ) < m ^ 2) : s < m := by
  rw [← h.hs] at h1
  exact lt_of_pow_lt_pow_left₀ 2 hm h1

theorem bigR (h : Sq T X s) : (2 : ℝ) ^ 21 ≤ T := by have := h.big; exact_mod_cast this

theorem s_lo (h : Sq T X s) : (T : ℝ) ≤ s := by
  have h1 : ((T : ℝ)) ^ 2 ≤ s ^ 2 := by rw [h.hs]; exact_mod_cast h.lo
  have := h.s0
  have := h.bigR
  nlinarith

theorem s_hi (h : Sq T X s) : s < 2 * T - 1 := by
  have hT := h.bigR
  refine h.sq_lt_of (by linarith) ?_
  have : ((X : ℤ) : ℝ) ≤ ((4 * T ^ 2 - 4 * T : ℤ) : ℝ) := by exact_mod_cast h.upper
  push_cast at this
  nlinarith

theorem mid_gt (h : Sq T X s) {M : ℤ} (hM : Odd M) (h0 : 0 ≤ M) (h1 : (M : ℝ) < s) : M ^ 2 + 7 ≤ X := by
  have h2 : M ^ 2 < X := by
    have : (M : ℝ) ^ 2 < X := by
      rw [← h.hs]
      have : (0 : ℝ) ≤ M := by exact_mod_cast h0
      nlinarith
    exact_mod_cast this
  obtain ⟨b, hb⟩ := h.mod8
  have h8 : M ^ 2 % 8 = 1 := by
    have hm : M % 8 = 1 ∨ M % 8 = 3 ∨ M % 8 = 5 ∨ M % 8 = 7 := by
      obtain ⟨k, hk⟩ := hM; omega
    rcases hm with hm | hm | hm | hm <;> simp [sq, Int.mul_emod, hm]
  omega

theorem mid_lt (h : Sq T X s) {M : ℤ} (hM : Odd M) (h0 : T < M) (h2 : M < 2 * T) (h1 : s < M) :
    X ≤ M ^ 2 - 9 ∨ (X = T * (T + 2) ∧ M = T + 1) ∨ (X = 4 * T ^ 2 - 4 * T ∧ M = 2 * T - 1) := by
  have h3 : X < M ^ 2 := by
    have : (X : ℝ) < (M : ℝ) ^ 2 := by
      rw [← h.hs]
      have := h.s0
      nlinarith
    exact_mod_cast this
  have h8 : M ^ 2 % 8 = 1 := by
    have hm : M % 8 = 1 ∨ M % 8 = 3 ∨ M % 8 = 5 ∨ M % 8 = 7 := by
      obtain ⟨k, hk⟩ := hM; omega
    rcases hm with hm | hm | hm | hm <;> simp [sq, Int.mul_emod, hm]
  obtain ⟨b, hb⟩ := h.mod8
  by_cases hc : X ≤ M ^ 2 - 9
  · exact .inl hc
  right
  have hX : X = (M - 1) * (M + 1) := by
    have : X = M ^ 2 - 1 := by omega
    rw [this]; ring
  obtain ⟨c, hc'⟩ := h.g1
  obtain ⟨k, hk⟩ := hM
  obtain ⟨n, hn, hTn⟩ := h.hT
  have e : T * c = k * (2 * (k + 1)) := by
    have : 2 * (T * c) = 2 * (k * (2 * (k + 1))) := by
      rw [show 2 * (T * c) = 2 * T * c by ring, ← hc', hX, hk]; ring
    exact mul_left_cancel₀ (by norm_num) this
  have hT := h.big
  rcases Int.even_or_odd k with ⟨a, ha⟩ | ⟨a, ha⟩
  · left
    have hcop : IsCoprime T (k + 1) := by
      rw [hTn]
      apply IsCoprime.pow_left
      exact ⟨-a, 1, by rw [ha]; ring⟩
    have hd : T ∣ 2 * k := by
      refine hcop.dvd_of_dvd_mul_right ⟨c, ?_⟩
      rw [e]; ring
    obtain ⟨d, hd⟩ := hd
    have : d = 1 := by
      have h5 : 0 < d := by
        by_contra hcc
        nlinarith [not_lt.1 hcc]
      have h6 : d < 2 := by
        by_contra hcc
        nlinarith [not_lt.1 hcc]
      omega
    subst this
    constructor
    · rw [hX, hk, hd]; ring
    · rw [hk, hd]; ring
  · right
    have hcop : IsCoprime T k := by
      rw [hTn]
      apply IsCoprime.pow_left
      exact ⟨-a, 1, by rw [ha]; ring⟩
    have hd : T ∣ 2 * (k + 1) := by
      refine hcop.dvd_of_dvd_mul_left ⟨c, ?_⟩
      rw [e]
    obtain ⟨d, hd⟩ := hd
    have : d = 2 := by
      have h5 : 1 < d := by
        by_contra hcc
        nlinarith [not_lt.1 hcc]
      have h6 : d < 3 := by
        by_contra hcc
        nlinarith [not_lt.1 hcc]
      omega
    subst this
    have hM2 : M = 2 * T - 1 := by rw [hk]; linarith
    refine ⟨?_, hM2⟩
    rw [hX, hM2]; ring

/-- near the upper end of the binade the radicand is on the grid of `4 * T` -/
theorem top (h : Sq T X s) {c : ℤ} (hc : c ≤ 1000) (h1 : (2 * T - c : ℝ) < s) : ∃ j : ℤ, X = 4 * T ^ 2 - 4 * T * j := by
  have hT := h.big
  have h2 : 2 * T ^ 2 ≤ X := by
    have : (2 * T ^ 2 : ℝ) ≤ X := by
      rw [← h.hs]
      have hR := h.bigR
      have hc' : (c : ℝ) ≤ 1000 := by exact_mod_cast hc
      have h3 : (3 / 2 : ℝ) * T ≤ s := by linarith
      nlinarith
    exact_mod_cast this
  obtain ⟨b, hb⟩ := h.g2 h2
  exact ⟨T - b, by rw [hb]; ring⟩

theorem top_mid (h : Sq T X s) {M : ℤ} (hM : Odd M) (h0 : 2 * T - 400 < M) (h2 : M < 2 * T) (h1 : (M : ℝ) < s) (h3 : X - M ^ 2 ≤ 1000) : False := by
  have hT := h.big
  have h4 := h.mid_gt hM (by omega) h1
  obtain ⟨j, hj⟩ := h.top (c := 2 * T - M) (by omega) (by push_cast; linarith)
  obtain ⟨i, hi⟩ : ∃ i : ℤ, M = 2 * T - i := ⟨2 * T - M, by ring⟩
  have e : X - M ^ 2 = 4 * T * (i - j) - i ^ 2 := by rw [hj, hi]; ring
  have hi1 : 0 < i := by omega
  have hi2 : i < 400 := by omega
  have h5 : 1 ≤ i - j := by
    by_contra hcc
    nlinarith [not_le.1 hcc]
  nlinarith

/-- the facts on the correction factor `H`, close to the half of the inverse of the root -/
structure Hf (T X : ℤ) (s H : ℝ) : Prop where
  e1 : |2 * s * H - 1| ≤ 1.501 / T
  e2 : 1.2 * T ≤ s → s ≤ 2 * T - 20 → |2 * s * H - 1| ≤ 1.251 / T
  x1 : X = T * (T + 2) → H ≤ 1 / (2 * T)
  x2 : X = 4 * T ^ 2 - 4 * T → H ≤ 1 / (4 * T)

/-- the correction of the rounding of the root does not leave the rounding interval -/
theorem keep (h : Sq T X s) {H : ℝ} (g : Hf T X s H) {K : ℤ} (hK : Even K) (hc : |s - K| < 1) :
    |(X - (K : ℝ) ^ 2) * H| < 1 ∨ (K = T ∧ 0 ≤ (X - (K : ℝ) ^ 2) * H ∧ (X - (K : ℝ) ^ 2) * H ≤ 1) := by
  have hT := h.big
  have hTR := h.bigR
  have hT0 : (0 : ℝ) < T := by linarith
  have hs0 := h.s0
  have hlo := h.s_lo
  have hhi := h.s_hi
  obtain ⟨c1, c2⟩ := abs_lt.1 hc
  obtain ⟨p1, p2⟩ := abs_le.1 g.e1
  have hKT : (T : ℝ) ≤ K := by
    have h1 : (T - 1 : ℝ) < K := by linarith
    have h2 : T - 1 < K := by exact_mod_cast h1
    exact_mod_cast (by omega : T ≤ K)
  have hKT2 : (K : ℝ) < 2 * T := by linarith
  have hH0 : 0 < H := by
    have : 1.501 / (T : ℝ) < 1 := by rw [div_lt_one hT0]; linarith
    have : 0 < 2 * s * H := by linarith
    exact pos_of_mul_pos_right this (by linarith)
  have key : ∀ c : ℝ, 0 ≤ c → c * (2 * s * H) < 2 * s → c * H < 1 := by
    intro c _ hc
    have : (c * H) * (2 * s) < 1 * (2 * s) := by linarith
    exact lt_of_mul_lt_mul_right this (by linarith)
  have hsK : ∀ {E : ℝ}, 2 * s * H - 1 ≤ E → 2 * s * H ≤ 1 + E := fun hE => by linarith
  rcases le_total ((K : ℝ)) s with hc1 | hc1
  · have hd0 : 0 ≤ X - (K : ℝ) ^ 2 := by rw [← h.hs]; nlinarith
    have hM : Odd (K + 1) := hK.add_one
    have hKTi : T ≤ K := by exact_mod_cast hKT
    have hKTi2 : K + 1 < 2 * T := by
      have : ((K + 1 : ℤ) : ℝ) < 2 * T := by push_cast; linarith
      exact_mod_cast this
    rcases h.mid_lt hM (by omega) hKTi2 (by push_cast; linarith) with hx | ⟨hx, hx'⟩ | ⟨hx, hx'⟩
    · left
      rw [abs_of_nonneg (mul_nonneg hd0 hH0.le)]
      refine key _ hd0 ?_
      have hx2 : (X : ℝ) - K ^ 2 ≤ 2 * K - 8 := by
        have : ((X : ℤ) : ℝ) ≤ (((K + 1) ^ 2 - 9 : ℤ) : ℝ) := by exact_mod_cast hx
        push_cast at this; linarith
      have h3 : (X - (K : ℝ) ^ 2) * (2 * s * H) ≤ (2 * K - 8) * (1 + 1.501 / T) := by
        apply mul_le_mul hx2 (hsK p2) (by positivity) (by linarith)
      have h4 : (2 * (K : ℝ) - 8) * (1.501 / T) ≤ 6.004 := by
        rw [mul_div_assoc', div_le_iff₀ hT0]; nlinarith
      linarith
    · right
      have hKe : K = T := by omega
      refine ⟨hKe, mul_nonneg hd0 hH0.le, ?_⟩
      have h3 := g.x1 hx
      have h4 : (X : ℝ) - K ^ 2 = 2 * T := by rw [hx, hKe]; push_cast; ring
      rw [h4]
      rw [le_div_iff₀ (by linarith)] at h3
      linarith
    · left
      rw [abs_of_nonneg (mul_nonneg hd0 hH0.le)]
      have hKe : K = 2 * T - 2 := by omega
      have h3 := g.x2 hx
      have h4 : (X : ℝ) - K ^ 2 = 4 * T - 4 := by rw [hx, hKe]; push_cast; ring
      rw [h4]
      rw [le_div_iff₀ (by linarith)] at h3
      nlinarith
  · left
    have hd0 : X - (K : ℝ) ^ 2 ≤ 0 := by rw [← h.hs]; nlinarith
    rw [abs_of_nonpos (mul_nonpos_of_nonpos_of_nonneg hd0 hH0.le), ← neg_mul]
    have hM : Odd (K - 1) := hK.sub_odd odd_one
    have hKTi : T ≤ K := by exact_mod_cast hKT
    have hx := h.mid_gt hM (by omega) (by push_cast; linarith)
    have hx2 : -((X : ℝ) - K ^ 2) ≤ 2 * K - 8 := by
      have : (((K - 1) ^ 2 + 7 : ℤ) : ℝ) ≤ ((X : ℤ) : ℝ) := by exact_mod_cast hx
      push_cast at this; linarith
    refine key _ (by linarith) ?_
    have fin : ∀ E : ℝ, 2 * s * H - 1 ≤ E → 0 ≤ E → (2 * K - 8) * E < 6 → -(X - (K : ℝ) ^ 2) * (2 * s * H) < 2 * s := by
      intro E hE hE0 hb
      have h3 : -(X - (K : ℝ) ^ 2) * (2 * s * H) ≤ (2 * K - 8) * (1 + E) := by
        apply mul_le_mul hx2 (hsK hE) (by positivity) (by linarith)
      linarith
    by_cases q1 : s < 1.2 * T
    · refine fin _ p2 (by positivity) ?_
      rw [mul_div_assoc', div_lt_iff₀ hT0]; nlinarith
    by_cases q2 : s ≤ 2 * T - 20
    · refine fin _ (abs_le.1 (g.e2 (not_lt.1 q1) q2)).2 (by positivity) ?_
      rw [mul_div_assoc', div_lt_iff₀ hT0]; nlinarith
    · obtain ⟨j, hj⟩ := h.top (c := 20) (by norm_num) (by push_cast; linarith)
      obtain ⟨k, hk⟩ : ∃ k : ℤ, K = 2 * T - 2 * k := by
        obtain ⟨a, ha⟩ := hK
        exact ⟨T - a, by rw [ha]; ring⟩
      have e : K ^ 2 - X = 4 * T * (j - 2 * k) + 4 * k ^ 2 := by rw [hj, hk]; ring
      have hk1 : 0 ≤ k := by
        have : (K : ℝ) < ((2 * T : ℤ) : ℝ) := by push_cast; linarith
        have : K < 2 * T := by exact_mod_cast this
        omega
      have hk2 : k ≤ 10 := by
        have : ((2 * T - 20 : ℤ) : ℝ) < K := by push_cast; linarith
        have : 2 * T - 20 < K := by exact_mod_cast this
        omega
      have hj2 : j - 2 * k ≤ 0 := by
        by_contra hcc
        have : 1 ≤ j - 2 * k := by omega
        have h9 : K ^ 2 - X ≤ 2 * K - 8 := by
          have : ((K ^ 2 - X : ℤ) : ℝ) ≤ ((2 * K - 8 : ℤ) : ℝ) := by push_cast; linarith
          exact_mod_cast this
        nlinarith
      have h9 : K ^ 2 - X ≤ 400 := by nlinarith
      have h9' : -((X : ℝ) - K ^ 2) ≤ 400 := by
        have : ((K ^ 2 - X : ℤ) : ℝ) ≤ ((400 : ℤ) : ℝ) := by exact_mod_cast h9
        push_cast at this; linarith
      have h3 : -(X - (K : ℝ) ^ 2) * (2 * s * H) ≤ 400 * (1 + 1.501 / T) := by
        apply mul_le_mul h9' (hsK p2) (by positivity) (by norm_num)
      have : 1.501 / (T : ℝ) < 1 := by rw [div_lt_one hT0]; linarith
      linarith

/-- the correction of the number below the rounding of the root goes past the midpoint -/
theorem move (h : Sq T X s) {H : ℝ} (g : Hf T X s H) {K : ℤ} (hK : Even K) (hKT : T ≤ K) (hc : (K + 1 : ℝ) < s) (hX : X - (K + 1) ^ 2 ≤ 720) :
    X - K ^ 2 ≤ 4 * T ∧ K + 2 < 2 * T ∧ |s - (K + 2 : ℤ)| < 1 ∧ 1 < (X - (K : ℝ) ^ 2) * H ∧ (X - (K : ℝ) ^ 2) * H < 3 := by
  have hT := h.big
  have hTR := h.bigR
  have hT0 : (0 : ℝ) < T := by linarith
  have hs0 := h.s0
  have hlo := h.s_lo
  have hhi := h.s_hi
  have hKR : (T : ℝ) ≤ K := by exact_mod_cast hKT
  have hM : Odd (K + 1) := hK.add_one
  have hx := h.mid_gt hM (by omega) (by push_cast; linarith)
  have hK2 : K + 2 < 2 * T := by
    have : (K + 2 : ℝ) < 2 * T := by linarith
    exact_mod_cast this
  have hno : ¬ (2 * T - 400 < K + 1) := fun hcc => h.top_mid hM hcc (by omega) (by push_cast; linarith) (by omega)
  have hK2R : ((K : ℝ)) ≤ 2 * T - 401 := by
    have : K ≤ 2 * T - 401 := by omega
    have : ((K : ℤ) : ℝ) ≤ ((2 * T - 401 : ℤ) : ℝ) := by exact_mod_cast this
    push_cast at this; exact this
  have hX1 : (X : ℝ) - K ^ 2 ≤ 2 * K + 721 := by
    have : ((X - (K + 1) ^ 2 : ℤ) : ℝ) ≤ ((720 : ℤ) : ℝ) := by exact_mod_cast hX
    push_cast at this; linarith
  have hX2 : (2 * K + 8 : ℝ) ≤ (X : ℝ) - K ^ 2 := by
    have : (((K + 1) ^ 2 + 7 : ℤ) : ℝ) ≤ ((X : ℤ) : ℝ) := by exact_mod_cast hx
    push_cast at this; linarith
  have hs1 : s < K + 1 + 400 / T := by
    have h400 : (0 : ℝ) < 400 / T := by positivity
    refine h.sq_lt_of (by linarith) ?_
    have e : (K + 1 + 400 / T : ℝ) ^ 2 = (K + 1) ^ 2 + 2 * (K + 1) * (400 / T) + (400 / T) ^ 2 := by ring
    have : (800 : ℝ) ≤ 2 * (K + 1) * (400 / T) := by
      rw [mul_div_assoc', le_div_iff₀ hT0]; nlinarith
    rw [e]
    have := sq_nonneg (400 / T : ℝ)
    nlinarith
  have h4 : (400 : ℝ) / T < 0.001 := by rw [div_lt_iff₀ hT0]; linarith
  have hH0 : 0 < H := by
    obtain ⟨p1, p2⟩ := abs_le.1 g.e1
    have : 1.501 / (T : ℝ) < 1 := by rw [div_lt_one hT0]; linarith
    have : 0 < 2 * s * H := by linarith
    exact pos_of_mul_pos_right this (by linarith)
  have hE : ∃ E : ℝ, |2 * s * H - 1| ≤ E ∧ 0 ≤ E ∧ (2 * K + 8) * E ≤ 5.5 ∧ E ≤ 0.1 := by
    by_cases q1 : s < 1.2 * T
    · refine ⟨_, g.e1, by positivity, ?_, ?_⟩
      · rw [mul_div_assoc', div_le_iff₀ hT0]; nlinarith
      · rw [div_le_iff₀ hT0]; linarith
    · refine ⟨_, g.e2 (not_lt.1 q1) (by linarith), by positivity, ?_, ?_⟩
      · rw [mul_div_assoc', div_le_iff₀ hT0]; nlinarith
      · rw [div_le_iff₀ hT0]; linarith
  obtain ⟨E, hE1, hE0, hE2, hE3⟩ := hE
  obtain ⟨p1, p2⟩ := abs_le.1 hE1
  refine ⟨?_, hK2, ?_, ?_, ?_⟩
  · have : ((X - K ^ 2 : ℤ) : ℝ) ≤ ((4 * T : ℤ) : ℝ) := by push_cast; linarith
    exact_mod_cast this
  · rw [abs_lt]; push_cast; constructor <;> linarith
  · have h5 : (2 * K + 8) * (1 - E) ≤ (X - (K : ℝ) ^ 2) * (2 * s * H) := by
      apply mul_le_mul hX2 (by linarith) (by linarith) (by linarith)
    have h6 : 1 * (2 * s) < (X - (K : ℝ) ^ 2) * H * (2 * s) := by linarith
    exact lt_of_mul_lt_mul_right h6 (by linarith)
  · have h5 : (X - (K : ℝ) ^ 2) * (2 * s * H) ≤ (2 * K + 721) * (1 + E) := by
      apply mul_le_mul hX1 (by linarith) (by positivity) (by linarith)
    have h6 : (X - (K : ℝ) ^ 2) * H * (2 * s) < 3 * (2 * s) := by nlinarith
    exact lt_of_mul_lt_mul_right h6 (by linarith)

/-- the facts on the first approximations: `A` of the inverse of the root, `S` of the root, `d` of the residual -/
structure Sf (T X : ℤ) (s A : ℝ) (S : ℤ) (d : ℝ) : Prop where
  a1 : |A * s - 1| ≤ 6 / T
  r1 : X * A < 2 * T → |S - X * A| ≤ 1
  r2 : |S - X * A| ≤ 2
  d1 : |d - (X - (S : ℝ) ^ 2)| ≤ |X - (S : ℝ) ^ 2| / T
  d2 : |X - S ^ 2| ≤ 4 * T → 4 ∣ X - S ^ 2 → d = X - (S : ℝ) ^ 2
  s2 : T ≤ S → Even S
  gap : ¬ (1 / (2 * T) < A ∧ A < 1 / (2 * T) * (1 + 2 / T))

/-- the error of the first correction -/
theorem first_err (h : Sq T X s) {A d : ℝ} {S : ℤ} (g : Sf T X s A S d) :
    ∃ δ e : ℝ, d = (X - (S : ℝ) ^ 2) * (1 + δ) ∧ |δ| ≤ 1 / T ∧ |e| ≤ 0.003 ∧ |(S : ℝ) - s| ≤ 14 ∧
      s * (S + d * (A / 2) - s) = -1.5 * (S - s) ^ 2 + (S - s) * (S - X * A) - (S - s) * (s * δ) + e := by
  have hTR := h.bigR
  have hT0 : (0 : ℝ) < T := by linarith
  have hs0 := h.s0
  have hlo := h.s_lo
  have hhi := h.s_hi
  obtain ⟨δ, hδ, hd⟩ : ∃ δ : ℝ, |δ| ≤ 1 / T ∧ d = (X - (S : ℝ) ^ 2) * (1 + δ) := by
    by_cases h0 : X - (S : ℝ) ^ 2 = 0
    · refine ⟨0, by rw [abs_zero]; positivity, ?_⟩
      have := g.d1
      rw [h0] at this ⊢
      simp at this
      rw [this]; ring
    · refine ⟨(d - (X - (S : ℝ) ^ 2)) / (X - (S : ℝ) ^ 2), ?_, by field_simp; ring⟩
      rw [abs_div, div_le_iff₀ (abs_pos.2 h0)]
      have := g.d1
      rw [div_eq_mul_one_div] at this; linarith
  have hX : (X : ℝ) = s ^ 2 := h.hs.symm
  set D : ℝ := S - s with hD
  set q : ℝ := S - X * A with hq
  have hXA : X * A = s * (A * s) := by rw [hX]; ring
  obtain ⟨a1, a2⟩ := abs_le.1 g.a1
  obtain ⟨r1, r2⟩ := abs_le.1 g.r2
  have hsT : s * (6 / T) ≤ 12 := by
    rw [mul_div_assoc', div_le_iff₀ hT0]; linarith
  set b : ℝ := A * s - 1 with hb
  have hsb1 : s * b ≤ 12 := le_trans (mul_le_mul_of_nonneg_left a2 hs0.le) hsT
  have hsb2 : -12 ≤ s * b := by
    have := mul_le_mul_of_nonneg_left a1 hs0.le
    linarith
  have hDq : D = q + s * b := by rw [hD, hq, hXA, hb]; ring
  have hD14 : |D| ≤ 14 := by rw [abs_le]; constructor <;> linarith
  -- the second-order terms
  refine ⟨δ, -(s * D) * ((D / (2 * s)) * b + (D / (2 * s)) * δ + b * δ + (D / (2 * s)) * b * δ), hd, hδ, ?_, hD14, ?_⟩
  · have e : -(s * D) * ((D / (2 * s)) * b + (D / (2 * s)) * δ + b * δ + (D / (2 * s)) * b * δ) =
        -(D * (D / 2 * b + D / 2 * δ + s * b * δ + D / 2 * b * δ)) := by field_simp
    rw [e, abs_neg, abs_mul]
    have hb' : |b| ≤ 6 / T := g.a1
    have hsb : |s * b| ≤ 12 := abs_le.2 ⟨hsb2, hsb1⟩
    have hD2 : |D / 2| ≤ 7 := by rw [abs_div, abs_two]; linarith
    have m : ∀ {x y P Q : ℝ}, |x| ≤ P → |y| ≤ Q → |x * y| ≤ P * Q := fun hx hy => by
      rw [abs_mul]; exact mul_le_mul hx hy (abs_nonneg _) (le_trans (abs_nonneg _) hx)
    have h1 : |D / 2 * b + D / 2 * δ + s * b * δ + D / 2 * b * δ| ≤ 7 * (6 / T) + 7 * (1 / T) + 12 * (1 / T) + 7 * (6 / T) * (1 / T) := by
      refine le_trans (abs_add_le _ _) (add_le_add (le_trans (abs_add_le _ _) (add_le_add (le_trans (abs_add_le _ _) (add_le_add ?_ ?_)) ?_)) ?_)
      · exact m hD2 hb'
      · exact m hD2 hδ
      · exact m hsb hδ
      · exact m (m hD2 hb') hδ
    have h2 : 7 * (6 / T) + 7 * (1 / T) + 12 * (1 / T) + 7 * (6 / T) * (1 / T) ≤ (65 : ℝ) / T := by
      have h3 : (1 : ℝ) / T ≤ 1 / 42 := by apply one_div_le_one_div_of_le <;> linarith
      have h4 : (0 : ℝ) < 1 / T := by positivity
      have e1 : (6 : ℝ) / T = 6 * (1 / T) := by ring
      have e2 : (65 : ℝ) / T = 65 * (1 / T) := by ring
      rw [e1, e2]; nlinarith
    have h3 : (65 : ℝ) / T ≤ 0.0001 := by rw [div_le_iff₀ hT0]; linarith
    calc |D| * |D / 2 * b + D / 2 * δ + s * b * δ + D / 2 * b * δ| ≤ 14 * 0.0001 := mul_le_mul hD14 (by linarith) (abs_nonneg _) (by norm_num)
      _ ≤ 0.003 := by norm_num
  · have hA : A = (1 + b) / s := by rw [hb]; field_simp; ring
    have hS : (S : ℝ) = s + D := by rw [hD]; ring
    have hq' : q = D - s * b := by linarith
    rw [hd, hX, hq', hA, hS]
    field_simp
    ring

theorem first_close' (h : Sq T X s) {A d : ℝ} {S : ℤ} (g : Sf T X s A S d) : s * |S + d * (A / 2) - s| ≤ 360 := by
  have hTR := h.bigR
  have hT0 : (0 : ℝ) < T := by linarith
  have hs0 := h.s0
  have hlo := h.s_lo
  have hhi := h.s_hi
  obtain ⟨δ, e, _, hδ, he, hD, heq⟩ := h.first_err g
  have hsd : |s * δ| ≤ 2 := by
    rw [abs_mul, abs_of_pos hs0]
    calc s * |δ| ≤ (2 * T) * (1 / T) := mul_le_mul (by linarith) hδ (abs_nonneg _) (by linarith)
      _ = 2 := by field_simp
  have h1 : |s * (S + d * (A / 2) - s)| ≤ 360 := by
    rw [heq]
    have hDsq : (S - s) ^ 2 ≤ 196 := by nlinarith [sq_abs ((S : ℝ) - s), abs_nonneg ((S : ℝ) - s)]
    have m1 : |(S - s) * (S - X * A)| ≤ 14 * 2 := by rw [abs_mul]; exact mul_le_mul hD g.r2 (abs_nonneg _) (by norm_num)
    have m2 : |(S - s) * (s * δ)| ≤ 14 * 2 := by rw [abs_mul]; exact mul_le_mul hD hsd (abs_nonneg _) (by norm_num)
    obtain ⟨x1, x2⟩ := abs_le.1 m1
    obtain ⟨y1, y2⟩ := abs_le.1 m2
    obtain ⟨z1, z2⟩ := abs_le.1 he
    have := sq_nonneg ((S : ℝ) - s)
    rw [abs_le]; constructor <;> linarith
  rwa [abs_mul, abs_of_pos hs0] at h1

theorem first_close (h : Sq T X s) {A d : ℝ} {S : ℤ} (g : Sf T X s A S d) : |S + d * (A / 2) - s| ≤ 360 / T := by
  have hTR := h.bigR
  have hT0 : (0 : ℝ) < T := by linarith
  have hlo := h.s_lo
  have h1 := h.first_close' g
  rw [le_div_iff₀ hT0]
  nlinarith [abs_nonneg (S + d * (A / 2) - s)]

theorem quad {D P Q c k : ℝ} (h : c ≤ |D|) (h0 : 0 < c) (hk : k ≤ 1.5 * c) (hg : P - Q ≤ |D| * k) :
    -1.5 * D ^ 2 + P - Q < 0.49 * 1 - 0.003 := by
  rw [← sq_abs D]
  have : |D| * (k - 1.5 * |D|) ≤ 0 := mul_nonpos_of_nonneg_of_nonpos (by linarith) (by linarith)
  nlinarith

set_option maxHeartbeats 800000 in
/-- the first correction of the root does not go past the midpoint above the root -/
theorem no_over (h : Sq T X s) {A d : ℝ} {S : ℤ} (g : Sf T X s A S d) {M : ℤ} (hM : Odd M) (h0 : T < M) (h2 : M < 2 * T) (h1 : s < M) :
    S + d * (A / 2) < M := by
  have hT := h.big
  have hTR := h.bigR
  have hT0 : (0 : ℝ) < T := by linarith
  have hs0 := h.s0
  have hlo := h.s_lo
  have hhi := h.s_hi
  have hcl := (abs_le.1 (h.first_close g)).2
  have h360 : (360 : ℝ) / T < 0.001 := by rw [div_lt_iff₀ hT0]; linarith
  by_cases hfar : s + 1 ≤ M
  · linarith
  have hfar := not_le.1 hfar
  obtain ⟨δ, e, hd, hδ, he, hD, heq⟩ := h.first_err g
  have he2 := (abs_le.1 he).2
  have hsd : |s * δ| ≤ 2 := by
    rw [abs_mul, abs_of_pos hs0]
    calc s * |δ| ≤ (2 * T) * (1 / T) := mul_le_mul (by linarith) hδ (abs_nonneg _) (by linarith)
      _ = 2 := by field_simp
  have hX : (X : ℝ) = s ^ 2 := h.hs.symm
  -- it is enough to compare with the distance to the midpoint times the root
  have goal : ∀ j : ℝ, (X : ℝ) ≤ M ^ 2 - j → 0 ≤ j → -1.5 * (S - s) ^ 2 + (S - s) * (S - X * A) - (S - s) * (s * δ) < 0.49 * j - 0.003 → S + d * (A / 2) < M := by
    intro j hj hj0 hlt
    have h3 : s * (S + d * (A / 2) - s) < 0.49 * j := by rw [heq]; linarith
    have h4 : 0.49 * j ≤ s * (M - s) := by
      have h5 : j ≤ (M - s) * (M + s) := by rw [hX] at hj; linarith
      have h6 : 0 ≤ M - s := by linarith
      nlinarith
    have h5 : s * (S + d * (A / 2) - s) < s * (M - s) := lt_of_lt_of_le h3 h4
    have := lt_of_mul_lt_mul_left h5 hs0.le
    linarith
  -- a general bound
  have gen : ∀ r y : ℝ, |S - X * A| ≤ r → |s * δ| ≤ y → (S - s) * (S - X * A) - (S - s) * (s * δ) ≤ |S - s| * (r + y) := by
    intro r y hr hy
    have e1 : (S - s) * (S - X * A) - (S - s) * (s * δ) = (S - s) * ((S - X * A) - s * δ) := by ring
    rw [e1]
    refine le_trans (le_abs_self _) ?_
    rw [abs_mul]
    refine mul_le_mul_of_nonneg_left ?_ (abs_nonneg _)
    refine le_trans (abs_sub _ _) (add_le_add hr hy)
  have hsq : (S - s) ^ 2 = |S - s| ^ 2 := (sq_abs _).symm
  have habs := abs_nonneg ((S : ℝ) - s)
  have hG : |X * A - s| ≤ 12 := by
    have : X * A - s = s * (A * s - 1) := by rw [hX]; ring
    rw [this, abs_mul, abs_of_pos hs0]
    calc s * |A * s - 1| ≤ (2 * T) * (6 / T) := mul_le_mul (by linarith) g.a1 (abs_nonneg _) (by linarith)
      _ = 12 := by field_simp; norm_num
  obtain ⟨G1, G2⟩ := abs_le.1 hG
  rcases h.mid_lt hM h0 h2 h1 with hx | ⟨hx, hx'⟩ | ⟨hx, hx'⟩
  · have hxR : (X : ℝ) ≤ M ^ 2 - 9 := by
      have : ((X : ℤ) : ℝ) ≤ ((M ^ 2 - 9 : ℤ) : ℝ) := by exact_mod_cast hx
      push_cast at this; exact this
    refine goal 9 hxR (by norm_num) ?_
    have := gen 2 2 g.r2 hsd
    rw [hsq]
    nlinarith [sq_nonneg (|(S : ℝ) - s| - 4 / 3)]
  · have hMR : (M : ℝ) = T + 1 := by rw [hx']; push_cast; ring
    have hXR : (X : ℝ) = T * (T + 2) := by rw [hx]; push_cast; ring
    have hT1 : (1 : ℝ) / T < 0.001 := by rw [div_lt_iff₀ hT0]; linarith
    have hT1p : (0 : ℝ) < 1 / T := by positivity
    have hsl : (T + 1 - 1 / T : ℝ) < s := by
      refine h.lt_of_sq (by linarith) ?_
      rw [hXR]
      have e : (T + 1 - 1 / T : ℝ) ^ 2 = T ^ 2 + 2 * T + 1 - 2 - 2 * (1 / T) + (1 / T) ^ 2 := by field_simp; ring
      rw [e]; nlinarith
    have hr : |S - X * A| ≤ 1 := g.r1 (by linarith)
    refine goal 1 (by rw [hXR, hMR]; apply le_of_eq; ring) (by norm_num) ?_
    have hy : |s * δ| ≤ 1.001 := by
      rw [abs_mul, abs_of_pos hs0]
      calc s * |δ| ≤ (T + 1) * (1 / T) := mul_le_mul (by linarith) hδ (abs_nonneg _) (by linarith)
        _ = 1 + 1 / T := by field_simp
        _ ≤ 1.001 := by linarith
    have exact0 : ∀ c : ℤ, |X - S ^ 2| ≤ 4 * T → 4 ∣ X - S ^ 2 → X - S ^ 2 ≠ 0 → δ = 0 := by
      intro c h5 h6 h7
      have h8 := g.d2 h5 h6
      have h9 : (X : ℝ) - (S : ℝ) ^ 2 ≠ 0 := by
        have : ((X - S ^ 2 : ℤ) : ℝ) ≠ 0 := by exact_mod_cast h7
        push_cast at this; exact this
      rw [hd] at h8
      have : (X - (S : ℝ) ^ 2) * δ = 0 := by linarith
      exact (mul_eq_zero.1 this).resolve_left h9
    obtain ⟨t, ht⟩ := h.dvd4
    rcases lt_trichotomy S T with c | c | c
    · have hSR : (S : ℝ) ≤ T - 1 := by
        have : S ≤ T - 1 := by omega
        have : ((S : ℤ) : ℝ) ≤ ((T - 1 : ℤ) : ℝ) := by exact_mod_cast this
        push_cast at this; exact this
      have hDl : (1.99 : ℝ) ≤ |S - s| := by rw [abs_of_neg (by linarith)]; linarith
      have := gen 1 1.001 hr hy
      exact quad hDl (by norm_num) (by norm_num) this
    · have hz : δ = 0 := by
        have e1 : X - S ^ 2 = 2 * T := by rw [hx, c]; ring
        refine exact0 0 (by rw [e1, abs_of_pos (by omega)]; omega) (by rw [e1]; omega) (by rw [e1]; omega)
      have hDl : (0.99 : ℝ) ≤ |S - s| := by rw [c, abs_of_neg (by linarith)]; linarith
      have := gen 1 0 hr (by rw [hz]; simp)
      exact quad hDl (by norm_num) (by norm_num) this
    · obtain ⟨a, ha⟩ := g.s2 c.le
      by_cases c2 : S = T + 2
      · have hSR : (S : ℝ) = T + 2 := by rw [c2]; push_cast; ring
        have hz : δ = 0 := by
          have e1 : X - S ^ 2 = -(2 * T + 4) := by rw [hx, c2]; ring
          refine exact0 0 (by rw [e1, abs_neg, abs_of_pos (by omega)]; omega) (by rw [e1]; omega) (by rw [e1]; omega)
        have hDl : (0.99 : ℝ) ≤ |S - s| := by rw [hSR, abs_of_pos (by linarith)]; linarith
        have := gen 1 0 hr (by rw [hz]; simp)
        exact quad hDl (by norm_num) (by norm_num) this
      · have hSR : (T + 4 : ℝ) ≤ S := by
          have : T + 4 ≤ S := by omega
          have : ((T + 4 : ℤ) : ℝ) ≤ ((S : ℤ) : ℝ) := by exact_mod_cast this
          push_cast at this; exact this
        have hDl : (1.99 : ℝ) ≤ |S - s| := by rw [abs_of_pos (by linarith)]; linarith
        have := gen 1 1.001 hr hy
        exact quad hDl (by norm_num) (by norm_num) this
  · have hMR : (M : ℝ) = 2 * T - 1 := by rw [hx']; push_cast; ring
    have hXR : (X : ℝ) = 4 * T ^ 2 - 4 * T := by rw [hx]; push_cast; ring
    have hT1 : (1 : ℝ) / T < 0.001 := by rw [div_lt_iff₀ hT0]; linarith
    have hT1p : (0 : ℝ) < 1 / T := by positivity
    have hsl : (2 * T - 1 - 1 / T : ℝ) < s := by
      refine h.lt_of_sq (by linarith) ?_
      rw [hXR]
      have e : (2 * T - 1 - 1 / T : ℝ) ^ 2 = 4 * T ^ 2 - 4 * T + 1 - 4 + 2 * (1 / T) + (1 / T) ^ 2 := by field_simp; ring
      rw [e]; nlinarith
    refine goal 1 (by rw [hXR, hMR]; apply le_of_eq; ring) (by norm_num) ?_
    have exact0 : |X - S ^ 2| ≤ 4 * T → 4 ∣ X - S ^ 2 → X - S ^ 2 ≠ 0 → δ = 0 := by
      intro h5 h6 h7
      have h8 := g.d2 h5 h6
      have h9 : (X : ℝ) - (S : ℝ) ^ 2 ≠ 0 := by
        have : ((X - S ^ 2 : ℤ) : ℝ) ≠ 0 := by exact_mod_cast h7
        push_cast at this; exact this
      rw [hd] at h8
      have : (X - (S : ℝ) ^ 2) * δ = 0 := by linarith
      exact (mul_eq_zero.1 this).resolve_left h9
    obtain ⟨r1, r2⟩ := abs_le.1 g.r2
    have hST : T ≤ S := by
      have : (T : ℝ) ≤ S := by linarith
      exact_mod_cast this
    obtain ⟨a, ha⟩ := g.s2 hST
    have hcase : S ≤ 2 * T - 4 ∨ S = 2 * T - 2 ∨ S = 2 * T ∨ 2 * T + 2 ≤ S := by omega
    rcases hcase with c | c | c | c
    · have hSR : (S : ℝ) ≤ 2 * T - 4 := by
        have : ((S : ℤ) : ℝ) ≤ ((2 * T - 4 : ℤ) : ℝ) := by exact_mod_cast c
        push_cast at this; exact this
      have hr : |S - X * A| ≤ 1 := g.r1 (by linarith)
      have hDl : (2.99 : ℝ) ≤ |S - s| := by rw [abs_of_neg (by linarith)]; linarith
      have := gen 1 2 hr hsd
      exact quad hDl (by norm_num) (by norm_num) this
    · have hSR : (S : ℝ) = 2 * T - 2 := by rw [c]; push_cast; ring
      have hr : |S - X * A| ≤ 1 := by
        by_cases hcc : X * A < 2 * T
        · exact g.r1 hcc
        · exfalso
          have hcc := not_lt.1 hcc
          have hA : 1 / (2 * T) * (1 + 2 / T) ≤ A := by
            by_contra hA
            refine g.gap ⟨?_, not_le.1 hA⟩
            rw [div_lt_iff₀ (by linarith)]
            by_contra hA2
            have hA2 := not_lt.1 hA2
            rw [hXR] at hcc
            have : (4 * T ^ 2 - 4 * T) * A = (2 * T - 2) * (A * (2 * T)) := by ring
            nlinarith
          have h7 : X * (1 / (2 * T) * (1 + 2 / T)) ≤ X * A := mul_le_mul_of_nonneg_left hA (by rw [hXR]; nlinarith)
          have h8 : X * (1 / (2 * T) * (1 + 2 / T)) = 2 * (T : ℝ) + 2 - 4 / T := by rw [hXR]; field_simp; ring
          have h9 : (4 : ℝ) / T < 0.001 := by rw [div_lt_iff₀ hT0]; linarith
          linarith
      have hz : δ = 0 := by
        have e1 : X - S ^ 2 = 4 * T - 4 := by rw [hx, c]; ring
        refine exact0 (by rw [e1, abs_of_pos (by omega)]; omega) (by rw [e1]; omega) (by rw [e1]; omega)
      have hDl : (0.99 : ℝ) ≤ |S - s| := by rw [hSR, abs_of_neg (by linarith)]; linarith
      have := gen 1 0 hr (by rw [hz]; simp)
      exact quad hDl (by norm_num) (by norm_num) this
    · have hSR : (S : ℝ) = 2 * T := by rw [c]; push_cast; ring
      have hGe : 2 * T ≤ X * A := by
        by_contra hcc
        have hcc := not_le.1 hcc
        have hr := (abs_le.1 (g.r1 hcc)).2
        have hg1 : 2 * T - 1 ≤ X * A := by linarith
        have hX0 : (0 : ℝ) < X := by rw [hXR]; nlinarith
        refine g.gap ⟨?_, ?_⟩
        · rw [div_lt_iff₀ (by linarith)]
          by_contra hA2
          have hA2 := not_lt.1 hA2
          have : X * (A * (2 * T)) ≤ X * 1 := mul_le_mul_of_nonneg_left hA2 hX0.le
          rw [hXR] at this hg1
          nlinarith
        · by_contra hA2
          have hA2 := not_lt.1 hA2
          have h7 : X * (1 / (2 * T) * (1 + 2 / T)) ≤ X * A := mul_le_mul_of_nonneg_left hA2 hX0.le
          have h8 : X * (1 / (2 * T) * (1 + 2 / T)) = 2 * (T : ℝ) + 2 - 4 / T := by rw [hXR]; field_simp; ring
          have h9 : (4 : ℝ) / T < 0.001 := by rw [div_lt_iff₀ hT0]; linarith
          linarith
      have hz : δ = 0 := by
        have e1 : X - S ^ 2 = -(4 * T) := by rw [hx, c]; ring
        refine exact0 (by rw [e1, abs_neg, abs_of_pos (by omega)]) (by rw [e1]; omega) (by rw [e1]; omega)
      have hDp : 0 ≤ (S : ℝ) - s := by linarith
      have : (S - s) * (S - X * A) ≤ 0 := mul_nonpos_of_nonneg_of_nonpos hDp (by linarith)
      rw [hz]
      have := sq_nonneg ((S : ℝ) - s)
      linarith
    · have hSR : (2 * T + 2 : ℝ) ≤ S := by
        have : ((2 * T + 2 : ℤ) : ℝ) ≤ ((S : ℤ) : ℝ) := by exact_mod_cast c
        push_cast at this; exact this
      have hDl : (2.99 : ℝ) ≤ |S - s| := by rw [abs_of_pos (by linarith)]; linarith
      have := gen 2 2 g.r2 hsd
      exact quad hDl (by norm_num) (by norm_num) this

end Sq

end Verif.Elem
