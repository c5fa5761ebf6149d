import Verif.Subnorm.Lemmas
import Verif.Blocks.Exact

/-! # C99: `Subnormalize` of a pair rounds once to the grid of the subnormal numbers, or not -/

namespace Verif.Subnorm

open Verif.Blocks (Rep Nearest twoSum fastTwoSum add212 ErrorFreeSum rnd_exact)

theorem rnd_le {p : ℕ} {rnd : ℚ → ℚ} (h : Nearest p ⊥ rnd) {b x : ℚ} (hb : Rep p ⊥ b) (hx : x ≤ b) : rnd x ≤ b := by
  by_contra hc
  push Not at hc
  have := (h x).2 b hb
  rw [abs_of_nonpos (by linarith), abs_of_nonpos (by linarith)] at this
  linarith

theorem le_rnd {p : ℕ} {rnd : ℚ → ℚ} (h : Nearest p ⊥ rnd) {b x : ℚ} (hb : Rep p ⊥ b) (hx : b ≤ x) : b ≤ rnd x := by
  by_contra hc
  push Not at hc
  have := (h x).2 b hb
  rw [abs_of_nonneg (by linarith), abs_of_nonneg (by linarith)] at this
  linarith

/-- the sum with the rounding factor: `rf` is a power of two, the step of its binade is `g = 2^d u` where `u` is the step of the binade of `M u` -/
theorem core {p : ℕ} (hp : 3 ≤ p) {rnd : ℚ → ℚ} (hr : RNE p rnd) {M c : ℤ} {d : ℕ} (hd1 : 1 ≤ d) (hd2 : d ≤ p) (hM1 : 2 ^ (p - 1) ≤ M) (hM2 : M < 2 ^ p) {lo : ℚ}
    (hlo : |lo| ≤ (2 : ℚ) ^ c / 2) (ht : lo = 0 ∨ (2 : ℚ) ^ (c + d - p - 1) < |lo|) :
    ∃ k : ℤ, (add212 rnd ((2 : ℚ) ^ (c + d + (p - 1))) (M * (2 : ℚ) ^ c) lo).1 = k * (2 : ℚ) ^ (c + d) ∧
      GridNearest ((2 : ℚ) ^ (c + d)) ((2 : ℚ) ^ (c + d + (p - 1)) + M * (2 : ℚ) ^ c + lo) (k * (2 : ℚ) ^ (c + d)) ∧ 2 ^ (p - 1) ≤ k ∧ k ≤ 2 ^ p := by
  have hn := hr.nearest (by omega)
  obtain ⟨q, rfl⟩ : ∃ q, p = q + 1 := ⟨p - 1, by omega⟩
  simp only [Nat.add_sub_cancel] at hM1 ⊢
  obtain ⟨u, hu⟩ : ∃ u, u = (2 : ℚ) ^ c := ⟨_, rfl⟩
  obtain ⟨g, hg⟩ : ∃ g, g = (2 : ℚ) ^ (c + d) := ⟨_, rfl⟩
  obtain ⟨D, hD⟩ : ∃ D : ℤ, D = 2 ^ (d - 1) := ⟨_, rfl⟩
  have hD1 : 1 ≤ D := by rw [hD]; exact one_le_pow₀ (by norm_num)
  have hu0 : 0 < u := hu ▸ p2 c
  have hg0 : 0 < g := hg ▸ p2 _
  have hgu : g = 2 * D * u := by
    obtain ⟨j, rfl⟩ : ∃ j, d = j + 1 := ⟨d - 1, by omega⟩
    rw [hg, hu, hD, zpow_add₀ (by norm_num), zpow_natCast]; push_cast; ring
  obtain ⟨R, hR⟩ : ∃ R : ℤ, R = 2 ^ q := ⟨_, rfl⟩
  have hR4 : 4 ≤ R := by
    rw [hR]
    calc (4 : ℤ) = 2 ^ 2 := by norm_num
      _ ≤ 2 ^ q := pow_le_pow_right₀ (by norm_num) (by omega)
  have hReven : Even R := by
    rw [hR]; exact (Int.even_pow.2 ⟨by norm_num, by omega⟩)
  have hDR : D ≤ R := by rw [hD, hR]; exact pow_le_pow_right₀ (by norm_num) (by omega)
  have hR2 : (2 : ℤ) ^ (q + 1) = 2 * R := by rw [hR]; ring
  rw [hR2] at hM2 ⊢
  rw [← hR] at hM1 ⊢
  have hrf : (2 : ℚ) ^ (c + d + (((q + 1 : ℕ) : ℤ) - 1)) = R * g := by
    rw [zpow_add₀ (by norm_num), ← hg]
    rw [show ((q + 1 : ℕ) : ℤ) - 1 = (q : ℕ) by push_cast; ring, zpow_natCast, hR]; push_cast; ring
  rw [hrf]
  rw [← hu] at hlo ⊢
  rw [← hg]
  have repg : ∀ m : ℤ, |m| ≤ 2 * R → Rep (q + 1) ⊥ (m * g) := by
    intro m hm
    rw [hg]; exact Rep_mul (by rw [hR2]; exact hm) (by omega)
  have repu : ∀ m : ℤ, |m| ≤ 2 * R → Rep (q + 1) ⊥ (m * (u / 2)) := by
    intro m hm
    have : u / 2 = (2 : ℚ) ^ (c - 1) := by rw [hu, zpow_sub₀ (by norm_num)]; norm_num
    rw [this]; exact Rep_mul (by rw [hR2]; exact hm) (by omega)
  have cR4 : (4 : ℚ) ≤ R := by exact_mod_cast hR4
  have cD1 : (1 : ℚ) ≤ D := by exact_mod_cast hD1
  have cM1 : (R : ℚ) ≤ M := by exact_mod_cast hM1
  have cM2 : (M : ℚ) ≤ 2 * R - 1 := by exact_mod_cast (by omega : M ≤ 2 * R - 1)
  -- the first sum
  have hS := Verif.Blocks.C46_twosum hp hn (x := R * g) (y := M * u) (repg R (by rw [abs_of_pos (by omega)]; omega))
    (by rw [hu]; exact Rep_mul (by rw [hR2, abs_of_pos (by omega)]; omega) (by omega))
  obtain ⟨S1, -, S3⟩ := hS
  unfold add212 fastTwoSum
  simp only
  generalize (twoSum rnd (R * g) (M * u)).1 = s at *
  generalize (twoSum rnd (R * g) (M * u)).2 = e at *
  obtain ⟨S, hSd⟩ : ∃ S, S = R * g + M * u := ⟨_, rfl⟩
  rw [← hSd] at S1 S3 ⊢
  have gridAt : ∀ x : ℚ, R * g ≤ x → x ≤ 2 * (R * g) → GridNearest g x (rnd x) := by
    intro x h1 h2
    have h0 : (0 : ℚ) < R * g := mul_pos (by linarith) hg0
    have h := hr.2 x (c + d + q) ?_ ?_
    · rwa [show c + d + q - ((q + 1 : ℕ) : ℤ) + 1 = c + d by push_cast; ring, ← hg] at h
    · rw [abs_of_pos (by linarith)]
      rw [show (q : ℤ) = ((q + 1 : ℕ) : ℤ) - 1 by push_cast; ring, hrf]; exact h1
    · rw [abs_of_pos (by linarith), p2s]
      rw [show (q : ℤ) = ((q + 1 : ℕ) : ℤ) - 1 by push_cast; ring, hrf]; exact h2
  have Mu0 : 0 < (M : ℚ) * u := mul_pos (by linarith) hu0
  have Mug : (M : ℚ) * u ≤ R * g - u := by
    rw [hgu]
    have : (M : ℚ) * u ≤ (2 * R - 1) * u := mul_le_mul_of_nonneg_right cM2 hu0.le
    have h2 : (2 * R * u : ℚ) * 1 ≤ 2 * R * u * D := mul_le_mul_of_nonneg_left cD1 (mul_pos (by linarith) hu0).le
    linarith
  obtain ⟨m, hm, hm2, hm3⟩ := gridAt S (by rw [hSd]; linarith) (by rw [hSd]; linarith)
  rw [← S1] at hm hm2 hm3
  -- the error is a multiple of `u`
  obtain ⟨E, hE⟩ : ∃ E : ℤ, E = 2 * D * (R - m) + M := ⟨_, rfl⟩
  have he : e = E * u := by
    have : e = S - s := by linarith
    rw [this, hSd, hm, hgu, hE]; push_cast; ring
  have hSs : S - s = E * u := by rw [← he]; linarith
  rw [hSs, abs_mul, abs_of_pos hu0] at hm2 hm3
  have hE1 : |E| ≤ D := by
    have : |(E : ℚ)| * u ≤ D * u := by rw [hgu] at hm2; linarith
    exact_mod_cast le_of_mul_le_mul_right this hu0
  have hm1 : R ≤ m := by
    by_contra hc
    have := (abs_le.1 hE1).2
    have h1 : 2 * D * 1 ≤ 2 * D * (R - m) := mul_le_mul_of_nonneg_left (by omega) (by omega)
    omega
  have hmle : m ≤ 2 * R := by
    by_contra hc
    have := (abs_le.1 hE1).1
    have h1 : 2 * D * (R + 1) ≤ 2 * D * (m - R) := mul_le_mul_of_nonneg_left (by omega) (by omega)
    have h2 : 2 * D * (R + 1) = 2 * D * R + 2 * D := by ring
    have h3 : 1 * R ≤ D * R := mul_le_mul_of_nonneg_right hD1 (by omega)
    have h4 : 2 * D * (m - R) = - (2 * D * (R - m)) := by ring
    have h5 : 2 * D * R = 2 * (D * R) := by ring
    omega
  have cm1 : (R : ℚ) ≤ m := by exact_mod_cast hm1
  have cm2 : (m : ℚ) ≤ 2 * R := by exact_mod_cast hmle
  obtain ⟨t, htd⟩ : ∃ t, t = rnd (e + lo) := ⟨_, rfl⟩
  rw [← htd]
  have Slo : S + lo = m * g + (e + lo) := by rw [he, ← hSs, hm]; ring
  obtain ⟨lo1, lo2⟩ := abs_le.1 hlo
  -- the final rounding, knowing where the low part is
  have fin : ∀ k : ℤ, R ≤ k → k ≤ 2 * R → (|(m * g + (e + lo)) - k * g| ≤ g / 2) → (|(m * g + (e + lo)) - k * g| = g / 2 → Even k) → R * g ≤ m * g + t → m * g + t ≤ 2 * (R * g) →
      ((|(m * g + t) - k * g| < g / 2) ∨ (Even k ∧ |(m * g + t) - k * g| ≤ g / 2)) →
      ∃ k : ℤ, rnd (s + t) = k * g ∧ GridNearest g (S + lo) (k * g) ∧ R ≤ k ∧ k ≤ 2 * R := by
    intro k k1 k2 k3 k4 k5 k6 k7
    refine ⟨k, ?_, ⟨k, rfl, by rw [Slo]; exact k3, by rw [Slo]; exact k4⟩, k1, k2⟩
    rw [hm]
    rcases k7 with k7 | ⟨k7, k8⟩
    · exact grid_unique hg0 (gridAt _ k5 k6) k7
    · exact grid_even hg0 (gridAt _ k5 k6) k7 k8
  have kk : ∀ x : ℚ, (m * g + x) - m * g = x := fun x => by ring
  rcases lt_or_eq_of_le hE1 with hlt | heq
  · -- not a tie
    have hE2 : |(E : ℚ)| ≤ D - 1 := by exact_mod_cast (by omega : |E| ≤ D - 1)
    obtain ⟨E1, E2⟩ := abs_le.1 hE2
    have B1 : e + lo ≤ ((2 * D - 1 : ℤ) : ℚ) * (u / 2) := by
      rw [he]; push_cast
      have := mul_le_mul_of_nonneg_right E2 hu0.le
      linarith
    have B2 : ((-(2 * D - 1) : ℤ) : ℚ) * (u / 2) ≤ e + lo := by
      rw [he]; push_cast
      have := mul_le_mul_of_nonneg_right E1 hu0.le
      linarith
    have T1 := rnd_le hn (repu (2 * D - 1) (by rw [abs_of_pos (by omega)]; omega)) B1
    have T2 := le_rnd hn (repu (-(2 * D - 1)) (by rw [abs_neg, abs_of_pos (by omega)]; omega)) B2
    rw [← htd] at T1 T2
    push_cast at T1 T2 B1 B2
    have rep0 : Rep (q + 1) ⊥ (0 : ℚ) := by simpa using repu 0 (by simp; omega)
    refine fin m hm1 hmle ?_ ?_ ?_ ?_ (Or.inl ?_)
    · rw [kk, abs_le, hgu]; constructor <;> linarith
    · rw [kk]
      intro h
      exfalso
      have : |e + lo| < g / 2 := by rw [abs_lt, hgu]; constructor <;> linarith
      linarith
    · rcases eq_or_lt_of_le hm1 with h | h
      · have hE3 : (1 : ℚ) ≤ E := by
          have : 1 ≤ E := by rw [hE, ← h]; have : 2 * D * (R - R) = 0 := by ring
                             omega
          exact_mod_cast this
        have : 0 ≤ e + lo := by
          rw [he]
          have := mul_le_mul_of_nonneg_right hE3 hu0.le
          linarith
        have := le_rnd hn rep0 this
        rw [← htd] at this
        rw [← h]; linarith
      · have : ((R + 1 : ℤ) : ℚ) ≤ m := by exact_mod_cast h
        have h2 := mul_le_mul_of_nonneg_right this hg0.le
        push_cast at h2
        have : (2 * D - 1) * (u / 2) ≤ g := by rw [hgu]; nlinarith
        linarith
    · rcases eq_or_lt_of_le hmle with h | h
      · have hE3 : (E : ℚ) ≤ -1 := by
          have : E ≤ -1 := by
            rw [hE, h]
            have h3 : 1 * R ≤ D * R := mul_le_mul_of_nonneg_right hD1 (by omega)
            have h5 : 2 * D * (R - 2 * R) = - (2 * (D * R)) := by ring
            omega
          exact_mod_cast this
        have : e + lo ≤ 0 := by
          rw [he]
          have := mul_le_mul_of_nonneg_right hE3 hu0.le
          linarith
        have := rnd_le hn rep0 this
        rw [← htd] at this
        rw [h]; push_cast; linarith
      · have : (m : ℚ) ≤ ((2 * R - 1 : ℤ) : ℚ) := by exact_mod_cast (by omega : m ≤ 2 * R - 1)
        have h2 := mul_le_mul_of_nonneg_right this hg0.le
        push_cast at h2
        have : (2 * D - 1) * (u / 2) ≤ g := by rw [hgu]; nlinarith
        linarith
    · rw [kk, abs_lt, hgu]; constructor <;> linarith
  · -- a tie
    have hme : Even m := hm3 (by
      have : |(E : ℚ)| = D := by exact_mod_cast heq
      rw [this, hgu]; ring)
    have repD : Rep (q + 1) ⊥ ((D : ℚ) * u) := by
      have := repu (2 * D) (by rw [abs_of_pos (by omega)]; omega)
      rwa [show ((2 * D : ℤ) : ℚ) * (u / 2) = D * u by push_cast; ring] at this
    have repD' : Rep (q + 1) ⊥ (-((D : ℚ) * u)) := by
      have := repu (-(2 * D)) (by rw [abs_neg, abs_of_pos (by omega)]; omega)
      rwa [show ((-(2 * D) : ℤ) : ℚ) * (u / 2) = -(D * u) by push_cast; ring] at this
    have rep1 : Rep (q + 1) ⊥ (((2 * D - 1 : ℤ) : ℚ) * (u / 2)) := repu (2 * D - 1) (by rw [abs_of_pos (by omega)]; omega)
    have rep2 : Rep (q + 1) ⊥ (((-(2 * D - 1) : ℤ) : ℚ) * (u / 2)) := repu (-(2 * D - 1)) (by rw [abs_neg, abs_of_pos (by omega)]; omega)
    have Du : u ≤ D * u := by have := mul_le_mul_of_nonneg_right cD1 hu0.le; linarith
    -- the rounding of the low part when it is above half a step
    have low : g / 2 ≤ |e + lo| → |e + lo| ≤ g → lo ≠ 0 → |(e + lo) - t| < |lo| := by
      intro h1 h2 h0
      have hg2 : (2 : ℚ) ^ (c + d - 1) = g / 2 := by rw [hg, zpow_sub₀ (by norm_num)]; norm_num
      have h := hr.2 (e + lo) (c + d - 1) (by rw [hg2]; exact h1) (by rw [show c + d - 1 + 1 = c + (d : ℤ) by ring, ← hg]; exact h2)
      obtain ⟨_, -, h4, -⟩ := h
      rw [← htd] at h4
      have h5 : (2 : ℚ) ^ (c + d - 1 - ((q + 1 : ℕ) : ℤ) + 1) / 2 = (2 : ℚ) ^ (c + d - ((q + 1 : ℕ) : ℤ) - 1) := by
        rw [show c + d - 1 - ((q + 1 : ℕ) : ℤ) + 1 = (c + d - ((q + 1 : ℕ) : ℤ) - 1) + 1 by ring, p2s]; ring
      rw [h5] at h4
      rcases ht with ht | ht
      · exact absurd ht h0
      · exact lt_of_le_of_lt h4 ht
    rcases (abs_eq (by omega)).1 heq with h | h
    · -- the sum was rounded down
      have hm4 : m < 2 * R := by
        rcases lt_or_eq_of_le hmle with h' | h'
        · exact h'
        · exfalso
          have h3 : 1 * R ≤ D * R := mul_le_mul_of_nonneg_right hD1 (by omega)
          have h5 : 2 * D * (R - 2 * R) = - (2 * (D * R)) := by ring
          rw [h'] at hE
          omega
      have hm5 : m + 2 ≤ 2 * R := by obtain ⟨a, rfl⟩ := hme; omega
      have cm5 : (m : ℚ) + 2 ≤ 2 * R := by exact_mod_cast hm5
      have hmg := mul_le_mul_of_nonneg_right cm5 hg0.le
      have hmg1 := mul_le_mul_of_nonneg_right cm1 hg0.le
      have he' : e = D * u := by rw [he, h]
      rcases le_or_gt lo 0 with hl | hl
      · have T1 := rnd_le hn repD (show e + lo ≤ D * u by linarith)
        have T2 := le_rnd hn rep1 (show ((2 * D - 1 : ℤ) : ℚ) * (u / 2) ≤ e + lo by push_cast; linarith)
        rw [← htd] at T1 T2
        push_cast at T2
        refine fin m hm1 hmle ?_ (fun _ => hme) ?_ ?_ (Or.inr ⟨hme, ?_⟩)
        · rw [kk, abs_le, hgu]; constructor <;> linarith
        · linarith
        · linarith
        · rw [kk, abs_le, hgu]; constructor <;> linarith
      · have L := low (by rw [abs_of_pos (by linarith), hgu]; linarith) (by rw [abs_of_pos (by linarith), hgu]; linarith) hl.ne'
        rw [abs_of_pos hl] at L
        have T1 := rnd_le hn (repg 1 (by simp; omega)) (show e + lo ≤ ((1 : ℤ) : ℚ) * g by rw [hgu]; push_cast; linarith)
        rw [← htd] at T1
        push_cast at T1
        have T2 := (abs_lt.1 L).2
        have kk' : ∀ x : ℚ, (m * g + x) - ((m + 1 : ℤ) : ℚ) * g = x - g := fun x => by push_cast; ring
        refine fin (m + 1) (by omega) (by omega) ?_ ?_ ?_ ?_ (Or.inl ?_)
        · rw [kk', abs_le, hgu]; constructor <;> linarith
        · rw [kk']
          intro h'
          exfalso
          have : |e + lo - g| < g / 2 := by rw [abs_lt, hgu]; constructor <;> linarith
          linarith
        · linarith
        · linarith
        · rw [kk', abs_lt]; constructor
          · have : g / 2 = D * u := by rw [hgu]; ring
            linarith
          · linarith
    · -- the sum was rounded up
      have hm4 : R < m := by
        rcases lt_or_eq_of_le hm1 with h' | h'
        · exact h'
        · exfalso
          rw [← h', sub_self, mul_zero] at hE
          omega
      have cm5 : (R : ℚ) + 1 ≤ m := by exact_mod_cast hm4
      have hmg := mul_le_mul_of_nonneg_right cm5 hg0.le
      have hmg1 := mul_le_mul_of_nonneg_right cm2 hg0.le
      have he' : e = -(D * u) := by rw [he, h]; push_cast; ring
      rcases le_or_gt 0 lo with hl | hl
      · have T1 := le_rnd hn repD' (show -(D * u) ≤ e + lo by linarith)
        have T2 := rnd_le hn rep2 (show e + lo ≤ ((-(2 * D - 1) : ℤ) : ℚ) * (u / 2) by push_cast; linarith)
        rw [← htd] at T1 T2
        push_cast at T2
        refine fin m hm1 hmle ?_ (fun _ => hme) ?_ ?_ (Or.inr ⟨hme, ?_⟩)
        · rw [kk, abs_le, hgu]; constructor <;> linarith
        · have : g / 2 = D * u := by rw [hgu]; ring
          linarith
        · linarith
        · rw [kk, abs_le, hgu]; constructor <;> linarith
      · have L := low (by rw [abs_of_neg (by linarith), hgu]; linarith) (by rw [abs_of_neg (by linarith), hgu]; linarith) hl.ne
        rw [abs_of_neg hl] at L
        have T1 := le_rnd hn (repg (-1) (by simp; omega)) (show ((-1 : ℤ) : ℚ) * g ≤ e + lo by rw [hgu]; push_cast; linarith)
        rw [← htd] at T1
        push_cast at T1
        have T2 := (abs_lt.1 L).1
        have kk' : ∀ x : ℚ, (m * g + x) - ((m - 1 : ℤ) : ℚ) * g = x + g := fun x => by push_cast; ring
        have hgd : g / 2 = D * u := by rw [hgu]; ring
        refine fin (m - 1) (by omega) (by omega) ?_ ?_ ?_ ?_ (Or.inl ?_)
        · rw [kk', abs_le, hgu]; constructor <;> linarith
        · rw [kk']
          intro h'
          exfalso
          have : |e + lo + g| < g / 2 := by rw [abs_lt, hgu]; constructor <;> linarith
          linarith
        · linarith
        · linarith
        · rw [kk', abs_lt]; constructor <;> linarith

/-- the operand: a positive number of `p` bits -/
theorem sig {p : ℕ} (hp : 1 ≤ p) {x : ℚ} (hx : Rep p ⊥ x) (h0 : 0 < x) : ∃ M : ℤ, 2 ^ (p - 1) ≤ M ∧ M < 2 ^ p ∧ x = M * (2 : ℚ) ^ (exponent x - (p - 1)) := by
  obtain ⟨l1, l2⟩ := binade h0.ne'
  unfold exponent
  rw [abs_of_pos h0] at *
  generalize Int.log 2 x = L at *
  obtain ⟨m, e, hm, -, hxe⟩ := hx
  obtain ⟨q, rfl⟩ : ∃ q, p = q + 1 := ⟨p - 1, by omega⟩
  simp only [Nat.add_sub_cancel]
  have hm0 : 0 < m := by
    rw [hxe] at h0
    exact_mod_cast (pos_iff_pos_of_mul_pos h0).2 (p2 e)
  rw [abs_of_pos hm0] at hm
  have hL : L - q ≤ e := by
    by_contra hc
    have h1 : x < (2 : ℚ) ^ L := by
      rw [hxe]
      have a1 : (m : ℚ) < 2 ^ (q + 1) := by exact_mod_cast hm
      refine (mul_lt_mul_of_pos_right a1 (p2 e)).trans_le ?_
      rw [← zpow_natCast, ← zpow_add₀ (by norm_num)]
      exact zpow_le_zpow_right₀ (by norm_num) (by push_cast; omega)
    linarith
  obtain ⟨k, hk⟩ := Int.eq_ofNat_of_zero_le (show 0 ≤ e - (L - q) by omega)
  have hx2 : x = ((m * 2 ^ k : ℤ) : ℚ) * (2 : ℚ) ^ (L - q) := by
    rw [hxe, show e = k + (L - q) by omega, zpow_add₀ (by norm_num), zpow_natCast]; push_cast; ring
  have hpos := p2 (L - q)
  refine ⟨m * 2 ^ k, ?_, ?_, ?_⟩
  · have : ((2 ^ q : ℤ) : ℚ) * (2 : ℚ) ^ (L - q) ≤ ((m * 2 ^ k : ℤ) : ℚ) * (2 : ℚ) ^ (L - q) := by
      rw [← hx2]
      refine le_trans (le_of_eq ?_) l1
      push_cast
      rw [← zpow_natCast, ← zpow_add₀ (by norm_num)]; congr 1; ring
    exact_mod_cast le_of_mul_le_mul_right this hpos
  · have : ((m * 2 ^ k : ℤ) : ℚ) * (2 : ℚ) ^ (L - q) < ((2 ^ (q + 1) : ℤ) : ℚ) * (2 : ℚ) ^ (L - q) := by
      rw [← hx2]
      refine lt_of_lt_of_eq l2 ?_
      push_cast
      rw [← zpow_natCast, ← zpow_add₀ (by norm_num)]; congr 1; push_cast; ring
    exact_mod_cast lt_of_mul_lt_mul_right this hpos.le
  · rw [hx2]; congr 2; push_cast; ring

/-- **C99, partial.** `Subnormalize` of a positive pair `hi + lo` whose scaled exponent is below the minimal one returns the pair rounded once to the grid of the
subnormal numbers (after scaling), when the low component is null or not too small. -/
theorem C99_positive_partial {p : ℕ} (hp : 3 ≤ p) {rnd : ℚ → ℚ} (hr : RNE p rnd) {emin factor : ℤ} {hi lo : ℚ} (h0 : 0 < hi) (hrep : Rep p ⊥ hi)
    (hlo : |lo| ≤ (2 : ℚ) ^ (exponent hi - p)) (h1 : exponent hi + factor < emin) (h2 : emin - p ≤ exponent hi + factor)
    (ht : lo = 0 ∨ (2 : ℚ) ^ (emin - factor - 2 * p) < |lo|) :
    SubRound p emin ((hi + lo) * (2 : ℚ) ^ factor) (subnormalizeMulti rnd p emin hi lo factor * (2 : ℚ) ^ factor) := by
  obtain ⟨M, hM1, hM2, hM⟩ := sig (by omega) hrep h0
  unfold subnormalizeMulti
  simp only
  generalize exponent hi = ex at *
  have hdelta : delta p emin ex factor = emin - (ex + factor) := by unfold delta; omega
  rw [hdelta]
  obtain ⟨d, hd⟩ := Int.eq_ofNat_of_zero_le (show 0 ≤ emin - (ex + factor) by omega)
  have hn := hr.nearest (show 1 ≤ p by omega)
  obtain ⟨k, k1, k2, k3, k4⟩ := core hp hr (M := M) (c := ex - (p - 1)) (d := d) (by omega) (by omega) hM1 hM2 (lo := lo)
    (by rw [show ex - ((p : ℤ) - 1) = (ex - p) + 1 by ring, p2s]; linarith)
    (by rw [show ex - ((p : ℤ) - 1) + d - p - 1 = emin - factor - 2 * p by omega]; exact ht)
  rw [show ex - ((p : ℤ) - 1) + d + (p - 1) = emin - (ex + factor) + ex by omega, ← hM] at k1 k2
  rw [k1]
  obtain ⟨g, hg⟩ : ∃ g, g = (2 : ℚ) ^ (ex - ((p : ℤ) - 1) + d) := ⟨_, rfl⟩
  rw [← hg] at k2 ⊢
  have hrf : (2 : ℚ) ^ (emin - (ex + factor) + ex) = ((2 ^ (p - 1) : ℤ) : ℚ) * g := by
    obtain ⟨q, rfl⟩ : ∃ q, p = q + 1 := ⟨p - 1, by omega⟩
    rw [hg]; push_cast
    rw [← zpow_natCast, ← zpow_add₀ (by norm_num)]; congr 1; push_cast at hd ⊢; omega
  have hex : rnd (k * g - (2 : ℚ) ^ (emin - (ex + factor) + ex)) = ((k - 2 ^ (p - 1) : ℤ) : ℚ) * g := by
    rw [hrf]
    have : k * g - ((2 ^ (p - 1) : ℤ) : ℚ) * g = ((k - 2 ^ (p - 1) : ℤ) : ℚ) * g := by push_cast; ring
    rw [this]
    refine rnd_exact hn ?_
    rw [hg]
    refine Rep_mul ?_ (by omega)
    have : (2 : ℤ) ^ p = 2 * 2 ^ (p - 1) := by
      obtain ⟨q, rfl⟩ : ∃ q, p = q + 1 := ⟨p - 1, by omega⟩
      rw [Nat.add_sub_cancel]; ring
    rw [abs_le]; constructor <;> omega
  rw [hex]
  have heven : Even ((2 : ℤ) ^ (p - 1)) := Int.even_pow.2 ⟨by norm_num, by omega⟩
  have hs : (2 : ℚ) ^ (emin - p + 1) = g * (2 : ℚ) ^ factor := by
    rw [hg, ← zpow_add₀ (by norm_num)]; congr 1; omega
  obtain ⟨k', e1, e2, e3⟩ := k2
  have hkk : k' = k := by
    have := mul_right_cancel₀ (by rw [hg]; exact (p2 _).ne') e1
    exact_mod_cast this.symm
  subst hkk
  unfold SubRound
  rw [hs]
  have hdist : (hi + lo) * (2 : ℚ) ^ factor - ((k' - 2 ^ (p - 1) : ℤ) : ℚ) * g * (2 : ℚ) ^ factor =
      ((2 : ℚ) ^ (emin - (ex + factor) + ex) + hi + lo - k' * g) * (2 : ℚ) ^ factor := by
    rw [hrf]; push_cast; ring
  have hf := p2 factor
  refine ⟨k' - 2 ^ (p - 1), by ring, ?_, ?_⟩
  · rw [hdist, abs_mul, abs_of_pos hf]
    have := mul_le_mul_of_nonneg_right e2 hf.le
    linarith
  · rw [hdist, abs_mul, abs_of_pos hf]
    intro h
    have h' : |(2 : ℚ) ^ (emin - (ex + factor) + ex) + hi + lo - k' * g| * (2 : ℚ) ^ factor = g / 2 * (2 : ℚ) ^ factor := by rw [h]; ring
    exact (e3 (mul_right_cancel₀ hf.ne' h')).sub heven

theorem exponent_zero {x : ℚ} (h1 : 1 ≤ |x|) (h2 : |x| < 2) : exponent x = 0 := by
  unfold exponent
  obtain ⟨l1, l2⟩ := binade (x := x) (by rintro rfl; simp at h1; linarith)
  have a := (zpow_lt_zpow_iff_right₀ (by norm_num : (1:ℚ) < 2)).1 (lt_of_le_of_lt l1 (by simpa using h2 : |x| < (2 : ℚ) ^ (1 : ℤ)))
  have b := (zpow_lt_zpow_iff_right₀ (by norm_num : (1:ℚ) < 2)).1 (lt_of_le_of_lt (by simpa using h1 : (2 : ℚ) ^ (0 : ℤ) ≤ |x|) l2)
  omega

/-- the unit in the last place of 1 -/
theorem unit_pow {q : ℕ} : ((2 ^ q : ℤ) : ℚ) * (2 : ℚ) ^ (-(q : ℤ)) = 1 := by
  push_cast
  rw [← zpow_natCast, ← zpow_add₀ (by norm_num)]; simp

theorem unit_le {q : ℕ} (hq : 2 ≤ q) : (2 : ℚ) ^ (-(q : ℤ)) ≤ 1 / 4 := by
  calc (2 : ℚ) ^ (-(q : ℤ)) ≤ (2 : ℚ) ^ (-2 : ℤ) := zpow_le_zpow_right₀ (by norm_num) (by omega)
    _ = 1 / 4 := by norm_num

/-- **C99, disagreement.** The rounding factor is positive whatever the sign of the operand. With a negative one the sum falls in a lower binade: the pair is rounded to a
grid that is too fine (here not at all), and the final scaling rounds a second time, to another number than the rounding of the pair. -/
theorem C99_negative_wrong {p : ℕ} (hp : 3 ≤ p) {rnd : ℚ → ℚ} (hr : RNE p rnd) (emin : ℤ) :
    ∃ (hi lo : ℚ) (factor : ℤ), hi < 0 ∧ Rep p ⊥ hi ∧ Rep p ⊥ lo ∧ |lo| ≤ (2 : ℚ) ^ (exponent hi - p) ∧ exponent hi + factor = emin - 1 ∧
      subnormalizeMulti rnd p emin hi lo factor = hi ∧
      ∀ y, SubRound p emin ((hi + lo) * (2 : ℚ) ^ factor) y → ¬ SubRound p emin (subnormalizeMulti rnd p emin hi lo factor * (2 : ℚ) ^ factor) y := by
  have hn := hr.nearest (show 1 ≤ p by omega)
  obtain ⟨q, rfl⟩ : ∃ q, p = q + 1 := ⟨p - 1, by omega⟩
  obtain ⟨u, hu⟩ : ∃ u, u = (2 : ℚ) ^ (-(q : ℤ)) := ⟨_, rfl⟩
  have hu0 : 0 < u := hu ▸ p2 _
  have hu4 : u ≤ 1 / 4 := hu ▸ unit_le (by omega)
  have hRu : ((2 ^ q : ℤ) : ℚ) * u = 1 := hu ▸ unit_pow
  have hR2 : (2 : ℤ) ≤ 2 ^ q := by
    calc (2 : ℤ) = 2 ^ 1 := by norm_num
      _ ≤ 2 ^ q := pow_le_pow_right₀ (by norm_num) (by omega)
  have hlo : (2 : ℚ) ^ (-(q : ℤ) - 4) = u / 16 := by rw [hu, zpow_sub₀ (by norm_num)]; norm_num
  have hex : exponent (-(1 + u)) = 0 := exponent_zero (by rw [abs_neg, abs_of_pos (by linarith)]; linarith) (by rw [abs_neg, abs_of_pos (by linarith)]; linarith)
  have rhi : Rep (q + 1) ⊥ (-(1 + u)) := by
    have : -(1 + u) = ((-(2 ^ q + 1) : ℤ) : ℚ) * (2 : ℚ) ^ (-(q : ℤ)) := by rw [← hu]; push_cast at hRu ⊢; linarith
    rw [this]
    exact Rep_mul (by rw [abs_neg, abs_of_pos (by omega), pow_succ]; omega) (by omega)
  have rlo : Rep (q + 1) ⊥ (-(u / 16)) := by
    have : -(u / 16) = ((-1 : ℤ) : ℚ) * (2 : ℚ) ^ (-(q : ℤ) - 4) := by rw [hlo]; push_cast; ring
    rw [this]; exact Rep_mul (by simp; exact one_le_pow₀ (by norm_num)) (by omega)
  have hres : subnormalizeMulti rnd (q + 1) emin (-(1 + u)) (-(u / 16)) (emin - 1) = -(1 + u) := by
    unfold subnormalizeMulti
    simp only [hex]
    have hdelta : delta (q + 1) emin 0 (emin - 1) + 0 = 1 := by unfold delta; push_cast; omega
    rw [hdelta, zpow_one]
    have r2 : Rep (q + 1) ⊥ (2 : ℚ) := by
      have : (2 : ℚ) = ((1 : ℤ) : ℚ) * (2 : ℚ) ^ (1 : ℤ) := by norm_num
      rw [this]; exact Rep_mul (by simp; exact one_le_pow₀ (by norm_num)) (by omega)
    obtain ⟨S1, -, S3⟩ := Verif.Blocks.C46_twosum hp hn r2 rhi
    unfold add212 fastTwoSum
    simp only
    have rS : Rep (q + 1) ⊥ ((2 : ℚ) + -(1 + u)) := by
      have : (2 : ℚ) + -(1 + u) = ((2 ^ q - 1 : ℤ) : ℚ) * (2 : ℚ) ^ (-(q : ℤ)) := by rw [← hu]; push_cast at hRu ⊢; linarith
      rw [this]
      exact Rep_mul (by rw [abs_of_pos (by omega), pow_succ]; omega) (by omega)
    rw [rnd_exact hn rS] at S1
    rw [S1] at S3 ⊢
    have he : (twoSum rnd 2 (-(1 + u))).2 = 0 := by linarith
    rw [he, zero_add, rnd_exact hn rlo]
    have hz : rnd (2 + -(1 + u) + -(u / 16)) = 2 + -(1 + u) := by
      have hG := hr.2 (2 + -(1 + u) + -(u / 16)) (-1) (by rw [abs_of_pos (by linarith)]; norm_num; linarith) (by rw [abs_of_pos (by linarith)]; norm_num; linarith)
      have hg : (2 : ℚ) ^ (-1 - ((q + 1 : ℕ) : ℤ) + 1) = u / 2 := by
        rw [hu, show -1 - ((q + 1 : ℕ) : ℤ) + 1 = -(q : ℤ) - 1 by push_cast; ring, zpow_sub₀ (by norm_num)]; norm_num
      rw [hg] at hG
      have hS : 2 + -(1 + u) = ((2 * (2 ^ q - 1) : ℤ) : ℚ) * (u / 2) := by push_cast at hRu ⊢; linarith
      have := grid_unique (by positivity) hG (k := 2 * (2 ^ q - 1)) (by
        rw [← hS, show 2 + -(1 + u) + -(u / 16) - (2 + -(1 + u)) = -(u / 16) by ring, abs_neg, abs_of_pos (by positivity)]; linarith)
      rw [this, ← hS]
    rw [hz, show 2 + -(1 + u) - 2 = -(1 + u) by ring, rnd_exact hn rhi]
  refine ⟨-(1 + u), -(u / 16), emin - 1, by linarith, rhi, rlo, ?_, by rw [hex]; ring, hres, ?_⟩
  · rw [hex, abs_neg, abs_of_pos (by positivity), show (0 : ℤ) - ((q + 1 : ℕ) : ℤ) = -(q : ℤ) - 1 by push_cast; ring, zpow_sub₀ (by norm_num), ← hu]
    norm_num; linarith
  · rw [hres]
    intro y h1 h2
    unfold SubRound at h1 h2
    -- in units of the grid
    obtain ⟨G, hG⟩ : ∃ G, G = (2 : ℚ) ^ (emin - ((q + 1 : ℕ) : ℤ) + 1) := ⟨_, rfl⟩
    have hG0 : 0 < G := hG ▸ p2 _
    rw [← hG] at h1 h2
    obtain ⟨r, hr'⟩ : ∃ r, q = r + 1 := ⟨q - 1, by omega⟩
    have hf : (2 : ℚ) ^ (emin - 1) = ((2 ^ r : ℤ) : ℚ) * G := by
      rw [hG, hr']; push_cast
      rw [← zpow_natCast, ← zpow_add₀ (by norm_num)]; congr 1; ring
    have hru : ((2 ^ r : ℤ) : ℚ) * u = 1 / 2 := by
      rw [hr'] at hRu; push_cast at hRu ⊢; rw [pow_succ] at hRu; linarith
    have hev : Even (-(2 ^ r : ℤ)) := (Int.even_pow.2 ⟨by norm_num, by omega⟩).neg
    have x1 : (-(1 + u) + -(u / 16)) * (2 : ℚ) ^ (emin - 1) = (-((2 ^ r : ℤ) : ℚ) - 1 / 2 - 1 / 32) * G := by
      rw [hf, show (-(1 + u) + -(u / 16)) * (((2 ^ r : ℤ) : ℚ) * G) = (-((2 ^ r : ℤ) : ℚ) - ((2 ^ r : ℤ) : ℚ) * u - ((2 ^ r : ℤ) : ℚ) * u / 16) * G by ring, hru]
      ring
    have x2 : (-(1 + u)) * (2 : ℚ) ^ (emin - 1) = (-((2 ^ r : ℤ) : ℚ) - 1 / 2) * G := by
      rw [hf, show (-(1 + u)) * (((2 ^ r : ℤ) : ℚ) * G) = (-((2 ^ r : ℤ) : ℚ) - ((2 ^ r : ℤ) : ℚ) * u) * G by ring, hru]
    rw [x1] at h1
    rw [x2] at h2
    have y2 := grid_even hG0 h2 hev (by
      push_cast
      rw [show (-(2 : ℚ) ^ r - 1 / 2) * G - -2 ^ r * G = -(G / 2) by ring, abs_neg, abs_of_pos (by positivity)])
    have y1 := grid_unique hG0 h1 (k := -(2 ^ r) - 1) (by
      push_cast
      rw [show (-(2 : ℚ) ^ r - 1 / 2 - 1 / 32) * G - (-2 ^ r - 1) * G = 15 / 32 * G by ring, abs_of_pos (by positivity)]; linarith)
    rw [y1] at y2
    have := mul_right_cancel₀ hG0.ne' y2
    have h3 : -(2 ^ r : ℤ) - 1 = -(2 ^ r : ℤ) := by exact_mod_cast this
    omega

/-- the sum of the rounding factor and `1 + u`: `b` is 2 or 1 -/
theorem tie_sum {q : ℕ} (hq : 2 ≤ q) {rnd : ℚ → ℚ} (hr : RNE (q + 1) rnd) {b : ℕ} (hb : b = 1 ∨ b = 2) {lo : ℚ} (h : lo = 0 ∨ lo = (2 : ℚ) ^ (-(2 * q : ℤ) - 1)) :
    rnd ((add212 rnd (b : ℚ) (1 + (2 : ℚ) ^ (-(q : ℤ))) lo).1 - b) = 1 := by
  have hn := hr.nearest (show 1 ≤ q + 1 by omega)
  obtain ⟨u, hu⟩ : ∃ u, u = (2 : ℚ) ^ (-(q : ℤ)) := ⟨_, rfl⟩
  have hu0 : 0 < u := hu ▸ p2 _
  have hu4 : u ≤ 1 / 4 := hu ▸ unit_le (by omega)
  have hRu : ((2 ^ q : ℤ) : ℚ) * u = 1 := hu ▸ unit_pow
  obtain ⟨r, hr'⟩ : ∃ r, q = r + 1 := ⟨q - 1, by omega⟩
  have hr1 : (2 ^ q : ℤ) = 2 * 2 ^ r := by rw [hr', pow_succ]; ring
  have hR2 : (4 : ℤ) ≤ 2 ^ q := by
    calc (4 : ℤ) = 2 ^ 2 := by norm_num
      _ ≤ 2 ^ q := pow_le_pow_right₀ (by norm_num) (by omega)
  have hru : ((2 ^ r : ℤ) : ℚ) * (2 * u) = 1 := by rw [hr1] at hRu; push_cast at hRu ⊢; linarith
  have hre : Even (2 ^ r : ℤ) := Int.even_pow.2 ⟨by norm_num, by omega⟩
  have b0 : (1 : ℚ) ≤ b ∧ (b : ℚ) ≤ 2 := by rcases hb with rfl | rfl <;> norm_num
  rw [← hu]
  have rhi : Rep (q + 1) ⊥ (1 + u) := by
    have : (1 + u) = ((2 ^ q + 1 : ℤ) : ℚ) * (2 : ℚ) ^ (-(q : ℤ)) := by rw [← hu]; push_cast at hRu ⊢; linarith
    rw [this]
    exact Rep_mul (by rw [abs_of_pos (by omega), pow_succ]; omega) (by omega)
  have rb : Rep (q + 1) ⊥ (b : ℚ) := by
    have : (b : ℚ) = ((b : ℤ) : ℚ) * (2 : ℚ) ^ (0 : ℤ) := by simp
    rw [this]
    refine Rep_mul ?_ (by omega)
    rw [pow_succ]; rcases hb with rfl | rfl <;> norm_num <;> omega
  -- the sum is a tie, its rounding is even
  have hsum : rnd (b + (1 + u)) = b + 1 := by
    have hG := hr.2 (b + (1 + u)) 1 (by rw [abs_of_pos (by linarith), zpow_one]; linarith) (by rw [abs_of_pos (by linarith)]; norm_num; linarith)
    have hg : (2 : ℚ) ^ (1 - ((q + 1 : ℕ) : ℤ) + 1) = 2 * u := by
      rw [hu, show 1 - ((q + 1 : ℕ) : ℤ) + 1 = -(q : ℤ) + 1 by push_cast; ring, p2s]
    rw [hg] at hG
    have hS : (b : ℚ) + 1 = (((b + 1) * 2 ^ r : ℤ) : ℚ) * (2 * u) := by
      push_cast at hru ⊢
      rw [mul_assoc, hru]; ring
    have := grid_even (by positivity) hG (k := (b + 1) * 2 ^ r) (hre.mul_left _) (by
      rw [← hS, show (b : ℚ) + (1 + u) - (b + 1) = u by ring, abs_of_pos hu0]; linarith)
    rw [this, ← hS]
  obtain ⟨S1, -, S3⟩ := Verif.Blocks.C46_twosum (by omega) hn rb rhi
  rw [hsum] at S1
  unfold add212 fastTwoSum
  simp only
  rw [S1] at S3 ⊢
  have he : (twoSum rnd (b : ℚ) (1 + u)).2 = u := by linarith
  rw [he]
  have ru : Rep (q + 1) ⊥ u := by
    have : u = ((1 : ℤ) : ℚ) * (2 : ℚ) ^ (-(q : ℤ)) := by rw [← hu]; push_cast; ring
    rw [this]; exact Rep_mul (by simp; exact one_le_pow₀ (by norm_num)) (by omega)
  have ht : rnd (u + lo) = u := by
    rcases h with rfl | rfl
    · rw [add_zero]; exact rnd_exact hn ru
    · obtain ⟨w, hw⟩ : ∃ w, w = (2 : ℚ) ^ (-(2 * q : ℤ) - 1) := ⟨_, rfl⟩
      have hw0 : 0 < w := hw ▸ p2 _
      have hwu : u = ((2 ^ q : ℤ) : ℚ) * (2 * w) := by
        rw [hw, hu, ← p2s]; push_cast
        rw [← zpow_natCast, ← zpow_add₀ (by norm_num)]; congr 1; ring
      have hRq : (4 : ℚ) ≤ ((2 ^ q : ℤ) : ℚ) := by exact_mod_cast hR2
      have hwle : w ≤ u := by rw [hwu]; nlinarith
      rw [← hw]
      have hG := hr.2 (u + w) (-(q : ℤ)) (by rw [abs_of_pos (by linarith), ← hu]; linarith) (by rw [abs_of_pos (by linarith), p2s, ← hu]; linarith)
      have hg : (2 : ℚ) ^ (-(q : ℤ) - ((q + 1 : ℕ) : ℤ) + 1) = 2 * w := by
        rw [hw, ← p2s]; congr 1; push_cast; ring
      rw [hg] at hG
      have := grid_even (by positivity) hG (k := 2 ^ q) (Int.even_pow.2 ⟨by norm_num, by omega⟩) (by
        rw [← hwu, show u + w - u = w by ring, abs_of_pos hw0]; linarith)
      rw [this, ← hwu]
  rw [ht, show (b : ℚ) + 1 + u = b + (1 + u) by ring, hsum, show (b : ℚ) + 1 - b = 1 by ring]
  refine rnd_exact hn ?_
  have : (1 : ℚ) = ((1 : ℤ) : ℚ) * (2 : ℚ) ^ (0 : ℤ) := by simp
  rw [this]; exact Rep_mul (by simp; exact one_le_pow₀ (by norm_num)) (by omega)

/-- **C99, disagreement.** A low component that is too small is lost in the intermediate sum: a pair just above the middle of two subnormal numbers is rounded down. -/
theorem C99_small_low_wrong {p : ℕ} (hp : 3 ≤ p) {rnd : ℚ → ℚ} (hr : RNE p rnd) (emin : ℤ) :
    ∃ (hi lo : ℚ) (factor : ℤ), 0 < hi ∧ Rep p ⊥ hi ∧ 0 < lo ∧ Rep p ⊥ lo ∧ lo ≤ (2 : ℚ) ^ (exponent hi - p) ∧ exponent hi + factor = emin - 1 ∧
      ¬ SubRound p emin ((hi + lo) * (2 : ℚ) ^ factor) (subnormalizeMulti rnd p emin hi lo factor * (2 : ℚ) ^ factor) := by
  obtain ⟨q, rfl⟩ : ∃ q, p = q + 1 := ⟨p - 1, by omega⟩
  have hu0 := p2 (-(q : ℤ))
  have hu4 := unit_le (q := q) (by omega)
  have hRu := unit_pow (q := q)
  have hw0 := p2 (-(2 * q : ℤ) - 1)
  have hex : exponent (1 + (2 : ℚ) ^ (-(q : ℤ))) = 0 := exponent_zero (by rw [abs_of_pos (by linarith)]; linarith) (by rw [abs_of_pos (by linarith)]; linarith)
  refine ⟨1 + (2 : ℚ) ^ (-(q : ℤ)), (2 : ℚ) ^ (-(2 * q : ℤ) - 1), emin - 1, by linarith, ?_, hw0, ?_, ?_, by rw [hex]; ring, ?_⟩
  · have : (1 + (2 : ℚ) ^ (-(q : ℤ))) = ((2 ^ q + 1 : ℤ) : ℚ) * (2 : ℚ) ^ (-(q : ℤ)) := by push_cast at hRu ⊢; linarith
    rw [this]
    have : (1 : ℤ) ≤ 2 ^ q := one_le_pow₀ (by norm_num)
    exact Rep_mul (by rw [abs_of_pos (by omega), pow_succ]; omega) (by omega)
  · have : (2 : ℚ) ^ (-(2 * q : ℤ) - 1) = ((1 : ℤ) : ℚ) * (2 : ℚ) ^ (-(2 * q : ℤ) - 1) := by simp
    rw [this]; exact Rep_mul (by simp; exact one_le_pow₀ (by norm_num)) (by omega)
  · rw [hex]; exact zpow_le_zpow_right₀ (by norm_num) (by push_cast; omega)
  · have hres : subnormalizeMulti rnd (q + 1) emin (1 + (2 : ℚ) ^ (-(q : ℤ))) ((2 : ℚ) ^ (-(2 * q : ℤ) - 1)) (emin - 1) = 1 := by
      unfold subnormalizeMulti
      simp only [hex]
      have hdelta : delta (q + 1) emin 0 (emin - 1) + 0 = 1 := by unfold delta; push_cast; omega
      rw [hdelta, zpow_one]
      exact_mod_cast tie_sum (by omega) hr (b := 2) (Or.inr rfl) (Or.inr rfl)
    rw [hres]
    rintro ⟨m, -, h, -⟩
    obtain ⟨r, hr'⟩ : ∃ r, q = r + 1 := ⟨q - 1, by omega⟩
    have hf := p2 (emin - 1)
    have hG : (2 : ℚ) ^ (emin - ((q + 1 : ℕ) : ℤ) + 1) / 2 = (2 : ℚ) ^ (-(q : ℤ)) * (2 : ℚ) ^ (emin - 1) := by
      rw [← zpow_add₀ (by norm_num), show emin - ((q + 1 : ℕ) : ℤ) + 1 = (-(q : ℤ) + (emin - 1)) + 1 by push_cast; ring, p2s]; ring
    rw [hG, show (1 + (2 : ℚ) ^ (-(q : ℤ)) + (2 : ℚ) ^ (-(2 * q : ℤ) - 1)) * (2 : ℚ) ^ (emin - 1) - 1 * (2 : ℚ) ^ (emin - 1) =
      ((2 : ℚ) ^ (-(q : ℤ)) + (2 : ℚ) ^ (-(2 * q : ℤ) - 1)) * (2 : ℚ) ^ (emin - 1) by ring, abs_of_pos (by positivity)] at h
    have := le_of_mul_le_mul_right h hf
    linarith

/-- **C99, disagreement.** A number that is not in the subnormal range after scaling loses its last bit, although it should be returned unchanged. -/
theorem C99_normal_wrong {p : ℕ} (hp : 3 ≤ p) {rnd : ℚ → ℚ} (hr : RNE p rnd) {emin factor : ℤ} (h : emin ≤ factor) :
    ∃ hi : ℚ, Rep p ⊥ hi ∧ exponent hi = 0 ∧ subnormalizeMulti rnd p emin hi 0 factor ≠ hi := by
  obtain ⟨q, rfl⟩ : ∃ q, p = q + 1 := ⟨p - 1, by omega⟩
  have hu0 := p2 (-(q : ℤ))
  have hu4 := unit_le (q := q) (by omega)
  have hRu := unit_pow (q := q)
  have hex : exponent (1 + (2 : ℚ) ^ (-(q : ℤ))) = 0 := exponent_zero (by rw [abs_of_pos (by linarith)]; linarith) (by rw [abs_of_pos (by linarith)]; linarith)
  refine ⟨1 + (2 : ℚ) ^ (-(q : ℤ)), ?_, hex, ?_⟩
  · have : (1 + (2 : ℚ) ^ (-(q : ℤ))) = ((2 ^ q + 1 : ℤ) : ℚ) * (2 : ℚ) ^ (-(q : ℤ)) := by push_cast at hRu ⊢; linarith
    rw [this]
    have : (1 : ℤ) ≤ 2 ^ q := one_le_pow₀ (by norm_num)
    exact Rep_mul (by rw [abs_of_pos (by omega), pow_succ]; omega) (by omega)
  · have hres : subnormalizeMulti rnd (q + 1) emin (1 + (2 : ℚ) ^ (-(q : ℤ))) 0 factor = 1 := by
      unfold subnormalizeMulti
      simp only [hex]
      have hdelta : delta (q + 1) emin 0 factor + 0 = 0 := by unfold delta; push_cast; omega
      rw [hdelta, zpow_zero]
      exact_mod_cast tie_sum (by omega) hr (b := 1) (Or.inl rfl) (Or.inl rfl)
    rw [hres]
    linarith

/-- the hypotheses are met: binary64, `3/2 + 2^-60` scaled below the smallest normal number -/
example : RNE 53 (rne 53) ∧ (0 : ℚ) < 3 / 2 ∧ Rep 53 ⊥ (3 / 2) ∧ |(2 : ℚ) ^ (-60 : ℤ)| ≤ (2 : ℚ) ^ (exponent (3 / 2) - (53 : ℕ)) ∧ exponent (3 / 2) + (-1030) < -1022 ∧
    (-1022 : ℤ) - (53 : ℕ) ≤ exponent (3 / 2) + (-1030) ∧ (2 : ℚ) ^ ((-1022 : ℤ) - (-1030) - 2 * (53 : ℕ)) < |(2 : ℚ) ^ (-60 : ℤ)| := by
  have he : exponent (3 / 2) = 0 := exponent_zero (by rw [abs_of_pos (by norm_num)]; norm_num) (by rw [abs_of_pos (by norm_num)]; norm_num)
  rw [he]
  refine ⟨rne_RNE (by norm_num), by norm_num, ⟨3, -1, by norm_num, bot_le, by norm_num⟩, ?_, by norm_num, by norm_num, ?_⟩
  · rw [abs_of_pos (p2 _)]; exact zpow_le_zpow_right₀ (by norm_num) (by norm_num)
  · rw [abs_of_pos (p2 _)]; exact zpow_lt_zpow_right₀ (by norm_num) (by norm_num)

end Verif.Subnorm
