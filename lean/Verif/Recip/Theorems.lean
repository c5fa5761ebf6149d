import Verif.Recip.Chain
import Verif.FpHw.Adder
import Mathlib.Data.Nat.Prime.Basic
import Mathlib.Tactic.IntervalCases

/-!
# The hardware reciprocal (property C122)
-/

namespace Verif.Recip

open Verif.Float Verif.FpHw Verif.Check

/-! ## The rounding -/

/-- the bit added to the significand -/
def incr (N : ℕ) : ℕ := if N / 2 ^ 23 % 2 = 1 ∧ (N % 2 ^ 23 ≠ 0 ∨ N / 2 ^ 24 % 2 = 1) then 1 else 0

theorem pack_lt (x N : ℕ) (h : N < 2 ^ 48) (hN : 2 ^ 47 ≤ N) : pack b32 x N =
    (if signBit b32 x then 1 else 0) * 2 ^ 31 + ((509 - expField b32 x) % 256 * 2 ^ 23 + (N / 2 ^ 24 - 2 ^ 23) + incr N) % 2 ^ 31 := by
  have he : expField b32 x < 256 := Nat.mod_lt _ (by norm_num)
  have h0 : ¬ (N / 2 ^ 48 % 2 = 1) := by rw [Nat.div_eq_of_lt h]; norm_num
  have h1 : N / 2 ^ 24 % 2 ^ 23 = N / 2 ^ 24 - 2 ^ 23 := by norm_num at h hN ⊢; omega
  have h2 : (2 * (2 ^ (8 - 1) - 1) + 2 ^ (8 + 2) - expField b32 x) % 2 ^ (8 + 2) % 2 ^ 8 = (510 - expField b32 x) % 256 := by norm_num; omega
  have h3 : ((510 - expField b32 x) % 256 + (2 ^ 8 - 1)) % 2 ^ 8 = (509 - expField b32 x) % 256 := by norm_num; omega
  have h4 : (if N % 2 ^ 23 = 0 then 0 else 1) = 1 ↔ N % 2 ^ 23 ≠ 0 := by split_ifs <;> simp_all
  unfold pack
  simp only [show 2 * (23 + 1) = 48 from rfl, if_neg h0, show 48 - 23 - 1 = 24 from rfl, show 24 - 1 = 23 from rfl, h1, h2, h3, h4, incr,
    show 8 + 23 = 31 from rfl]

theorem pack_one (x : ℕ) : pack b32 x (2 ^ 48) = (if signBit b32 x then 1 else 0) * 2 ^ 31 + (510 - expField b32 x) % 256 * 2 ^ 23 := by
  have he : expField b32 x < 256 := Nat.mod_lt _ (by norm_num)
  have h2 : (2 * (2 ^ (8 - 1) - 1) + 2 ^ (8 + 2) - expField b32 x) % 2 ^ (8 + 2) % 2 ^ 8 = (510 - expField b32 x) % 256 := by norm_num; omega
  have h3 : (510 - expField b32 x) % 256 * 2 ^ 23 < 2 ^ 31 := by norm_num; omega
  unfold pack
  simp only [show 2 * (23 + 1) = 48 from rfl, h2]
  norm_num
  norm_num at h3
  omega

/-- the position of the exact quotient with respect to the bits kept -/
theorem core {M N q : ℕ} (h1 : 2 ^ 23 ≤ M) (h2 : M < 2 ^ 24) (a1 : M * N ≤ 2 ^ 71) (a2 : 2 ^ 71 < M * (N + 4)) (hq : q = N / 2 ^ 24) :
    2 ^ 47 ≤ N ∧ N ≤ 2 ^ 48 ∧ (N = 2 ^ 48 → M = 2 ^ 23) ∧ (M = 2 ^ 23 → N < 2 ^ 48 → q = 2 ^ 24 - 1 ∧ incr N = 1) ∧
      (2 ^ 23 < M → N < 2 ^ 48 ∧ q + 2 ≤ 2 ^ 24) := by
  have b1 : 2 ^ 47 ≤ N := by
    by_contra hc
    have : M * (N + 4) ≤ (2 ^ 24 - 1) * (2 ^ 47 - 1 + 4) := Nat.mul_le_mul (by omega) (by omega)
    norm_num at this a2
    omega
  have b2 : N ≤ 2 ^ 48 := by
    by_contra hc
    have : 2 ^ 23 * (2 ^ 48 + 1) ≤ M * N := Nat.mul_le_mul h1 (by omega)
    norm_num at this a1
    omega
  have b3 : 2 ^ 23 < M → N < 2 ^ 48 ∧ q + 2 ≤ 2 ^ 24 := by
    intro hM
    have : N < 2 ^ 48 - 2 ^ 24 := by
      by_contra hc
      have : (2 ^ 23 + 1) * (2 ^ 48 - 2 ^ 24) ≤ M * N := Nat.mul_le_mul (by omega) (by omega)
      norm_num at this a1
      omega
    norm_num at this hq ⊢
    omega
  refine ⟨b1, b2, fun h => ?_, fun h h' => ?_, b3⟩
  · by_contra hc
    have := (b3 (by omega)).1
    omega
  · rw [h] at a2
    have hN : 2 ^ 48 - 4 < N := by norm_num at a2 ⊢; omega
    norm_num at hN h' hq
    refine ⟨by norm_num; omega, ?_⟩
    unfold incr
    rw [if_pos]
    norm_num
    omega

theorem incr_cases (N : ℕ) : (incr N = 0 ∧ N % 2 ^ 24 ≤ 2 ^ 23) ∨ (incr N = 1 ∧ 2 ^ 23 ≤ N % 2 ^ 24) := by
  unfold incr
  split_ifs with h
  · right
    refine ⟨rfl, ?_⟩
    norm_num at h ⊢
    omega
  · left
    refine ⟨rfl, ?_⟩
    norm_num at h ⊢
    omega

/-- the quotient is not in the middle of two integers -/
theorem not_middle {M q : ℕ} (hq : 0 < q) : M * (2 * q + 1) ≠ 2 ^ 48 := by
  intro h
  have hd : 2 * q + 1 ∣ 2 ^ 48 := ⟨M, by rw [← h]; ring⟩
  obtain ⟨k, -, hk⟩ := (Nat.dvd_prime_pow Nat.prime_two).1 hd
  rcases k with _ | k
  · simp at hk; omega
  · rw [pow_succ] at hk; omega

/-- the significand returned, before normalization -/
def sigOf (N : ℕ) : ℕ := N / 2 ^ 24 + incr N

/-- it differs from the quotient by less than 1, and by less than one half unless the significand is excepted -/
theorem sig_spec {M N : ℕ} (h1 : 2 ^ 23 ≤ M) (h2 : M < 2 ^ 24) (a1 : M * N ≤ 2 ^ 71) (a2 : 2 ^ 71 < M * (N + 4)) :
    |(sigOf N : ℚ) - 2 ^ 47 / M| < 1 ∧ (¬ NearMiddle 24 M → |(sigOf N : ℚ) - 2 ^ 47 / M| < 1 / 2) := by
  obtain ⟨q, hq⟩ : ∃ q, q = N / 2 ^ 24 := ⟨_, rfl⟩
  obtain ⟨b1, b2, -⟩ := core h1 h2 a1 a2 hq
  obtain ⟨r, hr⟩ : ∃ r, r = N % 2 ^ 24 := ⟨_, rfl⟩
  have hN : N = 2 ^ 24 * q + r := by rw [hq, hr]; exact (Nat.div_add_mod _ _).symm
  have hr2 : r < 2 ^ 24 := by rw [hr]; exact Nat.mod_lt _ (by norm_num)
  have hq0 : 2 ^ 23 ≤ q := by norm_num at b1 hq ⊢; omega
  have hM : (0 : ℚ) < M := by exact_mod_cast (by omega : 0 < M)
  have c1 : (2 ^ 24 * q + r : ℚ) / 2 ^ 24 ≤ 2 ^ 47 / M := by
    rw [div_le_div_iff₀ (by norm_num) hM]
    have : ((M * N : ℕ) : ℚ) ≤ ((2 ^ 71 : ℕ) : ℚ) := by exact_mod_cast a1
    rw [hN] at this
    push_cast at this
    linarith
  have c2 : (2 : ℚ) ^ 47 / M < (2 ^ 24 * q + r + 4 : ℚ) / 2 ^ 24 := by
    rw [div_lt_div_iff₀ hM (by norm_num)]
    have : ((2 ^ 71 : ℕ) : ℚ) < ((M * (N + 4) : ℕ) : ℚ) := by exact_mod_cast a2
    rw [hN] at this
    push_cast at this
    linarith
  obtain ⟨z, hz⟩ : ∃ z : ℚ, z = 2 ^ 47 / M := ⟨_, rfl⟩
  rw [← hz] at c1 c2 ⊢
  have hzM : z * M = 2 ^ 47 := by rw [hz]; field_simp
  norm_num at c1 c2 hr2
  have hr0 : (0 : ℚ) ≤ r := Nat.cast_nonneg r
  have c1' : (q : ℚ) + r / 16777216 ≤ z := by linarith
  have c2' : z < (q : ℚ) + (r + 4) / 16777216 := by linarith
  have ne : z ≠ q + 1 / 2 := by
    intro h
    refine not_middle (M := M) (q := q) (by omega) ?_
    rw [h] at hzM
    have : ((M * (2 * q + 1) : ℕ) : ℚ) = ((2 ^ 48 : ℕ) : ℚ) := by push_cast; linarith
    exact_mod_cast this
  rcases incr_cases N with ⟨i1, i2⟩ | ⟨i1, i2⟩
  · rw [← hr] at i2
    have hR : (sigOf N : ℚ) = q := by rw [sigOf, i1, ← hq]; norm_num
    have hr3 : (r : ℚ) ≤ 8388608 := by exact_mod_cast i2
    rw [hR]
    refine ⟨by rw [abs_lt]; constructor <;> linarith, fun hx => ?_⟩
    rw [abs_lt]
    refine ⟨?_, by linarith⟩
    by_contra hc
    have hlt : (q : ℚ) + 1 / 2 < z := lt_of_le_of_ne (by linarith) (Ne.symm ne)
    have hlt2 : (q + 1 / 2 : ℚ) * M < z * M := mul_lt_mul_of_pos_right hlt hM
    rw [hzM] at hlt2
    have hlt3 : M * (2 * q + 1) < 2 ^ 48 := by
      have : ((M * (2 * q + 1) : ℕ) : ℚ) < ((2 ^ 48 : ℕ) : ℚ) := by push_cast; linarith
      exact_mod_cast this
    refine hx ⟨2 ^ 48 - M * (2 * q + 1), by omega, ?_, ?_⟩
    · have : M * (N + 4) ≤ M * (2 ^ 23 * (2 * q + 1) + 4) := Nat.mul_le_mul_left _ (by norm_num at i2 hN ⊢; omega)
      have e : M * (2 ^ 23 * (2 * q + 1) + 4) = 2 ^ 23 * (M * (2 * q + 1)) + 4 * M := by ring
      rw [e] at this
      generalize M * (2 * q + 1) = y at *
      norm_num at this a2 hlt3 h2 ⊢
      omega
    · refine ⟨2 * q + 1, ?_⟩
      norm_num at hlt3 ⊢
      omega
  · rw [← hr] at i2
    have hR : (sigOf N : ℚ) = q + 1 := by rw [sigOf, i1, ← hq]; push_cast; rfl
    have hr3 : (8388608 : ℚ) ≤ r := by exact_mod_cast i2
    have hr4 : (r : ℚ) + 1 ≤ 16777216 := by exact_mod_cast hr2
    have hlt : (q : ℚ) + 1 / 2 < z := lt_of_le_of_ne (by linarith) (Ne.symm ne)
    rw [hR]
    refine ⟨by rw [abs_lt]; constructor <;> linarith, fun _ => ?_⟩
    rw [abs_lt]
    constructor <;> linarith

/-- the word built from the significand, when the exponent is in range -/
theorem pack_value {x M N : ℕ} (h1 : 2 ^ 23 ≤ M) (h2 : M < 2 ^ 24) (a1 : M * N ≤ 2 ^ 71) (a2 : 2 ^ 71 < M * (N + 4))
    (e1 : expField b32 x ≤ 252 ∨ (expField b32 x = 253 ∧ M = 2 ^ 23)) (e0 : 1 ≤ expField b32 x) :
    b32.decode (pack b32 x N) = .num (sg (signBit b32 x) * (sigOf N * (2 : ℚ) ^ (103 - (expField b32 x : ℤ)))) := by
  obtain ⟨b1, b2, b3, b4, b5⟩ := core h1 h2 a1 a2 rfl
  have dec := @decode_build b32 (signBit b32 x)
  rw [b32_emax] at dec
  simp only [build] at dec
  -- the two forms of the significand
  have big : (∃ w, pack b32 x N = w) → sigOf N = 2 ^ 24 → pack b32 x N =
      (if signBit b32 x then 1 else 0) * 2 ^ 31 + (254 - expField b32 x) * 2 ^ 23 + 0 →
      b32.decode (pack b32 x N) = .num (sg (signBit b32 x) * (sigOf N * (2 : ℚ) ^ (103 - (expField b32 x : ℤ)))) := by
    intro _ hs hp
    rw [hp, hs]
    have := dec (e := 254 - expField b32 x) (m := 0) (by omega) (by norm_num; omega) (by norm_num)
    rw [show (8 : ℕ) + 23 = 31 from rfl] at this
    rw [this]
    congr 2
    rw [Nat.cast_sub (by omega)]
    have : (((254 : ℕ) : ℤ) - (expField b32 x : ℤ)) - 127 - ((23 : ℕ) : ℤ) = 103 - (expField b32 x : ℤ) + 1 := by push_cast; ring
    rw [this, zpow_add₀ (by norm_num)]
    push_cast
    ring
  rcases Nat.lt_or_ge N (2 ^ 48) with hlt | hge
  · have hp := pack_lt x N hlt b1
    rcases eq_or_ne (sigOf N) (2 ^ 24) with hs | hs
    · refine big ⟨_, rfl⟩ hs ?_
      rw [hp, Nat.mod_eq_of_lt]
      · unfold sigOf at hs
        norm_num at hs hlt b1 ⊢
        omega
      · unfold sigOf at hs
        norm_num at hs hlt b1 ⊢
        omega
    · have hs2 : sigOf N < 2 ^ 24 := by
        refine lt_of_le_of_ne ?_ hs
        rcases incr_cases N with ⟨i1, -⟩ | ⟨i1, -⟩ <;> rw [sigOf, i1] <;> norm_num at hlt ⊢ <;> omega
      have e2 : expField b32 x ≤ 252 := by
        rcases e1 with e1 | ⟨-, e1⟩
        · exact e1
        · exfalso
          obtain ⟨y1, y2⟩ := b4 e1 hlt
          rw [sigOf, y1, y2] at hs2
          norm_num at hs2
      have hs3 : 2 ^ 23 ≤ sigOf N := by unfold sigOf; norm_num at b1 ⊢; omega
      have hw : pack b32 x N = (if signBit b32 x then 1 else 0) * 2 ^ 31 + (253 - expField b32 x) * 2 ^ 23 + (sigOf N - 2 ^ 23) := by
        rw [hp, Nat.mod_eq_of_lt]
        · unfold sigOf at hs2 hs3 ⊢
          norm_num at hs2 hs3 hlt b1 ⊢
          omega
        · unfold sigOf at hs2 hs3
          norm_num at hs2 hs3 hlt b1 ⊢
          omega
      have := dec (e := 253 - expField b32 x) (m := sigOf N - 2 ^ 23) (by omega) (by norm_num; omega) (by norm_num at hs2 ⊢; omega)
      rw [show (8 : ℕ) + 23 = 31 from rfl] at this
      rw [hw, this, Nat.cast_sub (by omega), show 2 ^ 23 + (sigOf N - 2 ^ 23) = sigOf N by omega]
      congr 4
      push_cast
      ring
  · have hN : N = 2 ^ 48 := le_antisymm b2 hge
    subst hN
    refine big ⟨_, rfl⟩ (by decide +kernel) ?_
    rw [pack_one]
    have : (510 - expField b32 x) % 256 = 254 - expField b32 x := by omega
    rw [this, Nat.add_zero]

/-! ## Property C122 -/

/-- the fields of a normal number whose reciprocal is normal -/
theorem fields {c : ℕ} (hc : c < 2 ^ 32) {a : ℚ} (h : b32.decode c = .num a) (hn : (2 : ℚ) ^ (-126 : ℤ) ≤ |a|) (hn2 : |a| ≤ (2 : ℚ) ^ (126 : ℤ)) :
    1 ≤ expField b32 c ∧ (expField b32 c ≤ 252 ∨ (expField b32 c = 253 ∧ mant b32 c = 2 ^ 23)) ∧ 2 ^ 23 ≤ mant b32 c ∧ mant b32 c < 2 ^ 24 ∧
      a = sg (signBit b32 c) * (mant b32 c * (2 : ℚ) ^ ((expField b32 c : ℤ) - 150)) := by
  obtain ⟨f1, f2, f3, f4, f5⟩ := decode_normal (F := b32) hc h (by rw [b32_emin]; exact hn)
  rw [b32_emax, show (expField b32 c : ℤ) - 127 - ((23 : ℕ) : ℤ) = expField b32 c - 150 by push_cast; ring] at f5
  refine ⟨f1, ?_, f3, f4, f5⟩
  rw [f5, abs_mul, sg_abs, one_mul, abs_mul, abs_of_pos (FpHw.zp _), Nat.abs_cast] at hn2
  have f3' : (2 : ℚ) ^ (23 : ℤ) ≤ mant b32 c := by exact_mod_cast f3
  by_contra hc'
  push Not at hc'
  have hE : (expField b32 c : ℤ) = 253 ∨ (254 : ℤ) ≤ expField b32 c := by omega
  rcases hE with hE | hE
  · have hM : 2 ^ 23 + 1 ≤ mant b32 c := by
      have := hc'.2 (by omega)
      change 2 ^ 23 ≤ mant b32 c at f3
      omega
    have hM' : (2 : ℚ) ^ 23 + 1 ≤ mant b32 c := by exact_mod_cast hM
    rw [hE] at hn2
    norm_num at hn2
    linarith
  · have : (2 : ℚ) ^ (23 : ℤ) * (2 : ℚ) ^ (104 : ℤ) ≤ mant b32 c * (2 : ℚ) ^ ((expField b32 c : ℤ) - 150) :=
      mul_le_mul f3' (zpow_le_zpow_right₀ (by norm_num) (by omega)) (FpHw.zp _).le (by positivity)
    norm_num at this hn2
    linarith

/-- the exact result, in the unit of the significand returned -/
theorem inv_eq {a : ℚ} {s : Bool} {M : ℕ} {e : ℤ} (hM : 0 < M) (h : a = sg s * (M * (2 : ℚ) ^ (e - 150))) :
    1 / a = sg s * (2 ^ 47 / M * (2 : ℚ) ^ (103 - e)) := by
  have hM' : (M : ℚ) ≠ 0 := by exact_mod_cast hM.ne'
  have e1 : (2 : ℚ) ^ (103 - e) * (2 : ℚ) ^ (e - 150) * 2 ^ 47 = 1 := by
    rw [← zpow_natCast, ← zpow_add₀ (by norm_num), ← zpow_add₀ (by norm_num)]
    norm_num
  have e2 : sg s * sg s = 1 := by cases s <;> simp [sg]
  have ha : a ≠ 0 := by
    rw [h]
    exact mul_ne_zero (sg_ne s) (mul_ne_zero hM' (FpHw.zp _).ne')
  rw [div_eq_iff ha, h]
  have : sg s * (2 ^ 47 / (M : ℚ) * (2 : ℚ) ^ (103 - e)) * (sg s * (M * (2 : ℚ) ^ (e - 150))) =
      (sg s * sg s) * ((2 : ℚ) ^ (103 - e) * (2 : ℚ) ^ (e - 150) * 2 ^ 47) * (M / M) := by ring
  rw [this, e1, e2, div_self hM']
  norm_num

theorem quot_bounds {M : ℕ} (h1 : 2 ^ 23 ≤ M) (h2 : M < 2 ^ 24) : (2 : ℚ) ^ 23 < 2 ^ 47 / M ∧ (2 : ℚ) ^ 47 / M ≤ 2 ^ 24 ∧ (2 ^ 23 < M → (2 : ℚ) ^ 47 / M < 2 ^ 24) := by
  have hM : (0 : ℚ) < M := by exact_mod_cast (by omega : 0 < M)
  have g1 : (2 : ℚ) ^ 23 ≤ M := by exact_mod_cast h1
  have g2 : (M : ℚ) < 2 ^ 24 := by exact_mod_cast h2
  refine ⟨by rw [lt_div_iff₀ hM]; linarith, by rw [div_le_iff₀ hM]; linarith, fun h => ?_⟩
  have g3 : (2 : ℚ) ^ 23 < M := by exact_mod_cast h
  rw [div_lt_iff₀ hM]
  linarith

theorem mant_recip {tab : ℕ → ℕ} (ht : GoodTable tab) {c : ℕ} (h1 : 2 ^ 23 ≤ mant b32 c) (h2 : mant b32 c < 2 ^ 24) :
    ∃ N, recip tab b32 c = some (pack b32 c N) ∧ mant b32 c * N ≤ 2 ^ 71 ∧ 2 ^ 71 < mant b32 c * (N + 4) := by
  obtain ⟨r, x, y, z⟩ := approx_spec ht h1 h2
  refine ⟨r.val, ?_, y, z⟩
  unfold recip
  rw [x]
  rfl

/-- **C122** For every normal number of the single precision whose reciprocal is normal, the circuit returns a number that differs from
the reciprocal by less than one unit in the last place, whatever the rounding of the entries of the table. -/
theorem C122_faithful_partial {tab : ℕ → ℕ} (ht : GoodTable tab) {c : ℕ} (hc : c < 2 ^ 32) {a : ℚ} (h : b32.decode c = .num a)
    (hn : (2 : ℚ) ^ (-126 : ℤ) ≤ |a|) (hn2 : |a| ≤ (2 : ℚ) ^ (126 : ℤ)) :
    ∃ r v, recip tab b32 c = some r ∧ b32.decode r = .num v ∧ WithinUlp 23 (1 / a) v := by
  obtain ⟨f1, f2, f3, f4, f5⟩ := fields hc h hn hn2
  obtain ⟨N, x, y, z⟩ := mant_recip ht f3 f4
  refine ⟨_, _, x, pack_value f3 f4 y z f2 f1, ?_⟩
  intro E hE
  rw [inv_eq (by omega) f5] at hE ⊢
  have hs := (sig_spec f3 f4 y z).1
  have hb := quot_bounds f3 f4
  generalize ((2 : ℚ) ^ 47 / (mant b32 c : ℚ)) = w at *
  obtain ⟨u, hu⟩ : ∃ u : ℚ, u = (2 : ℚ) ^ (103 - (expField b32 c : ℤ)) := ⟨_, rfl⟩
  have hup : 0 < u := by rw [hu]; exact FpHw.zp _
  have hw : 0 < w := lt_trans (by norm_num) hb.1
  rw [← hu] at hE ⊢
  unfold InBinade at hE
  rw [abs_mul, sg_abs, one_mul, abs_mul, abs_of_pos hw, abs_of_pos hup] at hE
  rw [← mul_sub, ← sub_mul, abs_mul, sg_abs, one_mul, abs_mul, abs_of_pos hup]
  have hlt : (2 : ℚ) ^ (126 - (expField b32 c : ℤ)) < (2 : ℚ) ^ (E + 1) := by
    calc (2 : ℚ) ^ (126 - (expField b32 c : ℤ)) = 2 ^ 23 * u := by
          rw [hu, ← zpow_natCast, ← zpow_add₀ (by norm_num)]; congr 1; push_cast; ring
      _ < w * u := mul_lt_mul_of_pos_right hb.1 hup
      _ < _ := hE.2
  have hk := (zpow_lt_zpow_iff_right₀ (by norm_num : (1 : ℚ) < 2)).1 hlt
  calc |(sigOf N : ℚ) - w| * u < 1 * u := mul_lt_mul_of_pos_right hs hup
    _ = u := one_mul u
    _ ≤ _ := by rw [hu]; exact zpow_le_zpow_right₀ (by norm_num) (by push_cast; omega)

/-- the nearest number, when the significand is closer to the quotient than one half -/
theorem nearest_of {s : Bool} {M R : ℕ} {e : ℕ} (h1 : 2 ^ 23 ≤ M) (h2 : M < 2 ^ 24) (e1 : e ≤ 252 ∨ (e = 253 ∧ M = 2 ^ 23))
    (hR : |(R : ℚ) - 2 ^ 47 / M| < 1 / 2) :
    NearestEven b32 (((sg s * (2 ^ 47 / M * (2 : ℚ) ^ (103 - (e : ℤ))) : ℚ)) : ℝ) (sg s * (R * (2 : ℚ) ^ (103 - (e : ℤ)))) := by
  apply nearest_sg
  have e2 : sg s * sg s = 1 := by cases s <;> simp [sg]
  have : ((sg s : ℚ) : ℝ) * ((sg s * (2 ^ 47 / M * (2 : ℚ) ^ (103 - (e : ℤ))) : ℚ) : ℝ) = ((2 ^ 47 / M * (2 : ℚ) ^ (103 - (e : ℤ)) : ℚ) : ℝ) := by
    rw [← Rat.cast_mul, ← mul_assoc, e2, one_mul]
  rw [this]
  obtain ⟨q1, q2, q3⟩ := quot_bounds h1 h2
  rcases h1.eq_or_lt with hM | hM
  · -- a power of two
    have hz : (2 : ℚ) ^ 47 / M = 2 ^ 24 := by rw [← hM]; norm_num
    rw [hz] at hR ⊢
    have hRn : R = 2 ^ 24 := by
      have h3 := abs_lt.1 hR
      have : (R : ℚ) < ((2 ^ 24 + 1 : ℕ) : ℚ) := by push_cast; linarith
      have h4 : R < 2 ^ 24 + 1 := by exact_mod_cast this
      have : ((2 ^ 24 : ℕ) : ℚ) < ((R + 1 : ℕ) : ℚ) := by push_cast; linarith
      have h5 : 2 ^ 24 < R + 1 := by exact_mod_cast this
      omega
    rw [hRn]
    have hu : Unbounded b32 ((2 : ℚ) ^ 24 * (2 : ℚ) ^ (103 - (e : ℤ))) := by
      refine ⟨2 ^ 23, 127 - e, by norm_num, by rw [b32_emin]; omega, ?_⟩
      push_cast
      rw [show (127 - (e : ℤ) - 23) = 103 - (e : ℤ) + 1 by ring, zpow_add₀ (by norm_num)]
      ring
    rw [nearest_iff (by norm_num), show (((2 ^ 24 : ℕ) : ℚ)) = 2 ^ 24 by norm_num, rn_of_unb hu]
  · have e3 : e ≤ 252 := by omega
    rw [nearest_iff (by norm_num)]
    have hw := q3 hM
    generalize ((2 : ℚ) ^ 47 / (M : ℚ)) = w at *
    have hk : max (126 - (e : ℤ)) b32.emin = 126 - e := by rw [b32_emin]; omega
    have hup : 0 < (2 : ℚ) ^ (103 - (e : ℤ)) := FpHw.zp _
    have hwp : 0 < w := lt_trans (by norm_num) q1
    have ha : |((w * (2 : ℚ) ^ (103 - (e : ℤ)) : ℚ) : ℝ)| = ((w * (2 : ℚ) ^ (103 - (e : ℤ)) : ℚ) : ℝ) :=
      abs_of_pos (by exact_mod_cast mul_pos hwp hup)
    have hl := @rn_eq b32 ((w * (2 : ℚ) ^ (103 - (e : ℤ)) : ℚ) : ℝ) (126 - (e : ℤ)) R ?_ ?_ ?_
    · rw [hl, hk]
      push_cast
      congr 2
      ring
    · rw [ha, zcast]
      refine (Rat.cast_le (K := ℝ)).2 ?_
      rw [show (126 - (e : ℤ)) = 23 + (103 - (e : ℤ)) by ring, zpow_add₀ (by norm_num)]
      refine mul_le_mul_of_nonneg_right ?_ hup.le
      norm_num at q1 ⊢
      linarith
    · rw [ha, zcast]
      refine (Rat.cast_lt (K := ℝ)).2 ?_
      rw [show (126 - (e : ℤ)) + 1 = 24 + (103 - (e : ℤ)) by ring, zpow_add₀ (by norm_num)]
      refine mul_lt_mul_of_pos_right ?_ hup
      norm_num at hw ⊢
      linarith
    · rw [hk, show (126 - (e : ℤ)) - ((23 : ℕ) : ℤ) = 103 - (e : ℤ) by push_cast; ring, zcast, ← Rat.cast_div, mul_div_assoc, div_self hup.ne', mul_one]
      rw [abs_sub_comm] at hR
      have := (Rat.cast_lt (K := ℝ)).2 hR
      push_cast at this ⊢
      exact this

/-- **C122** The result is the number nearest to the reciprocal, unless the significand divides one of the seven integers before `2 ^ 48`. -/
theorem C122_nearest_partial {tab : ℕ → ℕ} (ht : GoodTable tab) {c : ℕ} (hc : c < 2 ^ 32) {a : ℚ} (h : b32.decode c = .num a)
    (hn : (2 : ℚ) ^ (-126 : ℤ) ≤ |a|) (hn2 : |a| ≤ (2 : ℚ) ^ (126 : ℤ))
    (hx : ∀ (M : ℕ) (E : ℤ), 2 ^ 23 ≤ M → M < 2 ^ 24 → |a| = M * (2 : ℚ) ^ E → ¬ NearMiddle 24 M) :
    ∃ r v, recip tab b32 c = some r ∧ b32.decode r = .num v ∧ NearestEven b32 ((1 / a : ℚ) : ℝ) v := by
  obtain ⟨f1, f2, f3, f4, f5⟩ := fields hc h hn hn2
  obtain ⟨N, x, y, z⟩ := mant_recip ht f3 f4
  refine ⟨_, _, x, pack_value f3 f4 y z f2 f1, ?_⟩
  have hm : ¬ NearMiddle 24 (mant b32 c) := hx _ ((expField b32 c : ℤ) - 150) f3 f4 (by
    conv_lhs => rw [f5]
    rw [abs_mul, sg_abs, one_mul, abs_mul, abs_of_pos (FpHw.zp _), Nat.abs_cast])
  rw [inv_eq (by omega) f5]
  exact nearest_of f3 f4 f2 ((sig_spec f3 f4 y z).2 hm)

/-- **C122** Where the rounding is wrong: when the significand divides `2 ^ 48 - 1` and is 3 modulo 4, the last bit is wrong, for every
exponent, for both signs, and whatever the rounding of the entries of the table. -/
theorem C122_nearest_wrong {tab : ℕ → ℕ} (ht : GoodTable tab) {c : ℕ} (hc : c < 2 ^ 32) {a : ℚ} (h : b32.decode c = .num a)
    (hn : (2 : ℚ) ^ (-126 : ℤ) ≤ |a|) (hn2 : |a| ≤ (2 : ℚ) ^ (126 : ℤ)) {M : ℕ} {E : ℤ} (hM1 : 2 ^ 23 ≤ M) (hM2 : M < 2 ^ 24)
    (hM : |a| = M * (2 : ℚ) ^ E) (hd : M ∣ 2 ^ 48 - 1) (h4 : M % 4 = 3) :
    ∃ r v, recip tab b32 c = some r ∧ b32.decode r = .num v ∧ ¬ NearestEven b32 ((1 / a : ℚ) : ℝ) v := by
  obtain ⟨f1, f2, f3, f4, f5⟩ := fields hc h hn hn2
  obtain ⟨N, x, y, z⟩ := mant_recip ht f3 f4
  refine ⟨_, _, x, pack_value f3 f4 y z f2 f1, ?_⟩
  -- the significand is the one of the word
  have hMm : M = mant b32 c := by
    rw [f5, abs_mul, sg_abs, one_mul, abs_mul, abs_of_pos (FpHw.zp _), Nat.abs_cast] at hM
    have g1 : (2 : ℚ) ^ (23 : ℤ) ≤ mant b32 c := by exact_mod_cast f3
    have g2 : (mant b32 c : ℚ) < (2 : ℚ) ^ (24 : ℤ) := by exact_mod_cast f4
    have g3 : (2 : ℚ) ^ (23 : ℤ) ≤ M := by exact_mod_cast hM1
    have g4 : (M : ℚ) < (2 : ℚ) ^ (24 : ℤ) := by exact_mod_cast hM2
    have o : (1 : ℚ) < 2 := by norm_num
    have k1 : (2 : ℚ) ^ (23 + ((expField b32 c : ℤ) - 150)) < (2 : ℚ) ^ (24 + E) := by
      rw [zpow_add₀ (by norm_num), zpow_add₀ (by norm_num)]
      calc _ ≤ (mant b32 c : ℚ) * (2 : ℚ) ^ ((expField b32 c : ℤ) - 150) := mul_le_mul_of_nonneg_right g1 (FpHw.zp _).le
        _ = M * (2 : ℚ) ^ E := hM
        _ < _ := mul_lt_mul_of_pos_right g4 (FpHw.zp _)
    have k2 : (2 : ℚ) ^ (23 + E) < (2 : ℚ) ^ (24 + ((expField b32 c : ℤ) - 150)) := by
      rw [zpow_add₀ (by norm_num), zpow_add₀ (by norm_num)]
      calc _ ≤ (M : ℚ) * (2 : ℚ) ^ E := mul_le_mul_of_nonneg_right g3 (FpHw.zp _).le
        _ = mant b32 c * (2 : ℚ) ^ ((expField b32 c : ℤ) - 150) := hM.symm
        _ < _ := mul_lt_mul_of_pos_right g2 (FpHw.zp _)
    have k3 := (zpow_lt_zpow_iff_right₀ o).1 k1
    have k4 := (zpow_lt_zpow_iff_right₀ o).1 k2
    have hE : E = (expField b32 c : ℤ) - 150 := by omega
    rw [hE] at hM
    exact_mod_cast (mul_right_cancel₀ (FpHw.zp _).ne' hM).symm
  subst hMm
  obtain ⟨k, hk⟩ := hd
  generalize hMd : mant b32 c = M at *
  -- the quotient is odd and 1 modulo 4
  have hk4 : k % 4 = 1 := by
    have e : (M * k) % 4 = 3 := by rw [← hk]; norm_num
    rw [Nat.mul_mod, h4] at e
    have : k % 4 < 4 := Nat.mod_lt _ (by norm_num)
    interval_cases hh : k % 4 <;> simp_all
  have hkM : M * k + 1 = 2 ^ 48 := by rw [← hk]; norm_num
  have up : N ≤ 2 ^ 23 * k := by
    by_contra hc'
    have h5 : M * (2 ^ 23 * k + 1) ≤ M * N := Nat.mul_le_mul_left _ (by omega)
    have e : M * (2 ^ 23 * k + 1) = 2 ^ 23 * (M * k) + M := by ring
    rw [e] at h5
    generalize M * k = y at *
    norm_num at h5 y hkM hM1
    omega
  have lo : 2 ^ 23 * k < N + 4 := by
    by_contra hc'
    have h5 : M * (N + 4) ≤ M * (2 ^ 23 * k) := Nat.mul_le_mul_left _ (by omega)
    have e : M * (2 ^ 23 * k) = 2 ^ 23 * (M * k) := by ring
    rw [e] at h5
    generalize M * k = y at *
    norm_num at h5 z hkM
    omega
  have hs : sigOf N = k / 2 := by
    have hk0 : 0 < k := by omega
    have d1 : N / 2 ^ 24 = k / 2 := by norm_num at up lo ⊢; omega
    have d2 : incr N = 0 := by
      rcases incr_cases N with ⟨i1, -⟩ | ⟨i1, i2⟩
      · exact i1
      · exfalso
        unfold incr at i1
        have hc' : N / 2 ^ 23 % 2 = 1 ∧ (N % 2 ^ 23 ≠ 0 ∨ N / 2 ^ 24 % 2 = 1) := by
          by_contra hc'
          rw [if_neg hc'] at i1
          exact absurd i1 (by norm_num)
        norm_num at hc' up lo i2
        omega
    rw [sigOf, d1, d2, Nat.add_zero]
  have hMp : (0 : ℚ) < M := by exact_mod_cast (by omega : 0 < M)
  have hnear : |((k / 2 + 1 : ℕ) : ℚ) - 2 ^ 47 / M| < 1 / 2 := by
    have e1 : (k : ℚ) = 2 * ((k / 2 : ℕ) : ℚ) + 1 := by exact_mod_cast (by omega : k = 2 * (k / 2) + 1)
    have e2 : (M : ℚ) * k + 1 = 2 ^ 48 := by exact_mod_cast hkM
    have e3 : (2 : ℚ) ^ 47 / M = ((k / 2 : ℕ) : ℚ) + 1 / 2 + 1 / (2 * M) := by
      rw [div_eq_iff hMp.ne']
      field_simp
      rw [e1] at e2
      linarith
    have e4 : (0 : ℚ) < 1 / (2 * M) := by positivity
    have e5 : (1 : ℚ) / (2 * M) < 1 / 2 := by
      rw [div_lt_div_iff₀ (by positivity) (by norm_num)]
      have : (2 : ℚ) ^ 23 ≤ M := by exact_mod_cast hM1
      linarith
    rw [e3]
    push_cast
    rw [abs_lt]
    constructor <;> linarith
  have hgood := nearest_of (s := signBit b32 c) hM1 hM2 f2 hnear
  rw [inv_eq (by omega) f5]
  intro hbad
  have u1 := nearest_unique (by norm_num) hgood
  have u2 := nearest_unique (by norm_num) hbad
  rw [← u1] at u2
  have u3 := mul_right_cancel₀ (FpHw.zp _).ne' (mul_left_cancel₀ (sg_ne _) u2)
  rw [hs] at u3
  have : k / 2 = k / 2 + 1 := by exact_mod_cast u3
  omega

/-- 3 has the reciprocal 0x3eaaaaab, the nearest number, and its significand is not excepted -/
example : GoodTable table ∧ b32.decode 0x40400000 = .num 3 ∧ recip table b32 0x40400000 = some 0x3eaaaaab := by
  refine ⟨?_, ?_, by decide +kernel⟩
  · unfold GoodTable table
    decide +kernel
  · rw [b32_dec]; norm_num

/-- the significand of 3 is not excepted -/
example : ¬ NearMiddle 24 (3 * 2 ^ 22) := by
  rintro ⟨d, h1, h2, h3⟩
  interval_cases d <;> revert h3 <;> decide +kernel

/-- seventeen significands are excepted, for instance these -/
example : ∀ M ∈ [0x869913, 0x8efa43, 0x9beaaf, 0xa24cf7, 0xa6449f, 0xad1367, 0xb84a93, 0xc23dc3, 0xd43d43, 0xe1368b, 0xe25473, 0xec7ec7, 0xf02a3b,
    0xf0ff0f, 0xfc3237, 0xfe01ff, 0xffffff], 2 ^ 23 ≤ M ∧ M < 2 ^ 24 ∧ M ∣ 2 ^ 48 - 1 ∧ M % 4 = 3 := by decide +kernel

/-- the largest number below 2 has the reciprocal one half instead of the next number -/
example : b32.decode 0x3fffffff = .num (0xffffff / 2 ^ 23) ∧ recip table b32 0x3fffffff = some 0x3f000000 := by
  refine ⟨?_, by decide +kernel⟩
  rw [b32_dec]
  norm_num

/-! ## The exponents that are wrong -/

theorem sig_lt {M N : ℕ} (h1 : 2 ^ 23 < M) (h2 : M < 2 ^ 24) (a1 : M * N ≤ 2 ^ 71) (a2 : 2 ^ 71 < M * (N + 4)) :
    2 ^ 47 ≤ N ∧ N < 2 ^ 48 ∧ 2 ^ 23 ≤ N / 2 ^ 24 ∧ 2 ^ 23 ≤ sigOf N ∧ sigOf N < 2 ^ 24 := by
  obtain ⟨b1, -, -, -, b5⟩ := core h1.le h2 a1 a2 rfl
  obtain ⟨b6, b7⟩ := b5 h1
  have b8 : 2 ^ 23 ≤ N / 2 ^ 24 := by norm_num at b1 ⊢; omega
  refine ⟨b1, b6, b8, by unfold sigOf; omega, ?_⟩
  rcases incr_cases N with ⟨i1, -⟩ | ⟨i1, -⟩ <;> rw [sigOf, i1] <;> omega

theorem exp_mant {N : ℕ} (K : ℕ) (hK : K < 256) (b3 : 2 ^ 23 ≤ N / 2 ^ 24) (b4 : 2 ^ 23 ≤ sigOf N) (b5 : sigOf N < 2 ^ 24) :
    (K * 2 ^ 23 + (N / 2 ^ 24 - 2 ^ 23) + incr N) % 2 ^ 31 = K * 2 ^ 23 + (sigOf N - 2 ^ 23) := by
  unfold sigOf at *
  generalize N / 2 ^ 24 = q at *
  norm_num at *
  omega

/-- the fields of a word with a given exponent field -/
theorem frac_of {c E : ℕ} (h : expField b32 c = E) (hE : E ≠ 0) (hf : c % 2 ^ 23 ≠ 0) : 2 ^ 23 < mant b32 c ∧ mant b32 c < 2 ^ 24 := by
  have : mant b32 c = 2 ^ 23 + c % 2 ^ 23 := by unfold mant; rw [h, if_neg hE]
  have h2 : c % 2 ^ 23 < 2 ^ 23 := Nat.mod_lt _ (by norm_num)
  rw [this]
  constructor <;> omega

/-- **C122** Above `2 ^ 127` the result is not a number (the reciprocal is a number below `2 ^ -127`, which the format can approach). -/
theorem C122_large_wrong {tab : ℕ → ℕ} (ht : GoodTable tab) {c : ℕ} (hc : c < 2 ^ 32) {a : ℚ} (h : b32.decode c = .num a)
    (hn : (2 : ℚ) ^ (127 : ℤ) < |a|) : ∃ r, recip tab b32 c = some r ∧ ∀ v, b32.decode r ≠ .num v := by
  obtain ⟨f1, f2, f3, f4, f5⟩ := decode_normal (F := b32) hc h (by rw [b32_emin]; exact le_trans (zpow_le_zpow_right₀ (by norm_num) (by norm_num)) hn.le)
  rw [b32_emax] at f5
  rw [f5, abs_mul, sg_abs, one_mul, abs_mul, abs_of_pos (FpHw.zp _), Nat.abs_cast] at hn
  change 2 ^ 23 ≤ mant b32 c at f3
  change mant b32 c < 2 ^ 24 at f4
  have f2' : expField b32 c ≤ 254 := by norm_num at f2; omega
  have g2 : (mant b32 c : ℚ) < (2 : ℚ) ^ (24 : ℤ) := by exact_mod_cast f4
  have hE : expField b32 c = 254 := by
    have k1 : (2 : ℚ) ^ (127 : ℤ) < (2 : ℚ) ^ (24 + ((expField b32 c : ℤ) - 127 - ((23 : ℕ) : ℤ))) := by
      rw [zpow_add₀ (by norm_num)]
      exact hn.trans (mul_lt_mul_of_pos_right g2 (FpHw.zp _))
    have := (zpow_lt_zpow_iff_right₀ (by norm_num : (1 : ℚ) < 2)).1 k1
    push_cast at this
    omega
  have hM : 2 ^ 23 < mant b32 c := by
    refine lt_of_le_of_ne f3 fun he => ?_
    rw [hE, ← he] at hn
    norm_num at hn
  obtain ⟨N, x, y, z⟩ := mant_recip ht f3 f4
  refine ⟨_, x, fun v => ?_⟩
  obtain ⟨b1, b2, b3, b4, b5⟩ := sig_lt hM f4 y z
  rw [pack_lt c N b2 b1, hE, show (509 - 254) % 256 = 255 from rfl]
  have e : (255 * 2 ^ 23 + (N / 2 ^ 24 - 2 ^ 23) + incr N) % 2 ^ 31 = 255 * 2 ^ 23 + (sigOf N - 2 ^ 23) := by
    exact exp_mant 255 (by norm_num) b3 b4 b5
  rw [e, b32_dec, if_pos]
  · split_ifs <;> simp
  · generalize sigOf N = R at *
    split_ifs <;> norm_num at b4 b5 ⊢ <;> omega

/-- 3/2 times `2 ^ 127`: the result is a NaN -/
example : b32.decode 0x7f400000 = .num (3 * 2 ^ 126) ∧ recip table b32 0x7f400000 = some 0x7faaaaab := by
  refine ⟨?_, by decide +kernel⟩
  rw [b32_dec]
  norm_num

/-- **C122** From `9/8 * 2 ^ 126` on, below `2 ^ 127`, the result is a zero or less than nine tenths of the reciprocal. -/
theorem C122_small_wrong {tab : ℕ → ℕ} (ht : GoodTable tab) {c : ℕ} (hc : c < 2 ^ 32) {a : ℚ} (h : b32.decode c = .num a)
    (hn : 9 / 8 * (2 : ℚ) ^ (126 : ℤ) ≤ |a|) (hn2 : |a| < (2 : ℚ) ^ (127 : ℤ)) :
    ∃ r, recip tab b32 c = some r ∧ (b32.decode r = .plusZero ∨ b32.decode r = .minusZero ∨ ∃ v, b32.decode r = .num v ∧ |v| < 9 / 10 * |1 / a|) := by
  obtain ⟨f1, f2, f3, f4, f5⟩ := decode_normal (F := b32) hc h (by
    rw [b32_emin]; refine le_trans ?_ hn; norm_num)
  rw [b32_emax, show (expField b32 c : ℤ) - 127 - ((23 : ℕ) : ℤ) = expField b32 c - 150 by push_cast; ring] at f5
  change 2 ^ 23 ≤ mant b32 c at f3
  change mant b32 c < 2 ^ 24 at f4
  have ha : |a| = mant b32 c * (2 : ℚ) ^ ((expField b32 c : ℤ) - 150) := by
    conv_lhs => rw [f5]
    rw [abs_mul, sg_abs, one_mul, abs_mul, abs_of_pos (FpHw.zp _), Nat.abs_cast]
  have g1 : (2 : ℚ) ^ (23 : ℤ) ≤ mant b32 c := by exact_mod_cast f3
  have g2 : (mant b32 c : ℚ) < (2 : ℚ) ^ (24 : ℤ) := by exact_mod_cast f4
  have hE : expField b32 c = 253 := by
    have k1 : (2 : ℚ) ^ (126 : ℤ) < (2 : ℚ) ^ (24 + ((expField b32 c : ℤ) - 150)) := by
      rw [zpow_add₀ (by norm_num)]
      refine lt_of_lt_of_le ?_ (le_trans hn ?_)
      · norm_num
      · rw [ha]; exact mul_le_mul_of_nonneg_right g2.le (FpHw.zp _).le
    have k2 : (2 : ℚ) ^ (23 + ((expField b32 c : ℤ) - 150)) < (2 : ℚ) ^ (127 : ℤ) := by
      rw [zpow_add₀ (by norm_num)]
      refine lt_of_le_of_lt ?_ hn2
      rw [ha]; exact mul_le_mul_of_nonneg_right g1 (FpHw.zp _).le
    have k3 := (zpow_lt_zpow_iff_right₀ (by norm_num : (1 : ℚ) < 2)).1 k1
    have k4 := (zpow_lt_zpow_iff_right₀ (by norm_num : (1 : ℚ) < 2)).1 k2
    omega
  have hM8 : (9 : ℚ) * 2 ^ 20 ≤ mant b32 c := by
    rw [ha, hE] at hn
    norm_num at hn
    linarith
  have hM : 2 ^ 23 < mant b32 c := by
    have : ((2 ^ 23 : ℕ) : ℚ) < mant b32 c := by refine lt_of_lt_of_le ?_ hM8; norm_num
    exact_mod_cast this
  obtain ⟨N, x, y, z⟩ := mant_recip ht f3 f4
  refine ⟨_, x, ?_⟩
  obtain ⟨b1, b2, b3, b4, b5⟩ := sig_lt hM f4 y z
  have hs := (abs_lt.1 (sig_spec f3 f4 y z).1).2
  rw [inv_eq (by omega) f5, hE, pack_lt c N b2 b1, hE, show (509 - 253) % 256 = 0 from rfl]
  have e : (0 * 2 ^ 23 + (N / 2 ^ 24 - 2 ^ 23) + incr N) % 2 ^ 31 = sigOf N - 2 ^ 23 := by
    have := exp_mant 0 (by norm_num) b3 b4 b5
    rw [Nat.zero_mul, Nat.zero_add (sigOf N - 2 ^ 23)] at this
    rw [Nat.zero_mul]
    exact this
  have hMp : (0 : ℚ) < mant b32 c := by exact_mod_cast (by omega : 0 < mant b32 c)
  have hz1 : (2 : ℚ) ^ 47 / mant b32 c ≤ 2 ^ 27 / 9 := by
    rw [div_le_div_iff₀ hMp (by norm_num)]
    linarith
  have hz0 := (quot_bounds f3 f4).1
  rw [e, b32_dec]
  generalize ((2 : ℚ) ^ 47 / (mant b32 c : ℚ)) = w at *
  generalize sigOf N = R at *
  have m1 : ((if signBit b32 c then 1 else 0) * 2 ^ 31 + (R - 2 ^ 23)) / 2 ^ 23 % 2 ^ 8 = 0 := by
    split_ifs <;> norm_num at b4 b5 ⊢ <;> omega
  have m2 : ((if signBit b32 c then 1 else 0) * 2 ^ 31 + (R - 2 ^ 23)) % 2 ^ 23 = R - 2 ^ 23 := by
    split_ifs <;> norm_num at b4 b5 ⊢ <;> omega
  rw [m1, m2, if_neg (by norm_num), if_pos rfl]
  generalize ((if signBit b32 c = true then 1 else 0) * 2 ^ 31 + (R - 2 ^ 23)) / 2 ^ 31 = t
  by_cases hR : R - 2 ^ 23 = 0
  · rw [if_pos hR]
    split_ifs
    · exact Or.inr (Or.inl rfl)
    · exact Or.inl rfl
  · rw [if_neg hR]
    refine Or.inr (Or.inr ⟨_, rfl, ?_⟩)
    have hw : 0 < w := lt_trans (by norm_num) hz0
    have s1 : |(if t = 1 then (-1 : ℚ) else 1)| = 1 := by split_ifs <;> simp
    have b4' : (2 : ℚ) ^ 23 ≤ R := by exact_mod_cast b4
    rw [abs_mul, s1, one_mul, abs_mul, abs_mul (sg _), sg_abs, one_mul, Nat.cast_sub b4, abs_mul w, abs_of_pos hw, abs_of_pos (FpHw.zp _), abs_of_pos (FpHw.zp _),
      abs_of_nonneg (by push_cast; linarith)]
    have q1 : (2 : ℚ) ^ (103 - ((253 : ℕ) : ℤ)) = 1 / 2 * (2 : ℚ) ^ (-149 : ℤ) := by norm_num
    rw [q1, ← mul_assoc, ← mul_assoc]
    refine mul_lt_mul_of_pos_right ?_ (FpHw.zp _)
    push_cast
    linarith

/-- 5/4 times `2 ^ 126`: the result is 6/10 of `2 ^ -126` instead of 8/10 -/
example : b32.decode 0x7ea00000 = .num (5 * 2 ^ 124) ∧ recip table b32 0x7ea00000 = some 0x004ccccd := by
  refine ⟨?_, by decide +kernel⟩
  rw [b32_dec]
  norm_num

/-- **C122** For every NaN the result is a number. -/
theorem C122_nan_wrong {tab : ℕ → ℕ} (ht : GoodTable tab) {c : ℕ} (h : b32.decode c = .qNaN ∨ b32.decode c = .sNaN) :
    ∃ r v, recip tab b32 c = some r ∧ b32.decode r = .num v ∧ (2 : ℚ) ^ (127 : ℤ) ≤ |v| := by
  have hf : expField b32 c = 255 ∧ c % 2 ^ 23 ≠ 0 := by
    rw [b32_dec] at h
    change c / 2 ^ 23 % 2 ^ 8 = 255 ∧ _
    split_ifs at h <;> simp_all
  obtain ⟨hE, hf⟩ := hf
  obtain ⟨hM, f4⟩ := frac_of hE (by norm_num) hf
  obtain ⟨N, x, y, z⟩ := mant_recip ht hM.le f4
  obtain ⟨b1, b2, b3, b4, b5⟩ := sig_lt hM f4 y z
  have e : (254 * 2 ^ 23 + (N / 2 ^ 24 - 2 ^ 23) + incr N) % 2 ^ 31 = 254 * 2 ^ 23 + (sigOf N - 2 ^ 23) := by
    exact exp_mant 254 (by norm_num) b3 b4 b5
  have dec := @decode_build b32 (signBit b32 c) 254 (sigOf N - 2 ^ 23) (by norm_num) (by norm_num) (by norm_num at b5 ⊢; omega)
  refine ⟨_, sg (signBit b32 c) * (sigOf N * (2 : ℚ) ^ (104 : ℤ)), x, ?_, ?_⟩
  · rw [pack_lt c N b2 b1, hE, show (509 - 255) % 256 = 254 from rfl, e, ← Nat.add_assoc]
    rw [b32_emax] at dec
    simp only [build] at dec
    rw [show (8 : ℕ) + 23 = 31 from rfl, show 2 ^ 23 + (sigOf N - 2 ^ 23) = sigOf N by omega] at dec
    rw [dec]
    norm_num
  · have b4' : (2 : ℚ) ^ 23 ≤ sigOf N := by exact_mod_cast b4
    rw [abs_mul, sg_abs, one_mul, abs_mul, abs_of_pos (FpHw.zp _), Nat.abs_cast]
    calc (2 : ℚ) ^ (127 : ℤ) = 2 ^ 23 * (2 : ℚ) ^ (104 : ℤ) := by norm_num
      _ ≤ _ := mul_le_mul_of_nonneg_right b4' (FpHw.zp _).le

/-- a NaN -/
example : b32.decode 0x7fc00000 = .qNaN := by
  rw [b32_dec]
  norm_num

/-- **C122** The reciprocals of the infinities are infinities, those of the zeros are numbers, and that of `2 ^ -127` is less than
`2 ^ 127`, although this number is in the format. -/
theorem C122_special_wrong : b32.decode 0x7f800000 = .plusInf ∧ recip table b32 0x7f800000 = some 0x7f800000 ∧
    b32.decode 0xff800000 = .minusInf ∧ recip table b32 0xff800000 = some 0xff800000 ∧
    b32.decode 0 = .plusZero ∧ recip table b32 0 = some 0x7f000000 ∧ b32.decode 0x7f000000 = .num (2 ^ 127) ∧
    b32.decode 0x80000000 = .minusZero ∧ recip table b32 0x80000000 = some 0xff000000 ∧ b32.decode 0xff000000 = .num (-2 ^ 127) ∧
    b32.decode 0x00400000 = .num (1 / 2 ^ 127) ∧ recip table b32 0x00400000 = some 0x7eb0dc47 ∧
    b32.decode 0x7eb0dc47 = .num (0xb0dc47 * 2 ^ 103) ∧ (0xb0dc47 : ℚ) * 2 ^ 103 < 7 / 10 * 2 ^ 127 := by
  refine ⟨?_, by decide +kernel, ?_, by decide +kernel, ?_, by decide +kernel, ?_, ?_, by decide +kernel, ?_, ?_, by decide +kernel, ?_, by norm_num⟩ <;>
    rw [b32_dec] <;> norm_num

/-- **C122** In double precision the result has less than forty correct bits for some inputs: the format of the last error is too narrow. -/
theorem C122_double_wrong : ∃ c r a v, recip table ⟨11, 52⟩ c = some r ∧ (⟨11, 52⟩ : Fmt).decode c = .num a ∧ (⟨11, 52⟩ : Fmt).decode r = .num v ∧
    1 < a ∧ a < 2 ∧ (2 : ℚ) ^ (-37 : ℤ) < |v - 1 / a| := by
  refine ⟨0x3ff199999999999a, 0x3fed1745d1729a2e, 0x1199999999999a / 2 ^ 52, 0x1d1745d1729a2e / 2 ^ 53, by decide +kernel, ?_, ?_, by norm_num, by norm_num, ?_⟩
  · unfold Fmt.decode
    norm_num [Fmt.emax, Fmt.emin]
  · unfold Fmt.decode
    norm_num [Fmt.emax, Fmt.emin]
  · rw [abs_of_neg (by norm_num)]
    norm_num

/-- **C122** For the formats with less than 16 fraction bits (half precision, bfloat16) the circuit is not legal. -/
theorem C122_narrow_wrong (tab : ℕ → ℕ) (F : Fmt) (hF : F.f < 16) (c : ℕ) : recip tab F c = none := by
  have h3 : Vhdl.sel ⟨F.f + 1, mant F c⟩ (((F.f + 1 : ℕ) : ℤ) - 1 - 16) (((F.f + 1 : ℕ) : ℤ) - 1) = none := by
    unfold Vhdl.sel
    rw [if_neg]
    push_cast
    omega
  unfold recip approx
  simp only [h3, Option.bind_none]
  simp

/-- half precision -/
example : recip table ⟨5, 10⟩ 0x3c00 = none := C122_narrow_wrong _ _ (by norm_num) _

end Verif.Recip
