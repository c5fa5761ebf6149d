import Verif.Trig.Step

/-! # C82: the Payne and Hanek reduction -/

namespace Verif.Trig

open Verif.Float (Fmt Val)
open Verif.Check
open Verif.Elem
open Verif.Rem (truncQ rr)

variable {c : ℚ} {n k : ℕ} {x : Val}

theorem Ctx.indices (h : Ctx c n k x) : ∃ i0 l : ℕ, msbIndex c k x = i0 ∧ lsbIndex c n x = l ∧ i0 ≤ l ∧ 24 * (l : ℤ) ≤ cstMsb c + vxExp x + n + 4 ∧
    cstMsb c + vxExp x + n + 4 < 24 * (l + 1) ∧ vxExp x + wt c i0 ≤ k + 50 ∧ l - i0 + 1 ≤ (k + n + 55) / 24 + 2 ∧
    (cstMsb c + vxExp x < 75 + k → i0 = 0) ∧
    (i0 ≠ 0 → cstMsb c + vxExp x - 51 - k = 24 * i0 + (cstMsb c + vxExp x - 51 - k) % 24) := by
  have hE := h.exp_nonneg
  have hm := h.m0
  have el : lsbIndex c n x = (cstMsb c + vxExp x + n + 4) / 24 := by
    unfold lsbIndex lsbExp
    rw [cs_eq, Int.tdiv_eq_ediv_of_nonneg (by omega)]
    congr 1; ring
  have em : msbIndex c k x = if cstMsb c + vxExp x < 51 + k then 0 else (cstMsb c + vxExp x - 51 - k) / 24 := by
    unfold msbIndex msbExp
    rw [cs_eq, p_eq]
    by_cases hlt : cstMsb c + vxExp x < 51 + k
    · rw [if_pos hlt, if_pos (by omega)]
    · rw [if_neg hlt, if_neg (by omega), Int.tdiv_eq_ediv_of_nonneg (by omega)]
      congr 1; ring
  refine ⟨(msbIndex c k x).toNat, (lsbIndex c n x).toNat, ?_⟩
  rw [el, em]
  unfold wt
  split_ifs with hlt <;> refine ⟨?_, ?_, ?_, ?_, ?_, ?_, ?_, ?_, ?_⟩ <;> omega

theorem Ctx.x_lt (h : Ctx c n k x) : |numOf x| < (2 : ℚ) ^ (vxExp x + 1) := Float.lt_pow_log

/-- the retained part of the constant is multiplied -/
theorem Ctx.reduce (h : Ctx c n k x) {i0 : ℕ} (hi0 : msbIndex c k x = i0)
    (hno : ∀ j : ℕ, i0 ≤ j → vxExp x + wt c j ≤ k + 50 → ∃ B B' : ℚ, 0 ≤ B ∧ (vxExp x - 25 + wt c j ≤ k → |numOf (vxHi x) * localCst c (tmpCst c j) j| ≤ B) ∧
      |numOf (vxLo x) * localCst c (tmpCst c j) j| ≤ B' ∧ B + B' ≤ 2 ^ 62) :
    ∃ s', Verif.Trig.reduce c n k x = some s' ∧ Fin' b64 s'.1 ∧ |numOf s'.1| ≤ 1 / 2 ∧ |s'.2| ≤ 2 ^ (k + 1) + 2 ∧
      ∃ q : ℤ, |numOf x * tmpCst c i0 - (q * 2 ^ (k + 1) + (s'.2 + numOf s'.1))| ≤ accuracy k n := by
  obtain ⟨i0', l, e1, e2, e3, e4, e5, e6, e7, -, -⟩ := h.indices
  obtain rfl : i0' = i0 := by omega
  have hm : (lsbIndex c n x - msbIndex c k x + 1).toNat = l - i0' + 1 := by rw [e1, e2]; omega
  obtain ⟨s', f1, f2, f3, f4, q, f5⟩ := h.loop (l - i0' + 1) i0' (.plusZero, 0) (by push_cast [Nat.cast_sub e3]; omega) e6
    (fun j hj hj' => hno j hj (by unfold wt at e6 ⊢; omega)) ⟨trivial, rfl, rfl⟩ (by simp [numOf]) (by simp; positivity)
  refine ⟨s', ?_, f2, f3, f4, q, ?_⟩
  · unfold Verif.Trig.reduce; rw [hm, e1]; exact f1
  have ei : i0' + (l - i0' + 1) = l + 1 := by omega
  rw [ei] at f5
  simp only [show numOf Val.plusZero = 0 from rfl, Int.cast_zero, zero_add, add_zero] at f5
  have ht := tmp_lt h.hc l
  have ht0 := tmp_nonneg h.hc (l + 1)
  have hx := h.x_lt
  have htail : |numOf x * tmpCst c (l + 1)| ≤ (2 : ℚ) ^ (-(n : ℤ) - 4) := by
    rw [abs_mul, abs_of_nonneg ht0]
    calc |numOf x| * tmpCst c (l + 1) ≤ (2 : ℚ) ^ (vxExp x + 1) * (2 : ℚ) ^ wt c l := mul_le_mul hx.le ht.le ht0 (Float.zp _).le
      _ = (2 : ℚ) ^ (vxExp x + 1 + wt c l) := (Float.zadd _ _).symm
      _ ≤ _ := Float.zle (by unfold wt; omega)
  have hcount : (((l - i0' + 1 : ℕ)) : ℚ) ≤ (((k + n + 55) / 24 + 2 : ℕ) : ℚ) := by exact_mod_cast e7
  have hp := Float.zp (-54)
  have e : numOf x * tmpCst c i0' - (q * 2 ^ (k + 1) + (s'.2 + numOf s'.1)) =
      (numOf x * (tmpCst c i0' - tmpCst c (l + 1)) - (q * 2 ^ (k + 1) + (s'.2 + numOf s'.1))) + numOf x * tmpCst c (l + 1) := by ring
  rw [e]
  refine le_trans (abs_add_le _ _) ?_
  unfold accuracy
  have : 3 * (((l - i0' + 1 : ℕ)) : ℚ) * (2 : ℚ) ^ (-54 : ℤ) ≤ 3 * (((k + n + 55) / 24 + 2 : ℕ) : ℚ) * (2 : ℚ) ^ (-54 : ℤ) :=
    mul_le_mul_of_nonneg_right (by linarith) hp.le
  exact add_le_add (le_trans f5 this) htail

/-- magnitude of the products -/
theorem Ctx.sizes (h : Ctx c n k x) (j : ℕ) : |numOf (vxHi x) * localCst c (tmpCst c j) j| ≤ (2 : ℚ) ^ (51 + (vxExp x - 25 + wt c j)) ∧
    |numOf (vxLo x) * localCst c (tmpCst c j) j| ≤ (2 : ℚ) ^ (25 + (vxExp x - 25 + wt c j)) := by
  obtain ⟨H, L, hH, hL, -, -, eh, el, -, -, -⟩ := h.split
  obtain ⟨C, hC, C0, C25, -⟩ := chunk_bits h.hc j
  have cq : |(C : ℚ)| ≤ (2 : ℚ) ^ (25 : ℤ) := by rw [abs_of_nonneg (by exact_mod_cast C0)]; exact_mod_cast C25.le
  have hq : |(H : ℚ)| ≤ (2 : ℚ) ^ (26 : ℤ) := by exact_mod_cast hH.le
  have lq : |(L : ℚ)| ≤ (2 : ℚ) ^ (27 : ℤ) := by exact_mod_cast hL.le
  constructor
  · rw [eh, hC, show 51 + (vxExp x - 25 + wt c j) = (26 + (vxExp x - 25)) + (25 + wt c j) by ring, Float.zadd, Float.zadd 26, Float.zadd 25, abs_mul, abs_mul, abs_mul,
      abs_of_pos (Float.zp _), abs_of_pos (Float.zp _)]
    exact mul_le_mul (mul_le_mul_of_nonneg_right hq (Float.zp _).le) (mul_le_mul_of_nonneg_right cq (Float.zp _).le) (mul_nonneg (abs_nonneg _) (Float.zp _).le)
      (mul_nonneg (Float.zp _).le (Float.zp _).le)
  · rw [el, hC, show 25 + (vxExp x - 25 + wt c j) = (27 + (vxExp x - 52)) + (25 + wt c j) by ring, Float.zadd, Float.zadd 27, Float.zadd 25, abs_mul, abs_mul, abs_mul,
      abs_of_pos (Float.zp _), abs_of_pos (Float.zp _)]
    exact mul_le_mul (mul_le_mul_of_nonneg_right lq (Float.zp _).le) (mul_le_mul_of_nonneg_right cq (Float.zp _).le) (mul_nonneg (abs_nonneg _) (Float.zp _).le)
      (mul_nonneg (Float.zp _).le (Float.zp _).le)

theorem Ctx.no_overflow (h : Ctx c n k x) (hk : k ≤ 10) (j : ℕ) (hw : vxExp x + wt c j ≤ k + 50) :
    ∃ B B' : ℚ, 0 ≤ B ∧ (vxExp x - 25 + wt c j ≤ k → |numOf (vxHi x) * localCst c (tmpCst c j) j| ≤ B) ∧
      |numOf (vxLo x) * localCst c (tmpCst c j) j| ≤ B' ∧ B + B' ≤ 2 ^ 62 := by
  obtain ⟨s1, s2⟩ := h.sizes j
  refine ⟨(2 : ℚ) ^ (61 : ℤ), (2 : ℚ) ^ (60 : ℤ), (Float.zp _).le, fun hw' => le_trans s1 (Float.zle (by omega)), le_trans s2 (Float.zle (by omega)), by norm_num⟩

/-- what is dropped -/
theorem Ctx.dropped (h : Ctx c n k x) {i0 : ℕ} (hi : i0 ≠ 0) {e : ℤ} (he : e ≤ vxExp x - 52 + cstMsb c - 24 * i0) :
    ∃ D : ℤ, numOf x * (c - tmpCst c i0) = D * (2 : ℚ) ^ e := by
  obtain ⟨i, rfl⟩ : ∃ i, i0 = i + 1 := ⟨i0 - 1, by omega⟩
  obtain ⟨D, hD⟩ := tmp_mult h.hc i
  obtain ⟨X, hX, -⟩ := h.x_int
  have : numOf x * (c - tmpCst c (i + 1)) = (X * D : ℤ) * (2 : ℚ) ^ (vxExp x - 52 + wt c i) := by
    rw [hD, hX, Float.zadd]; push_cast; ring
  rw [this]
  exact grid_coarse _ (by unfold wt; push_cast at he; omega)

theorem ctx_of {v : ℚ} (hv : b64.Finite v) (h1 : 1 ≤ |v|) (hc : 1 ≤ c) (hc' : c < 2 ^ 100) (hn : n ≤ 900) (hk : k ≤ 60) (hE : |v| < (2 : ℚ) ^ (1094 - (n : ℤ))) :
    Ctx c n k (.num v) where
  hx := ⟨⟨hv, by intro h; rw [h, abs_zero] at h1; norm_num at h1⟩, rfl, rfl⟩
  h1 := h1
  hc := by linarith
  m0 := by
    unfold cstMsb
    rw [abs_of_pos (by linarith), show (0 : ℤ) = Int.log 2 (1 : ℚ) by simp]
    exact Int.log_mono_right one_pos hc
  m1 := by
    unfold cstMsb
    rw [abs_of_pos (by linarith)]
    have := (Int.lt_zpow_iff_log_lt (b := 2) (by norm_num) (show 0 < c by linarith) (x := 100)).1 (by exact_mod_cast hc')
    omega
  hn := hn
  hE := by
    have := (Int.lt_zpow_iff_log_lt (b := 2) (by norm_num) (show 0 < |v| by linarith) (x := 1094 - (n : ℤ))).1 (by exact_mod_cast hE)
    show Int.log 2 |v| + n ≤ 1093
    omega
  hk := hk

/-- C82: for every constant of at least one, every number of bits, at most ten bits of integer part and every finite argument of magnitude at least one the
generated reduction is right modulo `2^(k+1)`, to the stated accuracy, when the first chunk that is read is the first one of the table, or does not start at
one of the two bit positions where the chunks skipped before it still matter -/
theorem C82_payne_hanek_partial {v : ℚ} (hv : b64.Finite v) (h1 : 1 ≤ |v|) (hc : 1 ≤ c) (hc' : c < 2 ^ 100) (hn : n ≤ 900) (hk : k ≤ 10)
    (hE : |v| < (2 : ℚ) ^ (1094 - (n : ℤ)))
    (hr : Int.log 2 c + Int.log 2 |v| < 75 + k ∨ 2 ≤ (Int.log 2 c + Int.log 2 |v| - 51 - k) % 24) :
    ∃ (acc : Val) (r : ℤ), reduce c n k (.num v) = some (acc, r) ∧ b64.Datum acc ∧ |r| ≤ 2 ^ (k + 1) + 2 ∧
      Reduced (v * c) (2 ^ (k + 1)) r (numOf acc) (accuracy k n) := by
  have h := ctx_of (k := k) hv h1 hc hc' hn (by omega) hE
  obtain ⟨i0, l, e1, -, -, -, -, -, -, e8, e9⟩ := h.indices
  obtain ⟨⟨acc, r⟩, f1, f2, f3, f4, q, f5⟩ := h.reduce e1 (fun j _ => h.no_overflow hk j)
  refine ⟨acc, r, f1, f2.1, f4, f3, ?_⟩
  have hlog : cstMsb c = Int.log 2 c := by unfold cstMsb; rw [abs_of_pos (by linarith)]
  have hd : ∃ D : ℤ, v * (c - tmpCst c i0) = D * 2 ^ (k + 1) := by
    by_cases hi : i0 = 0
    · exact ⟨0, by rw [hi]; simp [tmpCst]⟩
    · obtain ⟨D, hD⟩ := h.dropped (e := ((k + 1 : ℕ) : ℤ)) hi (by
        have h9 := e9 hi
        rcases hr with hr | hr
        · exact absurd (e8 (by rw [hlog]; exact hr)) hi
        · rw [← hlog] at hr
          change 2 ≤ (cstMsb c + vxExp (.num v) - 51 - k) % 24 at hr
          push_cast; omega)
      exact ⟨D, by rw [← zpow_natCast]; exact hD⟩
  obtain ⟨D, hD⟩ := hd
  refine ⟨q + D, le_trans (le_of_eq ?_) f5⟩
  congr 1
  push_cast
  show v * c - _ = v * tmpCst c i0 - _
  linear_combination hD

/-- C82: whatever the exponents, the reduction is right modulo `2^(k-1)`, a quarter of what is required -/
theorem C82_payne_hanek_quarter_partial {v : ℚ} (hv : b64.Finite v) (h1 : 1 ≤ |v|) (hc : 1 ≤ c) (hc' : c < 2 ^ 100) (hn : n ≤ 900) (hk : k ≤ 10)
    (hE : |v| < (2 : ℚ) ^ (1094 - (n : ℤ))) :
    ∃ (acc : Val) (r : ℤ), reduce c n k (.num v) = some (acc, r) ∧ b64.Datum acc ∧ |r| ≤ 2 ^ (k + 1) + 2 ∧
      Reduced (v * c) (2 ^ (k + 1) / 4) r (numOf acc) (accuracy k n) := by
  have h := ctx_of (k := k) hv h1 hc hc' hn (by omega) hE
  obtain ⟨i0, l, e1, -, -, -, -, -, -, -, e9⟩ := h.indices
  obtain ⟨⟨acc, r⟩, f1, f2, f3, f4, q, f5⟩ := h.reduce e1 (fun j _ => h.no_overflow hk j)
  refine ⟨acc, r, f1, f2.1, f4, f3, ?_⟩
  have hd : ∃ D : ℤ, v * (c - tmpCst c i0) = D * (2 : ℚ) ^ ((k : ℤ) - 1) := by
    by_cases hi : i0 = 0
    · exact ⟨0, by rw [hi]; simp [tmpCst]⟩
    · exact h.dropped hi (by have h9 := e9 hi; omega)
  obtain ⟨D, hD⟩ := hd
  have e : (2 : ℚ) ^ (k + 1) = 4 * (2 : ℚ) ^ ((k : ℤ) - 1) := by
    rw [← zpow_natCast, show ((k + 1 : ℕ) : ℤ) = 2 + ((k : ℤ) - 1) by push_cast; ring, Float.zadd]; norm_num
  refine ⟨q * 4 + D, le_trans (le_of_eq ?_) f5⟩
  congr 1
  rw [e]
  push_cast
  show v * c - _ = v * tmpCst c i0 - _
  linear_combination hD

/-- a finite argument and a constant with these hypotheses -/
example : ∃ (acc : Val) (r : ℤ), reduce (41 / 8) 100 4 (.num (3 * 2 ^ 60)) = some (acc, r) ∧ b64.Datum acc ∧ |r| ≤ 2 ^ 5 + 2 ∧
    Reduced (3 * 2 ^ 60 * (41 / 8)) (2 ^ 5) r (numOf acc) (accuracy 4 100) := by
  have l1 : Int.log 2 (41 / 8 : ℚ) = 2 := Float.log_eq (by norm_num) (by norm_num)
  have l2 : Int.log 2 |(3 * 2 ^ 60 : ℚ)| = 61 := Float.log_eq (by norm_num) (by norm_num)
  exact C82_payne_hanek_partial (n := 100) (k := 4) ⟨3 * 2 ^ 51, 61, by norm_num [b64], by rw [emin_eq]; norm_num, by rw [emax_eq]; norm_num, by norm_num [b64]⟩
    (by norm_num) (by norm_num) (by norm_num) (by norm_num) (by norm_num)
    (lt_trans (b := (2 : ℚ) ^ (62 : ℤ)) (by norm_num) (by apply zpow_lt_zpow_right₀ <;> norm_num)) (by rw [l1, l2]; left; norm_num)

end Verif.Trig
