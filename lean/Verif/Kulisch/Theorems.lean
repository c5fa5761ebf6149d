import Verif.Kulisch.Spec
import Verif.Kulisch.Model
import Mathlib.Tactic.Linarith
import Mathlib.Tactic.Ring
import Mathlib.Tactic.NormNum
import Mathlib.Tactic.Positivity
import Mathlib.Tactic.FieldSimp

/-! # C105: the long accumulator is exact -/

namespace Verif.Kulisch

open Verif.Float (Fmt Val)
open Verif.FpHw (expField signBit mant neg)

/-- `2^(e-1) - 1` as a natural number -/
def M (F : Fmt) : ℕ := 2 ^ (F.e - 1) - 1

theorem M_pos {F : Fmt} (he : 2 ≤ F.e) : 1 ≤ M F := by
  have : 2 ^ 1 ≤ 2 ^ (F.e - 1) := Nat.pow_le_pow_right (by norm_num) (by omega)
  unfold M
  omega

theorem pow_M {F : Fmt} (he : 2 ≤ F.e) : 2 ^ F.e = 2 * M F + 2 := by
  have h : F.e = (F.e - 1) + 1 := by omega
  have : 2 ^ F.e = 2 * 2 ^ (F.e - 1) := by rw [h, pow_succ]; simp; ring
  have h2 : 1 ≤ 2 ^ (F.e - 1) := Nat.one_le_two_pow
  unfold M
  omega

theorem bias_M (F : Fmt) : bias F = -(M F : ℤ) := by
  have h2 : 1 ≤ 2 ^ (F.e - 1) := Nat.one_le_two_pow
  unfold bias M
  push_cast [h2]
  ring

theorem femax_M (F : Fmt) : F.emax = (M F : ℤ) := by
  have h2 : 1 ≤ 2 ^ (F.e - 1) := Nat.one_le_two_pow
  unfold Fmt.emax M
  push_cast [h2]
  ring

theorem emax_M {F : Fmt} (he : 2 ≤ F.e) : emax F = M F := by
  unfold emax
  have : ((2 ^ F.e : ℕ) : ℤ) = 2 * M F + 2 := by rw [pow_M he]; push_cast; ring
  push_cast at this
  rw [this, bias_M]
  ring

theorem accMsb_M {F : Fmt} (he : 2 ≤ F.e) (d : ℕ) : accMsb F d = 2 * M F + 1 + d := by
  unfold accMsb; rw [emax_M he]; ring

theorem accLsb_M (F : Fmt) : accLsb F = 2 * (1 - F.f - M F) := by
  unfold accLsb eminSubnormal; rw [bias_M]; ring

theorem accWidth_M {F : Fmt} (he : 2 ≤ F.e) (d : ℕ) : accWidth F d = 4 * M F + 2 * F.f + d := by
  unfold accWidth
  rw [accMsb_M he, accLsb_M]
  omega

theorem maxExpDiff_M {F : Fmt} (he : 2 ≤ F.e) (d : ℕ) : maxExpDiff F d = 4 * M F + d - 2 := by
  unfold maxExpDiff
  rw [accWidth_M he]
  omega

theorem expSize_M {F : Fmt} (he : 2 ≤ F.e) (d : ℕ) : 2 * (2 * M F + 1 + d) ≤ 2 ^ (expSize F d - 1) := by
  have h : (accMsb F d).natAbs = 2 * M F + 1 + d := by rw [accMsb_M he]; omega
  have h1 : Nat.clog 2 (2 * M F + 1 + d) + 1 ≤ expSize F d - 1 := by
    unfold expSize
    rw [h]
    have := le_max_left (Nat.clog 2 (2 * M F + 1 + d)) (max (Nat.clog 2 (accLsb F).natAbs) (Nat.clog 2 (bias F + bias F + 1).natAbs))
    have := le_max_right F.e (max (Nat.clog 2 (2 * M F + 1 + d)) (max (Nat.clog 2 (accLsb F).natAbs) (Nat.clog 2 (bias F + bias F + 1).natAbs)))
    omega
  have h2 : 2 * M F + 1 + d ≤ 2 ^ Nat.clog 2 (2 * M F + 1 + d) := Nat.le_pow_clog (by norm_num) _
  have h3 : 2 ^ (Nat.clog 2 (2 * M F + 1 + d) + 1) ≤ 2 ^ (expSize F d - 1) := Nat.pow_le_pow_right (by norm_num) h1
  rw [pow_succ] at h3
  omega

theorem expField_lt {F : Fmt} (he : 2 ≤ F.e) (c : ℕ) : expField F c ≤ 2 * M F + 1 := by
  have : expField F c < 2 ^ F.e := Nat.mod_lt _ (by positivity)
  rw [pow_M he] at this
  omega

theorem expDiff_M {F : Fmt} (he : 2 ≤ F.e) (d x y : ℕ) :
    expDiff F d x y = 4 * M F + d - expField F x - expField F y := by
  have h := expSize_M he d
  have hx := expField_lt he x
  have hy := expField_lt he y
  have hM := M_pos he
  have hS : 2 ^ expSize F d = 2 * 2 ^ (expSize F d - 1) := by
    have : 2 ≤ expSize F d := by unfold expSize; omega
    conv_lhs => rw [show expSize F d = (expSize F d - 1) + 1 by omega]
    rw [pow_succ]; ring
  unfold expDiff
  rw [accMsb_M he, bias_M]
  obtain ⟨P, hP⟩ : ∃ P, P = 2 ^ (expSize F d - 1) := ⟨_, rfl⟩
  rw [← hP] at h hS
  rw [hS]
  rw [Int.bmod_eq_of_le]
  · ring
  · omega
  · omega

theorem mantShift_M {F : Fmt} (he : 2 ≤ F.e) (d x y : ℕ) :
    mantShift F d x y = min (4 * M F + d - expField F x - expField F y) (4 * M F + d - 2) := by
  have hM := M_pos he
  unfold mantShift
  rw [expDiff_M he, maxExpDiff_M he]
  split_ifs with h1 h2
  · omega
  · omega
  · have h3 : 4 * M F + d - 2 < 2 ^ (Nat.log 2 (4 * M F + d - 2) + 1) := Nat.lt_pow_succ_log_self (by norm_num) _
    rw [Nat.mod_eq_of_lt]
    · omega
    · refine lt_of_le_of_lt ?_ h3
      omega

theorem mant_lt (F : Fmt) (c : ℕ) : mant F c < 2 ^ (F.f + 1) := by
  unfold mant
  have : c % 2 ^ F.f < 2 ^ F.f := Nat.mod_lt _ (by positivity)
  rw [pow_succ]
  split_ifs <;> omega

theorem mul_lt (F : Fmt) (x y : ℕ) : mant F x * mant F y < 2 ^ ((F.f + 1) + (F.f + 1)) := by
  rw [pow_add]
  exact Nat.mul_lt_mul'' (mant_lt F x) (mant_lt F y)

/-- the aligned product, whatever the inputs whose exponents do not exceed the range -/
theorem shiftedProd_M {F : Fmt} (he : 2 ≤ F.e) {d x y : ℕ} (h : expField F x + expField F y ≤ 4 * M F + d) :
    shiftedProd F d x y = mant F x * mant F y * 2 ^ (expField F x + expField F y - 2) := by
  have hM := M_pos he
  unfold shiftedProd
  rw [Nat.mod_eq_of_lt (mul_lt F x y), maxExpDiff_M he, mantShift_M he]
  have : 4 * M F + d - 2 = (expField F x + expField F y - 2) + min (4 * M F + d - expField F x - expField F y) (4 * M F + d - 2) := by omega
  conv_lhs => lhs; rw [this]
  rw [pow_add, ← mul_assoc]
  exact Nat.mul_div_cancel _ (by positivity)

/-- the sign as a number -/
def sg (s : Bool) : ℚ := if s then -1 else 1

/-- what the fields of a word encoding a number are -/
theorem encodes {F : Fmt} (he : 2 ≤ F.e) {c : ℕ} {a : ℚ} (h : Encodes F c a) :
    expField F c ≤ 2 * M F ∧ a = sg (signBit F c) * (mant F c * (2 : ℚ) ^ (((max (expField F c) 1 : ℕ) : ℤ) - M F - F.f)) := by
  obtain ⟨h1, h2⟩ := h
  have hs : c / 2 ^ (F.e + F.f) < 2 := by
    rw [Nat.div_lt_iff_lt_mul (by positivity)]
    rw [show 1 + F.e + F.f = (F.e + F.f) + 1 by ring, pow_succ] at h1
    omega
  have hsg : sg (signBit F c) = if c / 2 ^ (F.e + F.f) = 1 then -1 else 1 := by
    unfold sg signBit
    rw [Nat.mod_eq_of_lt hs]
    simp
  have hE : c / 2 ^ F.f % 2 ^ F.e < 2 ^ F.e := Nat.mod_lt _ (by positivity)
  rw [hsg]
  unfold Fmt.decode at h2
  unfold mant expField
  simp only at h2
  obtain ⟨E, hEE⟩ : ∃ E, E = c / 2 ^ F.f % 2 ^ F.e := ⟨_, rfl⟩
  rw [← hEE] at h2 hE ⊢
  have hp := pow_M he
  by_cases c1 : E = 2 ^ F.e - 1
  · rw [if_pos c1] at h2
    exfalso
    split_ifs at h2 <;> simp [number] at h2
  rw [if_neg c1] at h2
  refine ⟨by omega, ?_⟩
  by_cases c2 : E = 0
  · rw [if_pos c2] at h2
    by_cases c3 : c % 2 ^ F.f = 0
    · rw [if_pos c3] at h2
      have : a = 0 := by
        split_ifs at h2 <;> simp [number] at h2 <;> exact h2.symm
      rw [this, if_pos c2, c3]
      simp
    · rw [if_neg c3] at h2
      simp only [number, Option.some.injEq] at h2
      rw [← h2, if_pos c2, c2]
      unfold Fmt.emin
      rw [femax_M]
      simp
  · rw [if_neg c2] at h2
    simp only [number, Option.some.injEq] at h2
    rw [← h2, if_neg c2, femax_M, max_eq_left (by omega)]
    push_cast
    rfl

theorem mant_ge {F : Fmt} {c : ℕ} (h : 1 ≤ expField F c) : 2 ^ F.f ≤ mant F c := by
  unfold mant; rw [if_neg (by omega)]; omega

theorem mant_sub {F : Fmt} {c : ℕ} (h : expField F c = 0) : mant F c < 2 ^ F.f := by
  unfold mant; rw [if_pos h]
  have : c % 2 ^ F.f < 2 ^ F.f := Nat.mod_lt _ (by positivity)
  omega

theorem sg_abs (s : Bool) : |sg s| = 1 := by cases s <;> simp [sg]

theorem zp (k : ℤ) : (0 : ℚ) < (2 : ℚ) ^ k := zpow_pos (by norm_num) k

theorem abs_encodes {F : Fmt} (he : 2 ≤ F.e) {c : ℕ} {a : ℚ} (h : Encodes F c a) :
    |a| = mant F c * (2 : ℚ) ^ (((max (expField F c) 1 : ℕ) : ℤ) - M F - F.f) := by
  conv_lhs => rw [(encodes he h).2]
  rw [abs_mul, sg_abs, one_mul, abs_of_nonneg (by have := zp (((max (expField F c) 1 : ℕ) : ℤ) - M F - F.f); positivity)]

theorem field_lower {F : Fmt} (he : 2 ≤ F.e) {c : ℕ} {a : ℚ} (h : Encodes F c a) (h1 : (2 : ℚ) ^ F.emin ≤ |a|) : 1 ≤ expField F c := by
  by_contra h0
  have h0 : expField F c = 0 := by omega
  have h2 := abs_encodes he h
  have h3 : (mant F c : ℚ) < 2 ^ F.f := by exact_mod_cast mant_sub h0
  have h4 : |a| < 2 ^ F.f * (2 : ℚ) ^ (((max (expField F c) 1 : ℕ) : ℤ) - M F - F.f) := by
    rw [h2]; exact mul_lt_mul_of_pos_right h3 (zp _)
  rw [h0, ← zpow_natCast, ← zpow_add₀ (by norm_num)] at h4
  unfold Fmt.emin at h1
  rw [femax_M] at h1
  have : ((F.f : ℤ) + (((max 0 1 : ℕ) : ℤ) - M F - F.f)) = 1 - M F := by simp
  rw [this] at h4
  linarith

theorem field_upper {F : Fmt} (he : 2 ≤ F.e) {c : ℕ} {a : ℚ} (h : Encodes F c a) (k : ℕ) (hk : 1 ≤ k) (h1 : |a| < (2 : ℚ) ^ (F.emin + k - 1 + 1)) :
    expField F c ≤ k := by
  by_contra h0
  have h2 := abs_encodes he h
  have h3 : (2 ^ F.f : ℚ) ≤ mant F c := by exact_mod_cast mant_ge (F := F) (c := c) (by omega)
  have h4 : 2 ^ F.f * (2 : ℚ) ^ (((max (expField F c) 1 : ℕ) : ℤ) - M F - F.f) ≤ |a| := by
    rw [h2]; exact mul_le_mul_of_nonneg_right h3 (zp _).le
  rw [← zpow_natCast, ← zpow_add₀ (by norm_num)] at h4
  have h5 : (2 : ℚ) ^ (F.emin + k - 1 + 1) ≤ (2 : ℚ) ^ ((F.f : ℤ) + (((max (expField F c) 1 : ℕ) : ℤ) - M F - F.f)) := by
    apply zpow_le_zpow_right₀ (by norm_num)
    unfold Fmt.emin
    rw [femax_M, max_eq_left (by omega)]
    omega
  linarith

theorem sg_mul (s t : Bool) : sg s * sg t = sg (xor s t) := by cases s <;> cases t <;> simp [sg]

theorem mant_zero {F : Fmt} (he : 2 ≤ F.e) {c : ℕ} (h : Encodes F c 0) : mant F c = 0 := by
  have := abs_encodes he h
  rw [abs_zero] at this
  rcases mul_eq_zero.1 this.symm with h | h
  · exact_mod_cast h
  · exact absurd h (zp _).ne'

/-- the product in units of the last place of the accumulator -/
theorem prod_units {F : Fmt} (he : 2 ≤ F.e) {d x y : ℕ} {a b : ℚ} (hx : Encodes F x a) (hy : Encodes F y b) (hal : Aligned F a b) :
    sg (signXY F x y) * shiftedProd F d x y = a * b * (2 : ℚ) ^ (-accLsb F) := by
  obtain ⟨ex, ha⟩ := encodes he hx
  obtain ⟨ey, hb⟩ := encodes he hy
  rw [shiftedProd_M he (by omega)]
  rcases hal with h0 | h0 | h0
  · subst h0; rw [mant_zero he hx]; simp
  · subst h0; rw [mant_zero he hy]; simp
  have key : ((expField F x + expField F y - 2 : ℕ) : ℤ) = (max (expField F x) 1 : ℕ) + (max (expField F y) 1 : ℕ) - 2 := by
    rcases h0 with ⟨h1, h2⟩ | ⟨h1, h2⟩
    · have := field_lower he hx h1
      have := field_lower he hy h2
      omega
    · have := field_upper he hx 1 le_rfl (by simpa using h1)
      have := field_upper he hy 1 le_rfl (by simpa using h2)
      omega
  have e1 : ((2 ^ (expField F x + expField F y - 2) : ℕ) : ℚ)
      = (2 : ℚ) ^ (((max (expField F x) 1 : ℕ) : ℤ) - M F - F.f) * (2 : ℚ) ^ (((max (expField F y) 1 : ℕ) : ℤ) - M F - F.f) * (2 : ℚ) ^ (-accLsb F) := by
    rw [Nat.cast_pow, Nat.cast_ofNat, ← zpow_natCast, key, ← zpow_add₀ (by norm_num), ← zpow_add₀ (by norm_num), accLsb_M]
    congr 1
    ring
  rw [Nat.cast_mul, e1, Nat.cast_mul]
  conv_rhs => rw [ha, hb]
  unfold signXY
  rw [← sg_mul]
  ring

/-- one cycle of the two's complement accumulator -/
theorem accTwos_mod {F : Fmt} {d x y : ℕ} (acc : ℕ) (hP : shiftedProd F d x y < 2 ^ accWidth F d) :
    ∃ n : ℤ, (accTwos F d x y acc : ℚ) = acc + sg (signXY F x y) * shiftedProd F d x y + n * 2 ^ accWidth F d := by
  unfold accTwos
  obtain ⟨P, hPP⟩ : ∃ P, P = shiftedProd F d x y := ⟨_, rfl⟩
  obtain ⟨W, hW⟩ : ∃ W, W = 2 ^ accWidth F d := ⟨_, rfl⟩
  rw [← hPP, ← hW] at hP
  have hWq : (2 : ℚ) ^ accWidth F d = (W : ℚ) := by rw [hW]; push_cast; rfl
  simp only [neg, ← hPP, ← hW]
  rw [hWq]
  have main : ∀ t : ℕ, ∃ n : ℤ, ((t % W : ℕ) : ℚ) = t + n * W := by
    intro t
    refine ⟨-((t / W : ℕ) : ℤ), ?_⟩
    have := Nat.div_add_mod t W
    have h2 : ((W * (t / W) + t % W : ℕ) : ℚ) = t := by rw [this]
    rw [Nat.cast_add, Nat.cast_mul] at h2
    rw [Int.cast_neg, Int.cast_natCast]
    linarith
  cases hs : signXY F x y
  · obtain ⟨n, hn⟩ := main (P + acc)
    refine ⟨n, ?_⟩
    simp only [sg]
    rw [show (if (false = true) then (W - 1 - P + 1) % W else P) = P by simp, hn]
    push_cast
    simp
    ring
  · obtain ⟨n1, h1⟩ := main (W - 1 - P + 1)
    obtain ⟨n, hn⟩ := main ((W - 1 - P + 1) % W + acc)
    refine ⟨n + n1 + 1, ?_⟩
    simp only [sg, if_true]
    rw [hn]
    push_cast at h1 ⊢
    rw [h1]
    have : ((W - 1 - P + 1 : ℕ) : ℚ) = W - P := by
      rw [show W - 1 - P + 1 = W - P by omega, Nat.cast_sub hP.le]
    push_cast at this
    rw [this]
    ring

theorem prod_lt {F : Fmt} (he : 2 ≤ F.e) {d x y : ℕ} (h : expField F x + expField F y ≤ 4 * M F + d) :
    shiftedProd F d x y < 2 ^ accWidth F d := by
  rw [shiftedProd_M he h, accWidth_M he]
  have := mul_lt F x y
  have hM := M_pos he
  calc _ < 2 ^ ((F.f + 1) + (F.f + 1)) * 2 ^ (expField F x + expField F y - 2) := Nat.mul_lt_mul_of_pos_right this (by positivity)
    _ = 2 ^ ((F.f + 1) + (F.f + 1) + (expField F x + expField F y - 2)) := by rw [← pow_add]
    _ ≤ _ := Nat.pow_le_pow_right (by norm_num) (by omega)

theorem accTwos_lt (F : Fmt) (d x y acc : ℕ) : accTwos F d x y acc < 2 ^ accWidth F d := Nat.mod_lt _ (by positivity)

/-- **C105, one cycle**: the two's complement accumulator receives the exact product, modulo its size. -/
theorem C105_step {F : Fmt} (he : 2 ≤ F.e) (d : ℕ) {x y : ℕ} {a b : ℚ} (hx : Encodes F x a) (hy : Encodes F y b) (hal : Aligned F a b) (acc : ℕ) :
    accTwos F d x y acc < 2 ^ accWidth F d ∧
    ∃ n : ℤ, (accTwos F d x y acc : ℚ) = acc + a * b * (2 : ℚ) ^ (-accLsb F) + n * 2 ^ accWidth F d := by
  refine ⟨accTwos_lt _ _ _ _ _, ?_⟩
  obtain ⟨n, hn⟩ := accTwos_mod acc (prod_lt (d := d) (x := x) (y := y) he (by have := (encodes he hx).1; have := (encodes he hy).1; omega))
  exact ⟨n, by rw [hn, prod_units he hx hy hal]⟩

theorem run_mod {F : Fmt} (he : 2 ≤ F.e) (d : ℕ) {cs : List (ℕ × ℕ)} {l : List (ℚ × ℚ)} (h : EncodesAll F cs l)
    (hal : ∀ p ∈ l, Aligned F p.1 p.2) (acc : ℕ) (hacc : acc < 2 ^ accWidth F d) :
    runTwos F d acc cs < 2 ^ accWidth F d ∧
    ∃ n : ℤ, (runTwos F d acc cs : ℚ) = acc + dot l * (2 : ℚ) ^ (-accLsb F) + n * 2 ^ accWidth F d := by
  induction h generalizing acc with
  | nil => exact ⟨hacc, 0, by simp [runTwos, dot]⟩
  | @cons c p cs l hc hr ih =>
    obtain ⟨h1, n1, h2⟩ := C105_step he d hc.1 hc.2 (hal p (by simp)) acc
    obtain ⟨h3, n2, h4⟩ := ih (fun q hq => hal q (by simp [hq])) _ h1
    refine ⟨h3, n1 + n2, ?_⟩
    have : runTwos F d acc (c :: cs) = runTwos F d (accTwos F d c.1 c.2 acc) cs := rfl
    rw [this, h4, h2]
    obtain ⟨a, b⟩ := p
    simp only [dot]
    push_cast
    ring

theorem signed_of_mod {W c : ℕ} (hW : 1 ≤ W) (hc : c < 2 ^ W) {t : ℚ} {n : ℤ} (h : (c : ℚ) = t + n * 2 ^ W) (h1 : -(2 : ℚ) ^ (W - 1) ≤ t) (h2 : t < (2 : ℚ) ^ (W - 1)) :
    (signed W c : ℚ) = t := by
  have hp : (2 : ℚ) ^ W = 2 * 2 ^ (W - 1) := by
    conv_lhs => rw [show W = (W - 1) + 1 by omega]
    rw [pow_succ]; ring
  have pp : (0 : ℚ) < 2 ^ (W - 1) := by positivity
  have hcq : (c : ℚ) < 2 ^ W := by exact_mod_cast hc
  have hc0 : (0 : ℚ) ≤ c := by positivity
  have hn : n = 0 ∨ n = 1 := by
    have a1 : (-1 : ℚ) < n := by
      by_contra hh
      push Not at hh
      nlinarith only [hh, h, h2, hp, pp, hc0]
    have a2 : (n : ℚ) < 2 := by
      by_contra hh
      push Not at hh
      nlinarith only [hh, h, h1, hp, pp, hcq]
    have : -1 < n := by exact_mod_cast a1
    have : n < 2 := by exact_mod_cast a2
    omega
  unfold signed
  rcases hn with hn | hn <;> subst hn
  · rw [if_pos (by have : (c : ℚ) < 2 ^ (W - 1) := by rw [h]; simpa using h2
                   exact_mod_cast this)]
    push_cast
    rw [h]; simp
  · rw [if_neg (by intro hh
                   have : (c : ℚ) < 2 ^ (W - 1) := by exact_mod_cast hh
                   push_cast at h
                   linarith)]
    push_cast
    rw [h]; push_cast; ring

theorem width_pos {F : Fmt} (he : 2 ≤ F.e) (d : ℕ) : 1 ≤ accWidth F d := by rw [accWidth_M he]; have := M_pos he; omega

/-- the weight of the sign bit is `2 ^ accMsb` -/
theorem weight {F : Fmt} (he : 2 ≤ F.e) (d : ℕ) : (2 : ℚ) ^ (accWidth F d - 1) * (2 : ℚ) ^ accLsb F = (2 : ℚ) ^ accMsb F d := by
  rw [← zpow_natCast, ← zpow_add₀ (by norm_num)]
  congr 1
  have := width_pos he d
  rw [accMsb_M he, accLsb_M]
  have h2 := accWidth_M he d
  have hM := M_pos he
  push_cast [this]
  rw [h2]
  push_cast
  ring

theorem lsb_cancel (F : Fmt) : (2 : ℚ) ^ (-accLsb F) * (2 : ℚ) ^ accLsb F = 1 := by
  rw [← zpow_add₀ (by norm_num)]; simp

/-- **C105 (two's complement)**: starting from zero, after any number of products of any numbers (neither subnormal, unless both are below
twice the smallest normal number), the accumulator is the exact sum of the products as soon as this sum fits, whatever the intermediate
sums. -/
theorem C105_dot_partial {F : Fmt} (he : 2 ≤ F.e) (d : ℕ) {cs : List (ℕ × ℕ)} {l : List (ℚ × ℚ)} (h : EncodesAll F cs l)
    (hal : ∀ p ∈ l, Aligned F p.1 p.2) (h1 : -(2 : ℚ) ^ (2 * F.emax + 1 + d) ≤ dot l) (h2 : dot l < (2 : ℚ) ^ (2 * F.emax + 1 + d)) :
    (signed (accWidth F d) (runTwos F d 0 cs) : ℚ) * (2 : ℚ) ^ accLsb F = dot l := by
  obtain ⟨h3, n, h4⟩ := run_mod he d h hal 0 (by positivity)
  have hm : (2 : ℤ) * F.emax + 1 + d = accMsb F d := by rw [accMsb_M he, femax_M]
  rw [hm, ← weight he] at h1 h2
  have pL := zp (accLsb F)
  have lc := lsb_cancel F
  have pN := zp (-accLsb F)
  rw [signed_of_mod (width_pos he d) h3 (t := dot l * (2 : ℚ) ^ (-accLsb F)) (n := n) (by rw [h4]; simp)]
  · rw [mul_assoc, lc, mul_one]
  · have := mul_le_mul_of_nonneg_right h1 pN.le
    rw [neg_mul, mul_assoc, mul_comm ((2 : ℚ) ^ accLsb F), lc, mul_one] at this
    exact this
  · have := mul_lt_mul_of_pos_right h2 pN
    rw [mul_assoc, mul_comm ((2 : ℚ) ^ accLsb F), lc, mul_one] at this
    exact this

theorem prod_bound {F : Fmt} (he : 2 ≤ F.e) {x y : ℕ} {a b : ℚ} (hx : Encodes F x a) (hy : Encodes F y b) : |a * b| < (2 : ℚ) ^ (2 * F.emax + 2) := by
  have one : ∀ {c : ℕ} {v : ℚ}, Encodes F c v → |v| < (2 : ℚ) ^ (F.emax + 1) := by
    intro c v hc
    rw [abs_encodes he hc]
    have h1 : (mant F c : ℚ) < 2 ^ (F.f + 1) := by exact_mod_cast mant_lt F c
    have h2 := (encodes he hc).1
    have hM := M_pos he
    calc _ < (2 : ℚ) ^ (F.f + 1) * (2 : ℚ) ^ (((max (expField F c) 1 : ℕ) : ℤ) - M F - F.f) := mul_lt_mul_of_pos_right h1 (zp _)
      _ = (2 : ℚ) ^ (((F.f + 1 : ℕ) : ℤ) + (((max (expField F c) 1 : ℕ) : ℤ) - M F - F.f)) := by rw [← zpow_natCast, ← zpow_add₀ (by norm_num)]
      _ ≤ _ := by
        apply zpow_le_zpow_right₀ (by norm_num)
        rw [femax_M]
        have : max (expField F c) 1 ≤ 2 * M F := by omega
        push_cast
        omega
  rw [abs_mul, show 2 * F.emax + 2 = (F.emax + 1) + (F.emax + 1) by ring, zpow_add₀ (by norm_num)]
  exact mul_lt_mul'' (one hx) (one hy) (abs_nonneg _) (abs_nonneg _)

theorem dot_bound {F : Fmt} (he : 2 ≤ F.e) {cs : List (ℕ × ℕ)} {l : List (ℚ × ℚ)} (h : EncodesAll F cs l) :
    |dot l| ≤ l.length * (2 : ℚ) ^ (2 * F.emax + 2) ∧ (l ≠ [] → |dot l| < l.length * (2 : ℚ) ^ (2 * F.emax + 2)) := by
  induction h with
  | nil => simp [dot]
  | @cons c p cs l hc hr ih =>
    obtain ⟨a, b⟩ := p
    have h1 := prod_bound he hc.1 hc.2
    have h2 : |dot ((a, b) :: l)| ≤ |a * b| + |dot l| := abs_add_le _ _
    have h3 := ih.1
    simp only at h1
    have h4 : |dot ((a, b) :: l)| < ((l.length + 1 : ℕ) : ℚ) * (2 : ℚ) ^ (2 * F.emax + 2) := by
      push_cast
      linarith
    exact ⟨h4.le, fun _ => h4⟩

/-- **C105 (capacity)**: `d + 1` extra digits are enough for any `2 ^ d` products. -/
theorem C105_capacity_partial {F : Fmt} (he : 2 ≤ F.e) (d : ℕ) {cs : List (ℕ × ℕ)} {l : List (ℚ × ℚ)} (h : EncodesAll F cs l)
    (hal : ∀ p ∈ l, Aligned F p.1 p.2) (hn : l.length ≤ 2 ^ d) :
    (signed (accWidth F (d + 1)) (runTwos F (d + 1) 0 cs) : ℚ) * (2 : ℚ) ^ accLsb F = dot l := by
  have h1 := dot_bound he h
  have hn' : (l.length : ℚ) ≤ 2 ^ d := by exact_mod_cast hn
  have e1 : (2 : ℚ) ^ (2 * F.emax + 1 + ((d + 1 : ℕ) : ℤ)) = 2 ^ d * (2 : ℚ) ^ (2 * F.emax + 2) := by
    rw [← zpow_natCast, ← zpow_add₀ (by norm_num)]
    congr 1
    push_cast
    ring
  have p := zp (2 * F.emax + 2)
  have hb : |dot l| < (2 : ℚ) ^ (2 * F.emax + 1 + ((d + 1 : ℕ) : ℤ)) := by
    rw [e1]
    by_cases hl : l = []
    · subst hl; simp [dot]; positivity
    · exact lt_of_lt_of_le (h1.2 hl) (mul_le_mul_of_nonneg_right hn' p.le)
  rw [abs_lt] at hb
  exact C105_dot_partial he (d + 1) h hal hb.1.le hb.2

/-- **C105 is false without an extra digit**: the accumulator meant to hold any product reads a product of at least `2 ^ (2 emax + 1)` as
a negative number. -/
theorem C105_extra_digit_wrong {F : Fmt} (he : 2 ≤ F.e) {x y : ℕ} {a b : ℚ} (hx : Encodes F x a) (hy : Encodes F y b) (hal : Aligned F a b)
    (hb : (2 : ℚ) ^ (2 * F.emax + 1) ≤ a * b) :
    (signed (accWidth F 0) (runTwos F 0 0 [(x, y)]) : ℚ) * (2 : ℚ) ^ accLsb F = a * b - (2 : ℚ) ^ (2 * F.emax + 2) ∧
    a * b - (2 : ℚ) ^ (2 * F.emax + 2) < 0 := by
  have hlt := lt_of_le_of_lt (le_abs_self _) (prod_bound he hx hy)
  refine ⟨?_, by linarith⟩
  obtain ⟨h3, n, h4⟩ := C105_step he 0 hx hy hal 0
  have hr : runTwos F 0 0 [(x, y)] = accTwos F 0 x y 0 := rfl
  rw [hr]
  have hw := weight he 0
  have hm : accMsb F 0 = 2 * F.emax + 1 := by rw [accMsb_M he, femax_M]; simp
  rw [hm] at hw
  have lc := lsb_cancel F
  have pN := zp (-accLsb F)
  have hw2 : (2 : ℚ) ^ (2 * F.emax + 1) * (2 : ℚ) ^ (-accLsb F) = 2 ^ (accWidth F 0 - 1) := by
    rw [← hw, mul_assoc, mul_comm ((2 : ℚ) ^ accLsb F), lc, mul_one]
  have hp : (2 : ℚ) ^ accWidth F 0 = 2 * 2 ^ (accWidth F 0 - 1) := by
    have := width_pos he 0
    conv_lhs => rw [show accWidth F 0 = (accWidth F 0 - 1) + 1 by omega]
    rw [pow_succ]; ring
  have e2 : (2 : ℚ) ^ (2 * F.emax + 2) = 2 * (2 : ℚ) ^ (2 * F.emax + 1) := by
    rw [show 2 * F.emax + 2 = (2 * F.emax + 1) + 1 by ring, zpow_add_one₀ (by norm_num)]; ring
  rw [signed_of_mod (width_pos he 0) h3 (t := (a * b - (2 : ℚ) ^ (2 * F.emax + 2)) * (2 : ℚ) ^ (-accLsb F)) (n := n + 1)]
  · rw [mul_assoc, lc, mul_one]
  · rw [h4, hp, ← hw2, e2]
    push_cast
    ring
  · rw [← hw2, ← neg_mul]
    exact mul_le_mul_of_nonneg_right (by rw [e2]; linarith) pN.le
  · rw [← hw2]
    exact mul_lt_mul_of_pos_right (by rw [e2]; have := zp (2 * F.emax + 1); linarith) pN

/-- **C105 is false for subnormal numbers**: a subnormal number times a number of at least `2 ^ (emin + 1)` adds the half of the product. -/
theorem C105_subnormal_wrong {F : Fmt} (he : 2 ≤ F.e) (d : ℕ) {x y : ℕ} {a b : ℚ} (hx : Encodes F x a) (hy : Encodes F y b)
    (ha : |a| < (2 : ℚ) ^ F.emin) (hb : (2 : ℚ) ^ (F.emin + 1) ≤ |b|) (acc : ℕ) :
    ∃ n : ℤ, (accTwos F d x y acc : ℚ) = acc + a * b / 2 * (2 : ℚ) ^ (-accLsb F) + n * 2 ^ accWidth F d := by
  obtain ⟨ex, ea⟩ := encodes he hx
  obtain ⟨ey, eb⟩ := encodes he hy
  obtain ⟨n, hn⟩ := accTwos_mod acc (prod_lt (d := d) (x := x) (y := y) he (by omega))
  refine ⟨n, ?_⟩
  rw [hn, shiftedProd_M he (by omega)]
  have hx0 : expField F x = 0 := by
    by_contra h0
    have h2 := abs_encodes he hx
    have h3 : (2 ^ F.f : ℚ) ≤ mant F x := by exact_mod_cast mant_ge (F := F) (c := x) (by omega)
    have h4 : 2 ^ F.f * (2 : ℚ) ^ (((max (expField F x) 1 : ℕ) : ℤ) - M F - F.f) ≤ |a| := by
      rw [h2]; exact mul_le_mul_of_nonneg_right h3 (zp _).le
    rw [← zpow_natCast, ← zpow_add₀ (by norm_num)] at h4
    have h5 : (2 : ℚ) ^ F.emin ≤ (2 : ℚ) ^ ((F.f : ℤ) + (((max (expField F x) 1 : ℕ) : ℤ) - M F - F.f)) := by
      apply zpow_le_zpow_right₀ (by norm_num)
      unfold Fmt.emin
      rw [femax_M]
      omega
    linarith
  have hy2 : 2 ≤ expField F y := by
    by_contra h0
    have h2 := abs_encodes he hy
    have h3 : (mant F y : ℚ) < 2 ^ (F.f + 1) := by exact_mod_cast mant_lt F y
    have h4 : |b| < 2 ^ (F.f + 1) * (2 : ℚ) ^ (((max (expField F y) 1 : ℕ) : ℤ) - M F - F.f) := by
      rw [h2]; exact mul_lt_mul_of_pos_right h3 (zp _)
    rw [show max (expField F y) 1 = 1 by omega, ← zpow_natCast, ← zpow_add₀ (by norm_num)] at h4
    have : (((F.f + 1 : ℕ) : ℤ) + (((1 : ℕ) : ℤ) - M F - F.f)) = F.emin + 1 := by
      unfold Fmt.emin; rw [femax_M]; push_cast; ring
    rw [this] at h4
    linarith
  have e1 : ((2 ^ (expField F x + expField F y - 2) : ℕ) : ℚ)
      = (2 : ℚ) ^ (((max (expField F x) 1 : ℕ) : ℤ) - M F - F.f) * (2 : ℚ) ^ (((max (expField F y) 1 : ℕ) : ℤ) - M F - F.f) * (2 : ℚ) ^ (-accLsb F) / 2 := by
    rw [div_eq_mul_inv, ← zpow_neg_one (2 : ℚ)]
    push_cast
    rw [← zpow_natCast, ← zpow_add₀ (by norm_num), ← zpow_add₀ (by norm_num), ← zpow_add₀ (by norm_num), accLsb_M]
    congr 1
    rw [hx0]
    have : ((0 + expField F y - 2 : ℕ) : ℤ) = expField F y - 2 := by omega
    have h2 : max (expField F y) 1 = expField F y := by omega
    rw [this]
    push_cast
    have h3 : max (expField F y : ℤ) 1 = expField F y := by omega
    rw [h3]
    simp
    ring
  rw [Nat.cast_mul, e1, Nat.cast_mul]
  conv_rhs => rw [ea, eb]
  unfold signXY
  rw [← sg_mul]
  ring

/-- **C105 (sign and magnitude), one cycle**: when the exact sum fits, the accumulator is the exact sum. -/
theorem C105_sign_magnitude_step {F : Fmt} (he : 2 ≤ F.e) (d : ℕ) {x y : ℕ} {a b : ℚ} (hx : Encodes F x a) (hy : Encodes F y b) (hal : Aligned F a b)
    (s : Bool) {acc : ℕ} (hacc : acc < 2 ^ accWidth F d)
    (hs : |signMag s acc * (2 : ℚ) ^ accLsb F + a * b| < (2 : ℚ) ^ (2 * F.emax + 2 + d)) :
    (accSM F d x y s acc).2 < 2 ^ accWidth F d ∧
    (signMag (accSM F d x y s acc).1 (accSM F d x y s acc).2 : ℚ) * (2 : ℚ) ^ accLsb F = signMag s acc * (2 : ℚ) ^ accLsb F + a * b := by
  have hP := prod_lt (d := d) (x := x) (y := y) he (by have := (encodes he hx).1; have := (encodes he hy).1; omega)
  have hu := prod_units (d := d) he hx hy hal
  have hw := weight he d
  have lc := lsb_cancel F
  have hp : 2 ^ accWidth F d = 2 * 2 ^ (accWidth F d - 1) := by
    have := width_pos he d
    conv_lhs => rw [show accWidth F d = (accWidth F d - 1) + 1 by omega]
    rw [pow_succ]; ring
  have hm : (2 : ℚ) ^ (2 * F.emax + 2 + (d : ℤ)) = (2 ^ accWidth F d : ℕ) * (2 : ℚ) ^ accLsb F := by
    have e : (2 * F.emax + 2 + (d : ℤ)) = accMsb F d + 1 := by rw [accMsb_M he, femax_M]; ring
    rw [e, zpow_add_one₀ (by norm_num), ← hw, hp]
    push_cast
    ring
  have hab : a * b = sg (signXY F x y) * shiftedProd F d x y * (2 : ℚ) ^ accLsb F := by
    rw [hu, mul_assoc, lc, mul_one]
  have pL := zp (accLsb F)
  rw [hm, hab, ← add_mul, abs_mul, abs_of_pos pL] at hs
  have hs := lt_of_mul_lt_mul_right hs pL.le
  have goal : (accSM F d x y s acc).2 < 2 ^ accWidth F d ∧ (signMag (accSM F d x y s acc).1 (accSM F d x y s acc).2 : ℤ)
      = signMag s acc + (if signXY F x y then -1 else 1) * (shiftedProd F d x y : ℤ) := by
    have hs' : |signMag s acc + (if signXY F x y then -1 else 1) * (shiftedProd F d x y : ℤ)| < ((2 ^ accWidth F d : ℕ) : ℤ) := by
      have : ((|signMag s acc + (if signXY F x y then -1 else 1) * (shiftedProd F d x y : ℤ)| : ℤ) : ℚ) < ((2 ^ accWidth F d : ℕ) : ℚ) := by
        have e : ((signMag s acc + (if signXY F x y then -1 else 1) * (shiftedProd F d x y : ℤ) : ℤ) : ℚ)
            = signMag s acc + sg (signXY F x y) * shiftedProd F d x y := by
          unfold sg; push_cast; split_ifs <;> simp
        rw [Int.cast_abs, e]
        exact hs
      exact_mod_cast this
    unfold accSM
    have h2 : 2 ^ (accWidth F d + 1) = 2 * 2 ^ accWidth F d := by rw [pow_succ]; ring
    simp only [h2]
    generalize shiftedProd F d x y = P at hP hs' ⊢
    generalize 2 ^ accWidth F d = W at hP hs' hacc ⊢
    generalize signXY F x y = t at hs' ⊢
    have hW : 0 < W := by omega
    cases t <;> cases s
    · simp only [signMag, Bool.false_eq_true, if_false, beq_self_eq_true, if_true, Bool.xor_self] at hs' ⊢
      rw [abs_lt] at hs'
      rw [Nat.mod_eq_of_lt (show P + acc < 2 * W by omega), Nat.mod_eq_of_lt (show P + acc < W by omega)]
      omega
    · have hx1 : P + (W - 1 - acc) < 2 * W := by omega
      simp only [signMag, Bool.false_eq_true, if_false, if_true, Bool.false_xor, show (false == true) = false from rfl]
      rw [Nat.mod_eq_of_lt hx1]
      by_cases hc : acc ≤ P
      · have a1 : (P + (W - 1 - acc) + 1) % (2 * W) = W + (P - acc) := by rw [Nat.mod_eq_of_lt (by omega)]; omega
        have a2 : (W + (P - acc)) / W % 2 = 1 := by
          rw [show W + (P - acc) = (P - acc) + W by ring, Nat.add_div_right _ hW, Nat.div_eq_of_lt (by omega)]
        have a3 : (W + (P - acc)) % W = P - acc := by rw [Nat.add_mod_left]; exact Nat.mod_eq_of_lt (by omega)
        rw [a1, a2, a3]
        simp
        omega
      · have a1 : (P + (W - 1 - acc) + 1) % (2 * W) = W - (acc - P) := by rw [Nat.mod_eq_of_lt (by omega)]; omega
        have a2 : (W - (acc - P)) / W % 2 = 0 := by rw [Nat.div_eq_of_lt (by omega)]
        have a3 : (P + (W - 1 - acc)) % W = P + (W - 1 - acc) := Nat.mod_eq_of_lt (by omega)
        rw [a1, a2, a3]
        simp
        omega
    · have hx1 : P + (W - 1 - acc) < 2 * W := by omega
      simp only [signMag, Bool.false_eq_true, if_false, if_true, Bool.xor_false, show (true == false) = false from rfl]
      rw [Nat.mod_eq_of_lt hx1]
      by_cases hc : acc ≤ P
      · have a1 : (P + (W - 1 - acc) + 1) % (2 * W) = W + (P - acc) := by rw [Nat.mod_eq_of_lt (by omega)]; omega
        have a2 : (W + (P - acc)) / W % 2 = 1 := by
          rw [show W + (P - acc) = (P - acc) + W by ring, Nat.add_div_right _ hW, Nat.div_eq_of_lt (by omega)]
        have a3 : (W + (P - acc)) % W = P - acc := by rw [Nat.add_mod_left]; exact Nat.mod_eq_of_lt (by omega)
        rw [a1, a2, a3]
        simp
        omega
      · have a1 : (P + (W - 1 - acc) + 1) % (2 * W) = W - (acc - P) := by rw [Nat.mod_eq_of_lt (by omega)]; omega
        have a2 : (W - (acc - P)) / W % 2 = 0 := by rw [Nat.div_eq_of_lt (by omega)]
        have a3 : (P + (W - 1 - acc)) % W = P + (W - 1 - acc) := Nat.mod_eq_of_lt (by omega)
        rw [a1, a2, a3]
        simp
        omega
    · simp only [signMag, if_true, beq_self_eq_true, Bool.xor_self, Bool.false_eq_true, if_false] at hs' ⊢
      rw [abs_lt] at hs'
      rw [Nat.mod_eq_of_lt (show P + acc < 2 * W by omega), Nat.mod_eq_of_lt (show P + acc < W by omega)]
      omega
  refine ⟨goal.1, ?_⟩
  rw [goal.2, hab]
  unfold sg
  push_cast
  split_ifs <;> ring

/-- **C105 (sign and magnitude)**: starting from zero, `d` extra digits are enough for any `2 ^ d` products. -/
theorem C105_sign_magnitude_partial {F : Fmt} (he : 2 ≤ F.e) (d : ℕ) {cs : List (ℕ × ℕ)} {l : List (ℚ × ℚ)} (h : EncodesAll F cs l)
    (hal : ∀ p ∈ l, Aligned F p.1 p.2) (hn : l.length ≤ 2 ^ d) :
    (signMag (runSM F d (false, 0) cs).1 (runSM F d (false, 0) cs).2 : ℚ) * (2 : ℚ) ^ accLsb F = dot l := by
  have p := zp (2 * F.emax + 2)
  have gen : ∀ (s : Bool) (acc k : ℕ), acc < 2 ^ accWidth F d → |signMag s acc * (2 : ℚ) ^ accLsb F| ≤ k * (2 : ℚ) ^ (2 * F.emax + 2) →
      k + l.length ≤ 2 ^ d →
      (signMag (runSM F d (s, acc) cs).1 (runSM F d (s, acc) cs).2 : ℚ) * (2 : ℚ) ^ accLsb F = signMag s acc * (2 : ℚ) ^ accLsb F + dot l := by
    clear hn
    induction h with
    | nil => intro s acc k _ _ _; simp [runSM, dot]
    | @cons c q cs l hc hr ih =>
      intro s acc k h1 h2 h3
      obtain ⟨a, b⟩ := q
      have h4 := prod_bound he hc.1 hc.2
      simp only at h4
      have h5 : |signMag s acc * (2 : ℚ) ^ accLsb F + a * b| < ((k + 1 : ℕ) : ℚ) * (2 : ℚ) ^ (2 * F.emax + 2) := by
        have := abs_add_le (signMag s acc * (2 : ℚ) ^ accLsb F) (a * b)
        push_cast
        linarith
      have h6 : ((k + 1 : ℕ) : ℚ) ≤ 2 ^ d := by
        have : k + 1 ≤ 2 ^ d := by simp only [List.length_cons] at h3; omega
        exact_mod_cast this
      have h7 : (2 : ℚ) ^ (2 * F.emax + 2 + (d : ℤ)) = 2 ^ d * (2 : ℚ) ^ (2 * F.emax + 2) := by
        rw [zpow_add₀ (by norm_num), zpow_natCast]; ring
      obtain ⟨g1, g2⟩ := C105_sign_magnitude_step he d hc.1 hc.2 (hal (a, b) (by simp)) s h1
        (lt_of_lt_of_le h5 (by rw [h7]; exact mul_le_mul_of_nonneg_right h6 p.le))
      have r : runSM F d (s, acc) (c :: cs) = runSM F d ((accSM F d c.1 c.2 s acc).1, (accSM F d c.1 c.2 s acc).2) cs := rfl
      rw [r, ih (fun q hq => hal q (by simp [hq])) _ _ (k + 1) g1 (by rw [g2]; exact h5.le) (by simp only [List.length_cons] at h3; omega), g2]
      simp only [dot]
      ring
  have := gen false 0 0 (by positivity) (by simp [signMag]) (by simpa using hn)
  rw [this]
  simp [signMag]

/-- **the sign of a null sum**: when a negative product cancels a positive accumulator, the result is zero with a negative sign
(`numeric_emulate`, the reference of the test benches, expects a positive one). -/
theorem C105_zero_sign_wrong {F : Fmt} (he : 2 ≤ F.e) (d : ℕ) {x y : ℕ} {a b : ℚ} (hx : Encodes F x a) (hy : Encodes F y b)
    (hxy : signXY F x y = true) : accSM F d x y false (shiftedProd F d x y) = (true, 0) := by
  have hP := prod_lt (d := d) (x := x) (y := y) he (by have := (encodes he hx).1; have := (encodes he hy).1; omega)
  unfold accSM
  have h2 : 2 ^ (accWidth F d + 1) = 2 * 2 ^ accWidth F d := by rw [pow_succ]; ring
  simp only [h2, hxy]
  generalize shiftedProd F d x y = P at hP ⊢
  generalize 2 ^ accWidth F d = W at hP ⊢
  have hW : 0 < W := by omega
  have a0 : P + (W - 1 - P) = W - 1 := by omega
  have a1 : (W - 1) % (2 * W) = W - 1 := Nat.mod_eq_of_lt (by omega)
  have a2 : (W - 1 + 1) % (2 * W) = W := by rw [Nat.mod_eq_of_lt (by omega)]; omega
  simp only [show (true == false) = false from rfl, Bool.false_eq_true, if_false, if_true, Bool.xor_false, Bool.false_xor]
  rw [a0, a1, a2, Nat.div_self hW]
  simp

/-- the binary32 words of 1.5, -2 and 2^-126: hypotheses of the theorems -/
example : Encodes ⟨8, 23⟩ 0x3fc00000 (3 / 2) ∧ Encodes ⟨8, 23⟩ 0xc0000000 (-2) ∧ Encodes ⟨8, 23⟩ 0x00000001 ((2 : ℚ) ^ (-149 : ℤ)) ∧
    Encodes ⟨8, 23⟩ 0x80000000 0 := by
  refine ⟨⟨by norm_num, ?_⟩, ⟨by norm_num, ?_⟩, ⟨by norm_num, ?_⟩, ⟨by norm_num, ?_⟩⟩ <;>
    norm_num [Fmt.decode, number, Fmt.emax, Fmt.emin]

/-- 1.5 * (-2) + (-2) * (-2) + 1.5 * 0 = 1 in an accumulator with one extra digit, although 3 products exceed the capacity -/
example : (signed (accWidth ⟨8, 23⟩ 1) (runTwos ⟨8, 23⟩ 1 0 [(0x3fc00000, 0xc0000000), (0xc0000000, 0xc0000000), (0x3fc00000, 0x80000000)]) : ℚ)
    * (2 : ℚ) ^ (-298 : ℤ) = 1 := by
  have h1 : Encodes ⟨8, 23⟩ 0x3fc00000 (3 / 2) := ⟨by norm_num, by norm_num [Fmt.decode, number, Fmt.emax, Fmt.emin]⟩
  have h2 : Encodes ⟨8, 23⟩ 0xc0000000 (-2) := ⟨by norm_num, by norm_num [Fmt.decode, number, Fmt.emax, Fmt.emin]⟩
  have h3 : Encodes ⟨8, 23⟩ 0x80000000 0 := ⟨by norm_num, by norm_num [Fmt.decode, number, Fmt.emax, Fmt.emin]⟩
  have := C105_dot_partial (F := ⟨8, 23⟩) (by norm_num) 1 (cs := [(0x3fc00000, 0xc0000000), (0xc0000000, 0xc0000000), (0x3fc00000, 0x80000000)])
    (l := [(3 / 2, -2), (-2, -2), (3 / 2, 0)]) (.cons ⟨h1, h2⟩ (.cons ⟨h2, h2⟩ (.cons ⟨h1, h3⟩ .nil)))
    (by
      intro p hp
      simp only [List.mem_cons, List.not_mem_nil, or_false] at hp
      rcases hp with rfl | rfl | rfl
      · right; right; left; norm_num [Fmt.emin, Fmt.emax]
      · right; right; left; norm_num [Fmt.emin, Fmt.emax]
      · right; left; rfl)
    (by norm_num [dot, Fmt.emax]) (by norm_num [dot, Fmt.emax])
  have e : accLsb ⟨8, 23⟩ = -298 := by norm_num [accLsb, eminSubnormal, bias]
  rw [e] at this
  rw [this]
  norm_num [dot]

/-- a subnormal number times 1 -/
example (acc : ℕ) : ∃ n : ℤ, (accTwos ⟨8, 23⟩ 0 0x00000001 0x3f800000 acc : ℚ) = acc + (2 : ℚ) ^ (148 : ℤ) + n * 2 ^ accWidth ⟨8, 23⟩ 0 := by
  have h1 : Encodes ⟨8, 23⟩ 0x00000001 ((2 : ℚ) ^ (-149 : ℤ)) := ⟨by norm_num, by norm_num [Fmt.decode, number, Fmt.emax, Fmt.emin]⟩
  have h2 : Encodes ⟨8, 23⟩ 0x3f800000 1 := ⟨by norm_num, by norm_num [Fmt.decode, number, Fmt.emax, Fmt.emin]⟩
  obtain ⟨n, hn⟩ := C105_subnormal_wrong (F := ⟨8, 23⟩) (by norm_num) 0 h1 h2 (by rw [abs_of_pos (zp _)]; norm_num [Fmt.emin, Fmt.emax])
    (by norm_num [Fmt.emin, Fmt.emax]) acc
  refine ⟨n, ?_⟩
  have e : accLsb ⟨8, 23⟩ = -298 := by norm_num [accLsb, eminSubnormal, bias]
  have t : (2 : ℚ) ^ (-149 : ℤ) * 1 / 2 * (2 : ℚ) ^ (-(-298) : ℤ) = (2 : ℚ) ^ (148 : ℤ) := by
    rw [mul_one, div_eq_mul_inv, ← zpow_neg_one (2 : ℚ), ← zpow_add₀ (by norm_num), ← zpow_add₀ (by norm_num)]
    norm_num
  rw [hn, e, t]

end Verif.Kulisch
