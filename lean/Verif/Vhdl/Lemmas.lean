import Verif.Vhdl.Model
import Mathlib.Tactic.Linarith
import Mathlib.Tactic.Ring
import Mathlib.Tactic.Positivity
import Mathlib.Tactic.NormNum
import Mathlib.Tactic.Push
import Mathlib.Data.Int.ModEq

/-! Lemmas for the fixed-point hardware operations (property C116): a vector represents an integer modulo a power of
two. -/

namespace Verif.Vhdl

open Verif.Fixed

/-- The bits of `v` are those of the integer `N`. -/
def Rep (v : Vec) (N : ℤ) : Prop := (v.val : ℤ) = N % 2 ^ v.size

/-- `N` can be written with `n` bits, with or without sign. -/
def InR (s : Bool) (n : ℕ) (N : ℤ) : Prop :=
  if s then -2 ^ n ≤ 2 * N ∧ 2 * N < 2 ^ n else 0 ≤ N ∧ N < 2 ^ n

theorem p2 (n : ℕ) : (0 : ℤ) < 2 ^ n := by positivity

theorem rep_lt {v : Vec} {N : ℤ} (h : Rep v N) : v.val < 2 ^ v.size := by
  have : (v.val : ℤ) < 2 ^ v.size := by rw [h]; exact Int.emod_lt_of_pos _ (p2 _)
  exact_mod_cast this

theorem rep_val {v : Vec} (h : v.val < 2 ^ v.size) : Rep v v.val := by
  unfold Rep
  rw [Int.emod_eq_of_lt (by positivity) (by exact_mod_cast h)]

theorem rep_congr {v : Vec} {N M : ℤ} (h : Rep v N) (hm : N % 2 ^ v.size = M % 2 ^ v.size) : Rep v M := by
  unfold Rep at *; rw [h, hm]

theorem rep_num {v : Vec} (s : Bool) (h : v.val < 2 ^ v.size) : Rep v (v.num s) := by
  refine rep_congr (rep_val h) ?_
  unfold Vec.num Vec.sgn
  split_ifs
  · rfl
  · rw [Int.sub_emod_right]
  · rfl

theorem num_inR {v : Vec} (s : Bool) (h : v.val < 2 ^ v.size) : InR s v.size (v.num s) := by
  have h' : (v.val : ℤ) < 2 ^ v.size := by exact_mod_cast h
  unfold InR Vec.num Vec.sgn
  cases s
  · simp only [Bool.false_eq_true, if_false]; exact ⟨by positivity, h'⟩
  · simp only [if_true]
    by_cases c : 2 * v.val < 2 ^ v.size
    · have c' : (2 : ℤ) * v.val < 2 ^ v.size := by exact_mod_cast c
      rw [if_pos c]
      have : (0 : ℤ) ≤ v.val := by positivity
      exact ⟨by linarith [p2 v.size], c'⟩
    · have c' : (2 : ℤ) ^ v.size ≤ 2 * v.val := by exact_mod_cast Nat.le_of_not_lt c
      rw [if_neg c]
      exact ⟨by linarith, by linarith⟩

theorem num_of_rep {v : Vec} {N : ℤ} {s : Bool} (h : Rep v N) (hr : InR s v.size N) : v.num s = N := by
  have hl := rep_lt h
  have hl' : (v.val : ℤ) < 2 ^ v.size := by exact_mod_cast hl
  unfold Rep at h
  unfold InR at hr
  unfold Vec.num Vec.sgn
  cases s
  · simp only [Bool.false_eq_true, if_false] at *
    rw [h, Int.emod_eq_of_lt hr.1 hr.2]
  · simp only [if_true] at *
    by_cases n0 : 0 ≤ N
    · rw [Int.emod_eq_of_lt n0 (by linarith)] at h
      have c : 2 * v.val < 2 ^ v.size := by
        have : (2 : ℤ) * v.val < 2 ^ v.size := by rw [h]; exact hr.2
        exact_mod_cast this
      rw [if_pos c, h]
    · have e : N % 2 ^ v.size = N + 2 ^ v.size := by
        rw [← Int.add_emod_right, Int.emod_eq_of_lt (by linarith [hr.1]) (by linarith)]
      rw [e] at h
      have c : ¬ 2 * v.val < 2 ^ v.size := by
        intro c
        have : (2 : ℤ) * v.val < 2 ^ v.size := by exact_mod_cast c
        linarith [hr.1]
      rw [if_neg c, h]; ring

theorem rep_zext {v : Vec} (s : ℕ) (h : v.val < 2 ^ v.size) : Rep (zext v s) v.val := by
  unfold Rep zext
  have : (v.val : ℤ) < 2 ^ (v.size + s) := by
    have h1 : (v.val : ℤ) < 2 ^ v.size := by exact_mod_cast h
    have h2 : (2 : ℤ) ^ v.size ≤ 2 ^ (v.size + s) := pow_le_pow_right₀ (by norm_num) (by omega)
    linarith
  rw [Int.emod_eq_of_lt (by positivity) this]

theorem rep_sext {v : Vec} (s : ℕ) (h : v.val < 2 ^ v.size) : Rep (sext v s) v.sgn := by
  have h1 : (v.val : ℤ) < 2 ^ v.size := by exact_mod_cast h
  have h2 : (2 : ℤ) ^ v.size ≤ 2 ^ (v.size + s) := pow_le_pow_right₀ (by norm_num) (by omega)
  unfold Rep sext Vec.sgn
  by_cases c : 2 * v.val < 2 ^ v.size
  · simp only [if_pos c, Nat.add_zero]
    rw [Int.emod_eq_of_lt (by positivity) (by linarith)]
  · simp only [if_neg c]
    have e : ((2 ^ s - 1 : ℕ) : ℤ) = 2 ^ s - 1 := by
      rw [Nat.cast_sub Nat.one_le_two_pow]; push_cast; ring
    have hp := pow_add (2 : ℤ) v.size s
    rw [← Int.add_emod_right, Int.emod_eq_of_lt]
    · push_cast; rw [e, hp]; ring
    · have : (0 : ℤ) ≤ v.val := by positivity
      linarith
    · linarith

theorem mul_emod_pow (N : ℤ) (n s : ℕ) : N % 2 ^ n * 2 ^ s = N * 2 ^ s % 2 ^ (n + s) := by
  rw [pow_add, mul_comm N, mul_comm ((2 : ℤ) ^ n), Int.mul_emod_mul_of_pos _ _ (p2 s), mul_comm]

theorem rep_rzext {v : Vec} {N : ℤ} (s : ℕ) (h : Rep v N) : Rep (rzext v s) (N * 2 ^ s) := by
  unfold Rep rzext at *
  push_cast
  rw [h, mul_emod_pow]

theorem ediv_emod_pow (N : ℤ) (k m : ℕ) : N % 2 ^ (k + m) / 2 ^ k = N / 2 ^ k % 2 ^ m := by
  have hk := p2 k
  have h1 : N = N % 2 ^ (k + m) + 2 ^ k * (2 ^ m * (N / 2 ^ (k + m))) := by
    have := Int.emod_add_mul_ediv N (2 ^ (k + m))
    rw [pow_add] at *
    linarith
  have h2 : N / 2 ^ k = N % 2 ^ (k + m) / 2 ^ k + 2 ^ m * (N / 2 ^ (k + m)) := by
    conv_lhs => rw [h1]
    rw [Int.add_mul_ediv_left _ _ hk.ne']
  rw [h2, Int.add_mul_emod_self_left]
  refine (Int.emod_eq_of_lt ?_ ?_).symm
  · exact Int.ediv_nonneg (Int.emod_nonneg _ (p2 _).ne') hk.le
  · apply Int.ediv_lt_of_lt_mul hk
    rw [← pow_add, Nat.add_comm m k]
    exact Int.emod_lt_of_pos _ (p2 _)

theorem emod_pow_le (N : ℤ) {m n : ℕ} (h : m ≤ n) : N % 2 ^ n % 2 ^ m = N % 2 ^ m :=
  Int.emod_emod_of_dvd _ (pow_dvd_pow 2 h)

theorem rep_low {v : Vec} {N : ℤ} (h : Rep v N) {n : ℕ} (hn : 0 < n) (hv : n ≤ v.size) :
    ∃ w, sel v 0 ((n : ℤ) - 1) = some w ∧ w.size = n ∧ Rep w N := by
  have e : ((n : ℤ) - 1 - 0 + 1).toNat = n := by omega
  refine ⟨⟨n, v.val % 2 ^ n⟩, ?_, rfl, ?_⟩
  · unfold sel
    rw [if_pos ⟨le_refl _, by omega, by omega⟩, e]
    simp
  · unfold Rep at *
    push_cast
    rw [h, emod_pow_le _ hv]

theorem rep_high {v : Vec} {N : ℤ} (h : Rep v N) {k : ℕ} (hv : k < v.size) :
    ∃ w, sel v k ((v.size : ℤ) - 1) = some w ∧ w.size = v.size - k ∧ Rep w (N / 2 ^ k) := by
  have e : ((v.size : ℤ) - 1 - k + 1).toNat = v.size - k := by omega
  refine ⟨⟨v.size - k, v.val / 2 ^ k % 2 ^ (v.size - k)⟩, ?_, rfl, ?_⟩
  · unfold sel
    rw [if_pos ⟨by omega, by omega, by omega⟩, e]
    simp
  · unfold Rep at *
    push_cast
    rw [h]
    have hs : v.size = k + (v.size - k) := by omega
    conv_lhs => rw [hs]
    simp only [Nat.add_sub_cancel_left]
    rw [ediv_emod_pow, Int.emod_emod_of_dvd _ (dvd_refl _)]

theorem rep_add {a b : Vec} {A B : ℤ} (ha : Rep a A) (hb : Rep b B) (hs : a.size = b.size) :
    Rep (addV a b) (A + B) := by
  unfold Rep addV at *
  push_cast
  rw [ha, hb, ← hs, ← Int.add_emod]

theorem rep_sub {a b : Vec} {A B : ℤ} (ha : Rep a A) (hb : Rep b B) (hs : a.size = b.size) :
    Rep (subV a b) (A - B) := by
  have hlt := rep_lt hb
  unfold Rep subV at *
  have hle : b.val ≤ a.val + 2 ^ a.size := by rw [hs]; omega
  push_cast [Nat.cast_sub hle]
  rw [ha, hb, ← hs, add_sub_right_comm, Int.add_emod_right, ← Int.sub_emod]

theorem rep_neg {a : Vec} {A : ℤ} (ha : Rep a A) : Rep (negV a) (-A) := by
  have hlt := rep_lt ha
  unfold Rep negV at *
  have hle : a.val ≤ 2 ^ a.size - 1 := by omega
  push_cast [Nat.cast_sub hle, Nat.cast_sub (Nat.one_le_two_pow (n := a.size))]
  rw [ha, show (2 : ℤ) ^ a.size - 1 - A % 2 ^ a.size + 1 = -(A % 2 ^ a.size) + 2 ^ a.size by ring,
    Int.add_emod_right]
  exact Int.ModEq.neg (Int.mod_modEq A (2 ^ a.size))

theorem rep_mul (sa sb : Bool) (a b : Vec) : Rep (mulV sa sb a b) (a.num sa * b.num sb) := by
  unfold Rep mulV
  exact Int.toNat_of_nonneg (Int.emod_nonneg _ (p2 _).ne')

/-! ## Numbers and their codes -/

theorem zpow_add2 (a b : ℤ) : (2 : ℚ) ^ (a + b) = 2 ^ a * 2 ^ b := zpow_add₀ (by norm_num) a b

theorem floor_up (I : ℤ) (s : ℕ) : ⌊(I : ℚ) * (2 : ℚ) ^ (s : ℤ)⌋ = I * 2 ^ s := by
  rw [show (I : ℚ) * (2 : ℚ) ^ (s : ℤ) = ((I * 2 ^ s : ℤ) : ℚ) by push_cast; rw [zpow_natCast], Int.floor_intCast]

theorem floor_down (I : ℤ) (s : ℕ) : ⌊(I : ℚ) * (2 : ℚ) ^ (-(s : ℤ))⌋ = I / 2 ^ s := by
  have h := Rat.floor_intCast_div_natCast I (2 ^ s)
  rw [zpow_neg, zpow_natCast, ← div_eq_mul_inv]
  push_cast at h
  exact h

/-- The code, in the fraction bits of the result, of an integer that counts units of `2^(-rf)`. -/
theorem code_shift (I rf fo : ℤ) :
    ⌊(I : ℚ) * (2 : ℚ) ^ (-rf) * (2 : ℚ) ^ fo⌋ =
      if fo - rf ≥ 0 then I * 2 ^ (fo - rf).toNat else I / 2 ^ (rf - fo).toNat := by
  rw [mul_assoc, ← zpow_add2]
  split_ifs with h
  · rw [show -rf + fo = ((fo - rf).toNat : ℤ) by omega, floor_up]
  · rw [show -rf + fo = -((rf - fo).toNat : ℤ) by omega, floor_down]

theorem val_zpow_lt {N fr i : ℤ} {n : ℕ} (hn : (n : ℤ) = i + fr) :
    (N : ℚ) * (2 : ℚ) ^ (-fr) < (2 : ℚ) ^ i ↔ N < 2 ^ n := by
  have e : (2 : ℚ) ^ i = (2 : ℚ) ^ n * (2 : ℚ) ^ (-fr) := by
    rw [← zpow_natCast, ← zpow_add2, hn]; congr 1; ring
  rw [e, mul_lt_mul_iff_left₀ (by positivity)]
  constructor <;> intro h <;> exact_mod_cast h

theorem val_zpow_half_lt {N fr i : ℤ} {n : ℕ} (hn : (n : ℤ) = i + fr) :
    (N : ℚ) * (2 : ℚ) ^ (-fr) < (2 : ℚ) ^ (i - 1) ↔ 2 * N < 2 ^ n := by
  have e : (2 : ℚ) ^ i = 2 * (2 : ℚ) ^ (i - 1) := by
    rw [← zpow_one_add₀ (by norm_num)]; congr 1; ring
  rw [← val_zpow_lt hn, e]
  push_cast
  rw [mul_assoc, mul_lt_mul_iff_right₀ (by norm_num)]

theorem val_zpow_half_le {N fr i : ℤ} {n : ℕ} (hn : (n : ℤ) = i + fr) :
    -(2 : ℚ) ^ (i - 1) ≤ (N : ℚ) * (2 : ℚ) ^ (-fr) ↔ -2 ^ n ≤ 2 * N := by
  have e : (2 : ℚ) ^ (i - 1) * 2 = (2 : ℚ) ^ n * (2 : ℚ) ^ (-fr) := by
    rw [← zpow_natCast, ← zpow_add2, hn, ← zpow_add_one₀ (by norm_num)]; congr 1; ring
  have e2 : -(2 : ℚ) ^ (i - 1) ≤ (N : ℚ) * (2 : ℚ) ^ (-fr) ↔
      -(2 : ℚ) ^ n * (2 : ℚ) ^ (-fr) ≤ (2 * N : ℚ) * (2 : ℚ) ^ (-fr) := by
    constructor <;> intro h <;> nlinarith
  rw [e2, mul_le_mul_iff_left₀ (by positivity)]
  constructor <;> intro h <;> exact_mod_cast h

/-- A format holds `N · 2^(-frac)` when `N` can be written in its bits. -/
theorem holds_iff {f : Fmt} {n : ℕ} (hn : (n : ℤ) = f.int + f.frac) (N : ℤ) :
    f.Holds ((N : ℚ) * (2 : ℚ) ^ (-f.frac)) ↔ InR f.signed n N := by
  unfold Fmt.Holds InR
  cases f.signed
  · simp only [Bool.false_eq_true, if_false]
    rw [val_zpow_lt hn]
    constructor
    · rintro ⟨_, h0, h1⟩
      refine ⟨?_, h1⟩
      by_contra c
      have : (N : ℚ) < 0 := by exact_mod_cast not_le.mp c
      have hp : (0 : ℚ) < 2 ^ (-f.frac) := by positivity
      nlinarith
    · rintro ⟨h0, h1⟩
      have : (0 : ℚ) ≤ N := by exact_mod_cast h0
      exact ⟨⟨N, rfl⟩, by positivity, h1⟩
  · simp only [if_true]
    rw [val_zpow_half_lt hn, val_zpow_half_le hn]
    constructor
    · rintro ⟨_, h⟩; exact h
    · intro h; exact ⟨⟨N, rfl⟩, h⟩

/-- A vector that has the bits of `N`, when the format holds the number with the code `N`. -/
theorem stands_of_rep {o : Fmt} {r : Vec} {N : ℤ} (hs : (r.size : ℤ) = o.int + o.frac) (h0 : 0 < r.size)
    (h : Rep r N) (hh : o.Holds ((N : ℚ) * (2 : ℚ) ^ (-o.frac))) :
    Stands o r ((N : ℚ) * (2 : ℚ) ^ (-o.frac)) := by
  refine ⟨⟨hs, h0, rep_lt h⟩, ?_⟩
  unfold value
  rw [num_of_rep h ((holds_iff hs N).mp hh)]

/-- `adapt_fixed_optree` keeps the number that the intermediate vector represents. -/
theorem adapt_rep {raw : Vec} {I ri rf : ℤ} {o : Fmt} (h : Rep raw I) (hs : (raw.size : ℤ) = ri + rf)
    (ho : 0 < o.int + o.frac) (hi : 0 < o.int + rf) (hr : ri < o.int → InR o.signed raw.size I) :
    ∃ r, adapt raw ri rf o = some r ∧ (r.size : ℤ) = o.int + o.frac ∧
      Rep r ⌊(I : ℚ) * (2 : ℚ) ^ (-rf) * (2 : ℚ) ^ o.frac⌋ := by
  have hlt := rep_lt h
  have step : ∃ l, (if o.int - ri ≥ 0 then some ((if o.signed then sext else zext) raw (o.int - ri).toNat)
      else sel raw 0 (rf + ri - 1 + (o.int - ri))) = some l ∧ (l.size : ℤ) = o.int + rf ∧ Rep l I := by
    by_cases c : o.int - ri ≥ 0
    · rw [if_pos c]
      refine ⟨_, rfl, ?_, ?_⟩
      · cases o.signed <;> simp [sext, zext] <;> omega
      · by_cases e : o.int = ri
        · have z : (o.int - ri).toNat = 0 := by omega
          rw [z]
          cases o.signed
          · exact h
          · unfold Rep at *; simp [sext]; exact h
        · have n := num_of_rep h (hr (by omega))
          cases hsg : o.signed
          · rw [hsg] at n
            simp only [Vec.num, Bool.false_eq_true, if_false] at n ⊢
            rw [← n]; exact rep_zext _ hlt
          · rw [hsg] at n
            simp only [Vec.num, if_true] at n ⊢
            rw [← n]; exact rep_sext _ hlt
    · rw [if_neg c]
      obtain ⟨w, h1, h2, h3⟩ := rep_low h (n := (o.int + rf).toNat) (by omega) (by omega)
      refine ⟨w, ?_, by omega, h3⟩
      rw [← h1]; congr 1; omega
  obtain ⟨l, h1, h2, h3⟩ := step
  unfold adapt
  simp only [h1, Option.bind_some]
  rw [code_shift]
  by_cases c : o.frac - rf ≥ 0
  · rw [if_pos c, if_pos c]
    exact ⟨_, rfl, (by simp only [rzext]; push_cast; omega), rep_rzext _ h3⟩
  · rw [if_neg c, if_neg c]
    obtain ⟨w, e1, e2, e3⟩ := rep_high h3 (k := (rf - o.frac).toNat) (by omega)
    refine ⟨w, ?_, by omega, e3⟩
    rw [← e1]; congr 1; omega

/-- `fixed_conversion_modifier` keeps the number, up to the dropped fraction bits. -/
theorem conv_rep {f o : Fmt} {v : Vec} (hv : Is f v) (ho : 0 < o.int + o.frac) (hi : 0 < o.int + f.frac) :
    ∃ r, conv f o v = some r ∧ (r.size : ℤ) = o.int + o.frac ∧ Rep r ⌊value f v * (2 : ℚ) ^ o.frac⌋ := by
  obtain ⟨hs, h0, hlt⟩ := hv
  obtain ⟨I, hI⟩ : ∃ I, I = v.num f.signed := ⟨_, rfl⟩
  have h : Rep v I := hI ▸ rep_num _ hlt
  have step : ∃ l, (if o.int - f.int > 0 then some ((if f.signed then sext else zext) v (o.int - f.int).toNat)
      else if o.int - f.int < 0 then sel v 0 (v.size - 1 + (o.int - f.int)) else some v) = some l ∧
      (l.size : ℤ) = o.int + f.frac ∧ Rep l I := by
    by_cases c : o.int - f.int > 0
    · rw [if_pos c]
      refine ⟨_, rfl, ?_, ?_⟩
      · cases f.signed <;> simp [sext, zext] <;> omega
      · rw [hI]
        cases f.signed
        · exact rep_zext _ hlt
        · exact rep_sext _ hlt
    · rw [if_neg c]
      by_cases c2 : o.int - f.int < 0
      · rw [if_pos c2]
        obtain ⟨w, h1, h2, h3⟩ := rep_low h (n := (o.int + f.frac).toNat) (by omega) (by omega)
        refine ⟨w, ?_, by omega, h3⟩
        rw [← h1]; congr 1; omega
      · rw [if_neg c2]
        exact ⟨v, rfl, by omega, h⟩
  obtain ⟨l, h1, h2, h3⟩ := step
  unfold conv
  simp only [h1, Option.bind_some]
  unfold value
  rw [← hI, code_shift]
  by_cases c : o.frac - f.frac > 0
  · rw [if_pos c, if_pos (by omega)]
    exact ⟨_, rfl, (by simp only [rzext]; push_cast; omega), rep_rzext _ h3⟩
  · rw [if_neg c]
    by_cases c2 : o.frac - f.frac < 0
    · rw [if_pos c2, if_neg (by omega)]
      obtain ⟨w, e1, e2, e3⟩ := rep_high h3 (k := (f.frac - o.frac).toNat) (by omega)
      refine ⟨w, ?_, by omega, e3⟩
      rw [← e1]; congr 1; omega
    · rw [if_neg c2, if_pos (by omega)]
      refine ⟨l, rfl, by omega, ?_⟩
      rw [show (o.frac - f.frac).toNat = 0 by omega, pow_zero, mul_one]; exact h3

theorem inR_scale {s : Bool} {n : ℕ} {N : ℤ} (k : ℕ) (h : InR s n N) : InR s (n + k) (N * 2 ^ k) := by
  have hp := p2 k
  unfold InR at *
  rw [pow_add]
  cases s
  · simp only [Bool.false_eq_true, if_false] at *
    exact ⟨mul_nonneg h.1 hp.le, mul_lt_mul_of_pos_right h.2 hp⟩
  · simp only [if_true] at *
    constructor <;> nlinarith [h.1, h.2]

/-- An operand of the addition. -/
theorem operand_rep {f : Fmt} {ri rf : ℤ} {v : Vec} (hv : Is f v) (hf : f.frac ≤ rf) (hi : f.int ≤ ri) :
    ((operand f ri rf v).size : ℤ) = ri + rf ∧
      Rep (operand f ri rf v) (v.num f.signed * 2 ^ (rf - f.frac).toNat) := by
  obtain ⟨hs, h0, hlt⟩ := hv
  have hr := rep_rzext (rf - f.frac).toNat (rep_num f.signed hlt)
  have hrange : InR f.signed (rzext v (rf - f.frac).toNat).size (v.num f.signed * 2 ^ (rf - f.frac).toNat) := by
    exact inR_scale _ (num_inR f.signed hlt)
  have hn := num_of_rep hr hrange
  have hl := rep_lt hr
  unfold operand
  constructor
  · cases f.signed <;> simp [sext, zext, rzext] <;> omega
  · rw [← hn]
    cases f.signed
    · exact rep_zext _ hl
    · exact rep_sext _ hl

/-- The range of an operand of the addition, in units of the last fraction bit of the intermediate result. -/
theorem operand_range {f : Fmt} {rf : ℤ} {v : Vec} (hv : Is f v) (hf : f.frac ≤ rf) :
    InR f.signed (f.int + rf).toNat (v.num f.signed * 2 ^ (rf - f.frac).toNat) := by
  obtain ⟨hs, h0, hlt⟩ := hv
  have e : (f.int + rf).toNat = v.size + (rf - f.frac).toNat := by omega
  rw [e]
  exact inR_scale _ (num_inR f.signed hlt)

theorem operand_value {f : Fmt} {rf : ℤ} {v : Vec} (hf : f.frac ≤ rf) :
    value f v = ((v.num f.signed * 2 ^ (rf - f.frac).toNat : ℤ) : ℚ) * (2 : ℚ) ^ (-rf) := by
  unfold value
  push_cast
  rw [mul_assoc, ← zpow_natCast, ← zpow_add2]
  congr 2
  omega

end Verif.Vhdl
