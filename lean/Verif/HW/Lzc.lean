import Verif.HW.Spec
import Mathlib.Tactic.Ring
import Mathlib.Tactic.Linarith
import Mathlib.Data.Nat.Log
import Mathlib.Data.Nat.Bitwise

/-!
# C34, C35: software and hardware leading-zero counters
-/

namespace Verif.HW

/-! ## C34: `generate_count_leading_zeros` -/

/-- opt/ml_blocks.py:57-91, on 32-bit registers (the comment at 53-56 restricts the sequence to them).  The operators
have no explicit format in the code; they are taken in the 32-bit format of the operand. -/
def swClz (vx : BitVec 32) : BitVec 32 :=
  let y := - (vx >>> 16)
  let m := (y.sshiftRight 16) &&& 16#32
  let n := 16#32 - m
  let vx2 := vx >>> m
  let y := vx2 - 0x100#32
  let m := (y >>> 16) &&& 8#32
  let n := n + m
  let vx3 := vx2 <<< m
  let y := vx3 - 0x1000#32
  let m := (y >>> 16) &&& 4#32
  let n := n + m
  let vx4 := vx3 <<< m
  let y := vx4 - 0x4000#32
  let m := (y >>> 16) &&& 2#32
  let n := n + m
  let vx5 := vx4 <<< m
  let y := vx5 >>> 14
  let m := y &&& ~~~ (y >>> 1)
  n + 2#32 - m

/-- One halving step on a value that fits in 16 bits. -/
theorem clz_step (x : BitVec 32) (hx : x.toNat < 2 ^ 16) (c : BitVec 32) (hc0 : 0 < c.toNat) (hc : c.toNat < 2 ^ 16)
    (s : BitVec 32) (hs : (0xFFFF#32 : BitVec 32) &&& s = s) :
    ((x - c) >>> 16) &&& s = if x.toNat < c.toNat then s else 0#32 := by
  split
  · next h =>
    have : (x - c) >>> 16 = 0xFFFF#32 := by
      apply BitVec.eq_of_toNat_eq
      rw [BitVec.toNat_ushiftRight, BitVec.toNat_sub, Nat.shiftRight_eq_div_pow]
      have : (2 ^ 32 - c.toNat + x.toNat) % 2 ^ 32 = 2 ^ 32 - (c.toNat - x.toNat) := by omega
      rw [this]
      show _ = 65535
      omega
    rw [this, hs]
  · next h =>
    have : (x - c) >>> 16 = 0#32 := by
      apply BitVec.eq_of_toNat_eq
      rw [BitVec.toNat_ushiftRight, BitVec.toNat_sub, Nat.shiftRight_eq_div_pow]
      have : (2 ^ 32 - c.toNat + x.toNat) % 2 ^ 32 = x.toNat - c.toNat := by omega
      rw [this]
      show _ = 0
      omega
    rw [this]
    simp

theorem shl_toNat (x : BitVec 32) (k : ℕ) (s : BitVec 32) (hs : s.toNat = k) (h : x.toNat * 2 ^ k < 2 ^ 32) :
    (x <<< s).toNat = x.toNat * 2 ^ k := by
  rw [BitVec.shiftLeft_eq', BitVec.toNat_shiftLeft, hs, Nat.shiftLeft_eq, Nat.mod_eq_of_lt h]

/-- The part of the sequence after the first step. -/
def swClz16 (n vx2 : BitVec 32) : BitVec 32 :=
  let y := vx2 - 0x100#32
  let m := (y >>> 16) &&& 8#32
  let n := n + m
  let vx3 := vx2 <<< m
  let y := vx3 - 0x1000#32
  let m := (y >>> 16) &&& 4#32
  let n := n + m
  let vx4 := vx3 <<< m
  let y := vx4 - 0x4000#32
  let m := (y >>> 16) &&& 2#32
  let n := n + m
  let vx5 := vx4 <<< m
  let y := vx5 >>> 14
  let m := y &&& ~~~ (y >>> 1)
  n + 2#32 - m

theorem clz_last (x : BitVec 32) (hx : x.toNat < 2 ^ 16) :
    (x >>> 14) &&& ~~~ ((x >>> 14) >>> 1) =
      if x.toNat < 2 ^ 14 then 0#32 else if x.toNat < 2 ^ 15 then 1#32 else 2#32 := by
  have ht : (x >>> 14).toNat = x.toNat / 2 ^ 14 := by rw [BitVec.toNat_ushiftRight, Nat.shiftRight_eq_div_pow]
  split
  · have : x >>> 14 = 0#32 := BitVec.eq_of_toNat_eq (by rw [ht]; show _ = 0; omega)
    rw [this]; rfl
  · split
    · have : x >>> 14 = 1#32 := BitVec.eq_of_toNat_eq (by rw [ht]; show _ = 1; omega)
      rw [this]; rfl
    · have : x >>> 14 = 2#32 ∨ x >>> 14 = 3#32 := by
        by_cases h : x.toNat / 2 ^ 14 = 2
        · exact Or.inl (BitVec.eq_of_toNat_eq (by rw [ht]; exact h))
        · exact Or.inr (BitVec.eq_of_toNat_eq (by rw [ht]; show _ = 3; omega))
      rcases this with h | h <;> rw [h] <;> rfl

theorem swClz16_spec (n x : BitVec 32) (hx : x.toNat < 2 ^ 16) :
    ∃ k : ℕ, IsLzc 16 x.toNat k ∧ swClz16 n x = n + BitVec.ofNat 32 k := by
  unfold swClz16
  dsimp only
  rw [clz_step x hx 0x100#32 (by decide) (by decide) 8#32 (by decide)]
  obtain ⟨x3, m3, hm3, e3⟩ : ∃ x3 m3 : BitVec 32, (if x.toNat < (256#32).toNat then 8#32 else 0#32) = m3 ∧
      x <<< (if x.toNat < (256#32).toNat then 8#32 else 0#32) = x3 := ⟨_, _, rfl, rfl⟩
  have h3 : (x.toNat < 256 ∧ m3 = 8#32 ∧ x3.toNat = x.toNat * 256) ∨ (¬ x.toNat < 256 ∧ m3 = 0#32 ∧ x3.toNat = x.toNat) := by
    by_cases h : x.toNat < 256
    · rw [if_pos (show x.toNat < (256#32).toNat from h)] at hm3 e3
      exact Or.inl ⟨h, hm3.symm, (by rw [← e3, shl_toNat x 8 _ rfl (by omega)]; omega)⟩
    · rw [if_neg (show ¬ x.toNat < (256#32).toNat from h)] at hm3 e3
      exact Or.inr ⟨h, hm3.symm, by rw [← e3, shl_toNat x 0 _ rfl (by omega)]; omega⟩
  rw [hm3] at e3 ⊢
  rw [e3]
  clear hm3
  have hx3 : x3.toNat < 2 ^ 16 := by omega
  rw [clz_step x3 hx3 0x1000#32 (by decide) (by decide) 4#32 (by decide)]
  obtain ⟨x4, m4, hm4, e4⟩ : ∃ x4 m4 : BitVec 32, (if x3.toNat < (4096#32).toNat then 4#32 else 0#32) = m4 ∧
      x3 <<< (if x3.toNat < (4096#32).toNat then 4#32 else 0#32) = x4 := ⟨_, _, rfl, rfl⟩
  have h4 : (x3.toNat < 4096 ∧ m4 = 4#32 ∧ x4.toNat = x3.toNat * 16) ∨ (¬ x3.toNat < 4096 ∧ m4 = 0#32 ∧ x4.toNat = x3.toNat) := by
    by_cases h : x3.toNat < 4096
    · rw [if_pos (show x3.toNat < (4096#32).toNat from h)] at hm4 e4
      exact Or.inl ⟨h, hm4.symm, (by rw [← e4, shl_toNat x3 4 _ rfl (by omega)]; omega)⟩
    · rw [if_neg (show ¬ x3.toNat < (4096#32).toNat from h)] at hm4 e4
      exact Or.inr ⟨h, hm4.symm, by rw [← e4, shl_toNat x3 0 _ rfl (by omega)]; omega⟩
  rw [hm4] at e4 ⊢
  rw [e4]
  clear hm4
  have hx4 : x4.toNat < 2 ^ 16 := by omega
  rw [clz_step x4 hx4 0x4000#32 (by decide) (by decide) 2#32 (by decide)]
  obtain ⟨x5, m5, hm5, e5⟩ : ∃ x5 m5 : BitVec 32, (if x4.toNat < (16384#32).toNat then 2#32 else 0#32) = m5 ∧
      x4 <<< (if x4.toNat < (16384#32).toNat then 2#32 else 0#32) = x5 := ⟨_, _, rfl, rfl⟩
  have h5 : (x4.toNat < 16384 ∧ m5 = 2#32 ∧ x5.toNat = x4.toNat * 4) ∨ (¬ x4.toNat < 16384 ∧ m5 = 0#32 ∧ x5.toNat = x4.toNat) := by
    by_cases h : x4.toNat < 16384
    · rw [if_pos (show x4.toNat < (16384#32).toNat from h)] at hm5 e5
      exact Or.inl ⟨h, hm5.symm, (by rw [← e5, shl_toNat x4 2 _ rfl (by omega)]; omega)⟩
    · rw [if_neg (show ¬ x4.toNat < (16384#32).toNat from h)] at hm5 e5
      exact Or.inr ⟨h, hm5.symm, by rw [← e5, shl_toNat x4 0 _ rfl (by omega)]; omega⟩
  rw [hm5] at e5 ⊢
  rw [e5]
  clear hm5
  have hx5 : x5.toNat < 2 ^ 16 := by omega
  rw [clz_last x5 hx5]
  generalize x.toNat = v at *
  clear e3 e4 e5
  rcases h3 with ⟨a3, rfl, b3⟩ | ⟨a3, rfl, b3⟩ <;> rcases h4 with ⟨a4, rfl, b4⟩ | ⟨a4, rfl, b4⟩ <;>
  rcases h5 with ⟨a5, rfl, b5⟩ | ⟨a5, rfl, b5⟩ <;> rw [b3] at * <;> rw [b4] at * <;> rw [b5] at * <;> clear b3 b4 b5
  all_goals
    split
    · first
        | (exfalso; omega)
        | exact ⟨16, ⟨by omega, by omega, by omega⟩, by bv_omega⟩
    · split
      · first
          | (exfalso; omega)
          | exact ⟨15, ⟨by omega, by omega, by omega⟩, by bv_omega⟩
          | exact ⟨13, ⟨by omega, by omega, by omega⟩, by bv_omega⟩
          | exact ⟨11, ⟨by omega, by omega, by omega⟩, by bv_omega⟩
          | exact ⟨9, ⟨by omega, by omega, by omega⟩, by bv_omega⟩
          | exact ⟨7, ⟨by omega, by omega, by omega⟩, by bv_omega⟩
          | exact ⟨5, ⟨by omega, by omega, by omega⟩, by bv_omega⟩
          | exact ⟨3, ⟨by omega, by omega, by omega⟩, by bv_omega⟩
          | exact ⟨1, ⟨by omega, by omega, by omega⟩, by bv_omega⟩
      · first
          | (exfalso; omega)
          | exact ⟨14, ⟨by omega, by omega, by omega⟩, by bv_omega⟩
          | exact ⟨12, ⟨by omega, by omega, by omega⟩, by bv_omega⟩
          | exact ⟨10, ⟨by omega, by omega, by omega⟩, by bv_omega⟩
          | exact ⟨8, ⟨by omega, by omega, by omega⟩, by bv_omega⟩
          | exact ⟨6, ⟨by omega, by omega, by omega⟩, by bv_omega⟩
          | exact ⟨4, ⟨by omega, by omega, by omega⟩, by bv_omega⟩
          | exact ⟨2, ⟨by omega, by omega, by omega⟩, by bv_omega⟩
          | exact ⟨0, ⟨by omega, by omega, by omega⟩, by bv_omega⟩

/-- **C34.**  For each of the 2^32 inputs, the sequence returns the number of leading zeros. -/
theorem C34_sw_clz (x : BitVec 32) : IsLzc 32 x.toNat (swClz x).toNat := by
  have hsh : (x >>> 16).toNat = x.toNat / 2 ^ 16 := by rw [BitVec.toNat_ushiftRight, Nat.shiftRight_eq_div_pow]
  have hlt := x.isLt
  by_cases h : x.toNat < 2 ^ 16
  · have h0 : x >>> 16 = 0#32 := BitVec.eq_of_toNat_eq (by rw [hsh]; show _ = 0; omega)
    have he : swClz x = swClz16 16#32 x := by
      unfold swClz swClz16
      rw [h0]
      have hm : (-(0#32)).sshiftRight 16 &&& 16#32 = 0#32 := by decide
      have hs : x >>> (0#32) = x := by simp
      dsimp only
      rw [hm, hs]
      rfl
    obtain ⟨k, hk, hr⟩ := swClz16_spec 16#32 x h
    rw [he, hr]
    have hk16 := hk.1
    have ht : (16#32 + BitVec.ofNat 32 k).toNat = 16 + k := by
      have e : (BitVec.ofNat 32 k).toNat = k := by
        rw [BitVec.toNat_ofNat]
        exact Nat.mod_eq_of_lt (by omega)
      rw [BitVec.toNat_add, e]
      show (16 + k) % 2 ^ 32 = _
      omega
    rw [ht]
    refine ⟨by omega, ?_, ?_⟩
    · have := hk.2.1
      rwa [show 32 - (16 + k) = 16 - k from by omega]
    · intro h'
      have := hk.2.2 (by omega)
      rwa [show 32 - 1 - (16 + k) = 16 - 1 - k from by omega]
  · have hy : (-(x >>> 16)).sshiftRight 16 &&& 16#32 = 16#32 := by
      have hn : (-(x >>> 16)).toInt = - ((x.toNat / 2 ^ 16 : ℕ) : ℤ) := by
        have e : (-(x >>> 16)).toNat = 2 ^ 32 - x.toNat / 2 ^ 16 := by
          rw [BitVec.toNat_neg, hsh]
          omega
        rw [BitVec.toInt_eq_toNat_cond, e]
        rw [if_neg (by omega)]
        omega
      have : (-(x >>> 16)).sshiftRight 16 = -1#32 := by
        apply BitVec.eq_of_toInt_eq
        rw [BitVec.toInt_sshiftRight, hn, Int.shiftRight_eq_div_pow]
        show _ = -1
        omega
      rw [this]
      decide
    have hx2 : (x >>> (16#32)).toNat = x.toNat / 2 ^ 16 := by
      rw [BitVec.ushiftRight_eq', ← hsh]
      rfl
    have he : swClz x = swClz16 0#32 (x >>> (16#32)) := by
      unfold swClz swClz16
      dsimp only
      rw [hy]
      rfl
    obtain ⟨k, hk, hr⟩ := swClz16_spec 0#32 (x >>> (16#32)) (by rw [hx2]; omega)
    rw [he, hr]
    rw [hx2] at hk
    have hk16 := hk.1
    have hk15 : k < 16 := by
      by_contra hc
      have : k = 16 := by omega
      subst this
      have := hk.2.1
      simp at this
      omega
    have ht : (0#32 + BitVec.ofNat 32 k).toNat = k := by
      rw [BitVec.zero_add, BitVec.toNat_ofNat, Nat.mod_eq_of_lt (by omega)]
    rw [ht]
    have hp : ∀ j, 2 ^ (j + 16) = 2 ^ j * 65536 := fun j => by rw [pow_add]; rfl
    refine ⟨by omega, ?_, ?_⟩
    · have := hk.2.1
      rw [show 32 - k = (16 - k) + 16 from by omega, hp]
      omega
    · intro _
      have := hk.2.2 hk15
      rw [show 32 - 1 - k = (16 - 1 - k) + 16 from by omega, hp]
      omega

example : swClz 0x00012345#32 = 15#32 ∧ swClz 0#32 = 32#32 ∧ swClz 0xFFFFFFFF#32 = 0#32 := by decide

/-! ## C35: the hardware counter -/

/-- `get_lzc_output_width` (lzc.py:102-109). -/
def lzcOutputWidth (width : ℕ) : ℕ := Nat.log 2 width + 1

/-- The process of `generate_scheme` (lzc.py:126-179): start from `width`, then for `i` from 0 to `width - 1`
overwrite by `width - 1 - i` when bit `i` is set.  Integers are converted to the output vector modulo its size. -/
def lzcLoop (width : ℕ) (vx : BitVec width) : ℕ → ℕ
  | 0 => width % 2 ^ lzcOutputWidth width
  | i + 1 => if vx.getLsbD i = true then (width - 1 - i) % 2 ^ lzcOutputWidth width else lzcLoop width vx i

def hwLzc (width : ℕ) (vx : BitVec width) : ℕ := lzcLoop width vx width

theorem lzc_mod {width k : ℕ} (h : k ≤ width) : k % 2 ^ lzcOutputWidth width = k := by
  apply Nat.mod_eq_of_lt
  have := Nat.lt_pow_succ_log_self (b := 2) (by decide) width
  unfold lzcOutputWidth
  rw [Nat.succ_eq_add_one] at this
  omega

theorem lzcLoop_spec (width : ℕ) (vx : BitVec width) (i : ℕ) (hi : i ≤ width) :
    let k := lzcLoop width vx i
    width - i ≤ k ∧ k ≤ width ∧ vx.toNat % 2 ^ i < 2 ^ (width - k) ∧ (k < width → 2 ^ (width - 1 - k) ≤ vx.toNat % 2 ^ i) := by
  induction i with
  | zero =>
    dsimp only
    rw [lzcLoop, lzc_mod (Nat.le_refl _)]
    simp [Nat.mod_one]
  | succ i ih =>
    have ih := ih (by omega)
    dsimp only at ih ⊢
    rw [lzcLoop]
    have hb : vx.toNat % 2 ^ (i + 1) = vx.toNat % 2 ^ i + 2 ^ i * (vx.toNat / 2 ^ i % 2) := by
      rw [pow_succ, Nat.mod_mul]
    have hl : vx.toNat % 2 ^ i < 2 ^ i := Nat.mod_lt _ (Nat.two_pow_pos i)
    have ht : vx.getLsbD i = true ↔ vx.toNat / 2 ^ i % 2 = 1 := by
      rw [BitVec.getLsbD, Nat.testBit_eq_decide_div_mod_eq, decide_eq_true_iff]
    by_cases h : vx.getLsbD i = true
    · rw [if_pos h, lzc_mod (by omega)]
      rw [ht] at h
      rw [hb, h, Nat.mul_one]
      refine ⟨by omega, by omega, ?_, ?_⟩
      · rw [show width - (width - 1 - i) = i + 1 from by omega, pow_succ]
        omega
      · intro _
        rw [show width - 1 - (width - 1 - i) = i from by omega]
        omega
    · rw [if_neg h]
      have h0 : vx.toNat / 2 ^ i % 2 = 0 := by
        have := mt ht.2 h
        omega
      rw [hb, h0, Nat.mul_zero, Nat.add_zero]
      exact ⟨by omega, ih.2.1, ih.2.2.1, ih.2.2.2⟩

/-- **C35.**  For every width and every input, the counter returns the number of leading zeros, and the result
fits in the declared output width. -/
theorem C35_lzc (width : ℕ) (vx : BitVec width) :
    IsLzc width vx.toNat (hwLzc width vx) ∧ hwLzc width vx < 2 ^ lzcOutputWidth width := by
  have h := lzcLoop_spec width vx width (Nat.le_refl _)
  dsimp only at h
  rw [Nat.mod_eq_of_lt vx.isLt] at h
  refine ⟨⟨h.2.1, h.2.2⟩, ?_⟩
  have hk : hwLzc width vx ≤ width := h.2.1
  rw [← lzc_mod hk]
  exact Nat.mod_lt _ (Nat.two_pow_pos _)

example : hwLzc 5 0b00101#5 = 2 ∧ hwLzc 5 0#5 = 5 ∧ lzcOutputWidth 5 = 3 := by decide

/-- `count_leading_zero` of `numeric_emulate` (lzc.py:90-100): scan from the top, return at the first set bit. -/
def emulateLzc (v w : ℕ) : ℕ → ℕ
  | 0 => w
  | n + 1 => if v &&& 2 ^ (w - 1 - (w - (n + 1))) ≠ 0 then w - (n + 1) else emulateLzc v w n

/-- **C35** (emulation).  The expected value used by the test bench is the value the block computes. -/
theorem C35_emulation (w : ℕ) (vx : BitVec w) : emulateLzc vx.toNat w w = hwLzc w vx := by
  have key : ∀ n, n ≤ w → emulateLzc vx.toNat w n = lzcLoop w vx n := by
    intro n
    induction n with
    | zero => intro _; rw [emulateLzc, lzcLoop, lzc_mod (Nat.le_refl _)]
    | succ n ih =>
      intro hn
      rw [emulateLzc, lzcLoop, ih (by omega), lzc_mod (by omega), show w - 1 - (w - (n + 1)) = n from by omega,
        Nat.and_two_pow]
      have hp := Nat.two_pow_pos n
      rw [show w - 1 - n = w - (n + 1) from by omega]
      rw [BitVec.getLsbD]
      cases hb : vx.toNat.testBit n <;> simp
  exact key w (Nat.le_refl _)

end Verif.HW
