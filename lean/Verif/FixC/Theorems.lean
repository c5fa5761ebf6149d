import Verif.FixC.Model
import Verif.Fixed.Theorems
import Verif.Float.Theorems
import Mathlib.Data.Int.ModEq
import Mathlib.Tactic.Linarith
import Mathlib.Tactic.Ring
import Mathlib.Tactic.NormNum

/-! # Fixed-point arithmetic on C integers (C68) -/

namespace Verif.FixC

open Verif.Fixed (Fmt)

theorem wrap_mod (t : CInt) (n : ℤ) : wrap t n ≡ n [ZMOD 2 ^ t.w] := by
  unfold wrap
  split
  · have : (n + 2 ^ (t.w - 1)) % 2 ^ t.w ≡ n + 2 ^ (t.w - 1) [ZMOD 2 ^ t.w] := Int.mod_modEq _ _
    simpa using this.sub_right (2 ^ (t.w - 1))
  · exact Int.mod_modEq _ _

theorem wrap_eq {t : CInt} {m n : ℤ} (hw : 1 ≤ t.w) (hm : t.Fits m) (h : n ≡ m [ZMOD 2 ^ t.w]) : wrap t n = m := by
  unfold wrap
  unfold CInt.Fits at hm
  have hp : (2 : ℤ) ^ t.w = 2 * 2 ^ (t.w - 1) := by rw [← pow_succ', Nat.sub_add_cancel hw]
  split
  · rename_i hs
    rw [hs] at hm
    simp only [if_true] at hm
    have h1 : (n + 2 ^ (t.w - 1)) % 2 ^ t.w = (m + 2 ^ (t.w - 1)) % 2 ^ t.w := h.add_right _
    rw [h1, Int.emod_eq_of_lt (by omega) (by omega)]
    ring
  · rename_i hs
    simp only [hs, Bool.false_eq_true, if_false] at hm
    have h1 : n % 2 ^ t.w = m % 2 ^ t.w := h
    rw [h1, Int.emod_eq_of_lt hm.1 hm.2]

theorem fits_mono {b w : ℕ} {s : Bool} {n : ℤ} (hbw : b ≤ w) (h : (CInt.mk b s).Fits n) : (CInt.mk w s).Fits n := by
  unfold CInt.Fits at h ⊢
  cases s
  · simp only [Bool.false_eq_true, if_false] at h ⊢
    exact ⟨h.1, h.2.trans_le (pow_le_pow_right₀ (by norm_num) hbw)⟩
  · simp only [if_true] at h ⊢
    have : (2 : ℤ) ^ (b - 1) ≤ 2 ^ (w - 1) := pow_le_pow_right₀ (by norm_num) (by omega)
    exact ⟨by omega, by omega⟩

theorem fits_wrap {t : CInt} {n : ℤ} (hw : 1 ≤ t.w) (h : t.Fits n) : wrap t n = n := wrap_eq hw h rfl

theorem support_eq {f : Fmt} (h1 : 1 ≤ f.int + f.frac) (h2 : f.int + f.frac ≤ 128) :
    ∃ w, support f = some ⟨w, f.signed⟩ ∧ f.int + f.frac ≤ (w : ℤ) ∧ Container (f.int + f.frac) w := by
  obtain ⟨c, hc⟩ := (Fixed.C05_container_exists_iff f.int f.frac).2 ⟨h1, h2⟩
  obtain ⟨a, b, d⟩ := Fixed.C05_container_smallest _ _ _ hc
  exact ⟨c, by simp [support, hc], b, a, b, d⟩

theorem container_eq {f : Fmt} {c : ℕ} (h1 : 1 ≤ f.int + f.frac) (h : Container (f.int + f.frac) c) : support f = some ⟨c, f.signed⟩ := by
  obtain ⟨a, b, d⟩ := h
  have h2 : f.int + f.frac ≤ 128 := by
    simp only [List.mem_cons, List.not_mem_nil, or_false] at a
    omega
  obtain ⟨w, hw, hb, a', b', d'⟩ := support_eq h1 h2
  rw [hw, le_antisymm (d w a' b') (d' c a b)]

/-- an unsigned number or one in a shift to the left: the conversion on integers -/
theorem conv_raw {f g : Fmt} (hf : 1 ≤ f.int) (hf' : 0 ≤ f.frac) (hfb : f.int + f.frac ≤ 128) (hg : 1 ≤ g.int) (hg' : 0 ≤ g.frac)
    (hgb : g.int + g.frac ≤ 128) {n m : ℤ} (hn : (CInt.mk (f.int + f.frac).toNat f.signed).Fits n)
    (hm : (CInt.mk (g.int + g.frac).toNat g.signed).Fits m)
    (h : (f.frac ≤ g.frac ∧ m = n * 2 ^ (g.frac - f.frac).toNat) ∨ (g.frac < f.frac ∧ 0 ≤ n ∧ m = n / 2 ^ (f.frac - g.frac).toNat)) :
    conv f g n = some m := by
  unfold conv
  split
  · rename_i hfg
    subst hfg
    rcases h with ⟨-, h⟩ | ⟨h, -⟩
    · simp at h; rw [h]
    · omega
  · obtain ⟨wf, hsf, hwf, -⟩ := support_eq (f := f) (by omega) hfb
    obtain ⟨wg, hsg, hwg, -⟩ := support_eq (f := g) (by omega) hgb
    rw [hsf, hsg]
    simp only [Option.bind_some]
    have hnf : (CInt.mk wf f.signed).Fits n := fits_mono (by omega) hn
    have hmg : (CInt.mk wg g.signed).Fits m := fits_mono (by omega) hm
    have hfin : finish g ⟨wg, g.signed⟩ m = m := by
      unfold finish
      split
      · rfl
      · rename_i hs
        unfold mask
        have : m % 2 ^ (g.int + g.frac).toNat = m := by
          unfold CInt.Fits at hm
          simp only [hs, Bool.false_eq_true, if_false] at hm
          exact Int.emod_eq_of_lt hm.1 hm.2
        rw [this]
        exact fits_wrap (by simp only; omega) hmg
    have hnlt : 0 ≤ n → n < 2 ^ wf := by
      intro h0
      unfold CInt.Fits at hnf
      cases hs : f.signed <;> simp only [hs, Bool.false_eq_true, if_false, if_true] at hnf
      · exact hnf.2
      · have : (2 : ℤ) ^ (wf - 1) ≤ 2 ^ wf := pow_le_pow_right₀ (by norm_num) (by omega)
        omega
    by_cases hle : wf ≤ wg
    · simp only [hle, if_true]
      suffices hal : align ⟨wg, g.signed⟩ (g.frac - f.frac) (wrap ⟨wg, g.signed⟩ n) = some m by rw [hal, Option.map_some, hfin]
      have hy := wrap_mod ⟨wg, g.signed⟩ n
      unfold align
      rcases h with ⟨hs, rfl⟩ | ⟨hs, h0, rfl⟩
      · rcases hs.eq_or_lt with heq | hlt
        · rw [if_neg (by omega), if_neg (by omega)]
          rw [heq] at hmg ⊢
          simp only [sub_self, Int.toNat_zero, pow_zero, mul_one] at hmg ⊢
          rw [fits_wrap (by simp only; omega) hmg]
        · rw [if_pos (by omega)]
          unfold shl
          rw [if_pos (by simp only; omega)]
          congr 1
          exact wrap_eq (by simp only; omega) hmg (hy.mul_right _)
      · rw [if_neg (by omega), if_pos (by omega)]
        unfold srl
        rw [if_pos (by simp only; omega)]
        congr 1
        have hyn : wrap ⟨wg, g.signed⟩ n % 2 ^ wg = n := by
          have h1 : wrap ⟨wg, g.signed⟩ n % 2 ^ wg = n % 2 ^ wg := hy
          rw [h1, Int.emod_eq_of_lt h0 ((hnlt h0).trans_le (pow_le_pow_right₀ (by norm_num) hle))]
        simp only [hyn]
        rw [show -(g.frac - f.frac) = f.frac - g.frac by ring]
        exact fits_wrap (by simp only; omega) hmg
    · simp only [hle, if_false]
      have key : ∀ z, z ≡ m [ZMOD 2 ^ wf] → wrap ⟨wg, g.signed⟩ z = m := by
        intro z hz
        refine wrap_eq (by simp only; omega) hmg ?_
        exact hz.of_dvd (pow_dvd_pow 2 (by simp only; omega))
      suffices hal : ∃ z, align ⟨wf, f.signed⟩ (g.frac - f.frac) n = some z ∧ z ≡ m [ZMOD 2 ^ wf] by
        obtain ⟨z, hz, hzm⟩ := hal
        rw [hz, Option.map_some, key z hzm, hfin]
      unfold align
      rcases h with ⟨hs, rfl⟩ | ⟨hs, h0, rfl⟩
      · rcases hs.eq_or_lt with heq | hlt
        · rw [if_neg (by omega), if_neg (by omega)]
          exact ⟨n, rfl, by rw [heq]; simp [Int.ModEq]⟩
        · rw [if_pos (by omega)]
          unfold shl
          rw [if_pos (by simp only; omega)]
          exact ⟨_, rfl, wrap_mod ⟨wf, f.signed⟩ _⟩
      · rw [if_neg (by omega), if_pos (by omega)]
        unfold srl
        rw [if_pos (by simp only; omega)]
        refine ⟨_, rfl, ?_⟩
        have hyn : n % 2 ^ wf = n := Int.emod_eq_of_lt h0 (hnlt h0)
        have := wrap_mod ⟨wf, f.signed⟩ (n % 2 ^ wf / 2 ^ (-(g.frac - f.frac)).toNat)
        rw [hyn, show -(g.frac - f.frac) = f.frac - g.frac by ring] at this
        simp only [hyn]
        rw [show -(g.frac - f.frac) = f.frac - g.frac by ring]
        exact this

theorem zadd (a b : ℤ) : (2 : ℚ) ^ (a + b) = (2 : ℚ) ^ a * (2 : ℚ) ^ b := zpow_add₀ (by norm_num) _ _
theorem zp (a : ℤ) : (0 : ℚ) < (2 : ℚ) ^ a := zpow_pos (by norm_num) _
theorem znat (k : ℤ) (h : 0 ≤ k) : (2 : ℚ) ^ k = ((2 ^ k.toNat : ℤ) : ℚ) := by
  rw [← Fixed.zpow_toNat k h]; push_cast; rfl

/-- the number is in the format if and only if the integer has the bits of the format -/
theorem holds_fits {f : Fmt} (hb : 1 ≤ f.int + f.frac) {n : ℤ} {v : ℚ} (h : Stores f n v) :
    f.Holds v ↔ (CInt.mk (f.int + f.frac).toNat f.signed).Fits n := by
  unfold Stores at h
  unfold Fmt.Holds CInt.Fits
  have hp := zp (-f.frac)
  have hg : Fixed.OnGrid f.frac v := ⟨n, h⟩
  have cmp : ∀ (k : ℤ) (x : ℚ), (2 : ℚ) ^ k = (2 : ℚ) ^ (k + f.frac) * (2 : ℚ) ^ (-f.frac) := by
    intro k _; rw [← zadd]; congr 1; ring
  cases hs : f.signed <;> simp only [Bool.false_eq_true, if_false, if_true, hg, true_and]
  · have h2 : (2 : ℚ) ^ f.int = ((2 ^ (f.int + f.frac).toNat : ℤ) : ℚ) * (2 : ℚ) ^ (-f.frac) := by
      rw [cmp f.int 0, znat _ (by omega)]
    rw [h, h2, mul_lt_mul_iff_of_pos_right hp]
    constructor
    · rintro ⟨a, b⟩
      refine ⟨?_, by exact_mod_cast b⟩
      have : (0 : ℚ) ≤ n := by
        by_contra hc
        push Not at hc
        nlinarith
      exact_mod_cast this
    · rintro ⟨a, b⟩
      exact ⟨mul_nonneg (by exact_mod_cast a) hp.le, by exact_mod_cast b⟩
  · have h2 : (2 : ℚ) ^ (f.int - 1) = ((2 ^ ((f.int + f.frac).toNat - 1) : ℤ) : ℚ) * (2 : ℚ) ^ (-f.frac) := by
      rw [cmp (f.int - 1) 0, znat _ (by omega)]
      congr 4; omega
    rw [h, h2, mul_lt_mul_iff_of_pos_right hp, ← neg_mul, mul_le_mul_iff_of_pos_right hp]
    constructor
    · rintro ⟨a, b⟩; exact ⟨by exact_mod_cast a, by exact_mod_cast b⟩
    · rintro ⟨a, b⟩; exact ⟨by exact_mod_cast a, by exact_mod_cast b⟩

/-- the integer that stores the rounded value -/
theorem down_eq {f : Fmt} {n : ℤ} {v : ℚ} (h : Stores f n v) (gf : ℤ) :
    ⌊v * (2 : ℚ) ^ gf⌋ = if f.frac ≤ gf then n * 2 ^ (gf - f.frac).toNat else n / 2 ^ (f.frac - gf).toNat := by
  unfold Stores at h
  have h1 : v * (2 : ℚ) ^ gf = n * (2 : ℚ) ^ (gf - f.frac) := by rw [h, mul_assoc, ← zadd]; congr 2; ring
  rw [h1]
  split
  · rw [znat _ (by omega), ← Int.cast_mul, Int.floor_intCast]
  · rename_i hc
    have : (2 : ℚ) ^ (gf - f.frac) = ((2 ^ (f.frac - gf).toNat : ℕ) : ℚ)⁻¹ := by
      rw [show gf - f.frac = -(f.frac - gf) by ring, zpow_neg, znat _ (by omega)]; push_cast; rfl
    rw [this, ← div_eq_mul_inv, Rat.floor_intCast_div_natCast]
    push_cast; rfl

/-- **C68** (conversion) A number of format `f`, stored in a C integer, is converted to the format `g` rounded toward minus infinity,
when the result is in `g`, if the number is not negative or no fraction bit is dropped.
Missing: negative numbers that lose fraction bits, see `C68_conv_negative_wrong`. -/
theorem C68_conv_partial {f g : Fmt} (hf : 1 ≤ f.int) (hf' : 0 ≤ f.frac) (hfb : f.int + f.frac ≤ 128) (hg : 1 ≤ g.int) (hg' : 0 ≤ g.frac)
    (hgb : g.int + g.frac ≤ 128) {n : ℤ} {v : ℚ} (hn : Stores f n v) (hv : f.Holds v) (hr : g.Holds (down g.frac v))
    (h : 0 ≤ v ∨ f.frac ≤ g.frac) : ∃ m, conv f g n = some m ∧ Stores g m (down g.frac v) := by
  refine ⟨⌊v * (2 : ℚ) ^ g.frac⌋, ?_, rfl⟩
  refine conv_raw hf hf' hfb hg hg' hgb ((holds_fits (by omega) hn).1 hv) ((holds_fits (by omega) (v := down g.frac v) rfl).1 hr) ?_
  rw [down_eq hn]
  by_cases hle : f.frac ≤ g.frac
  · left; exact ⟨hle, by rw [if_pos hle]⟩
  · right
    refine ⟨by omega, ?_, by rw [if_neg hle]⟩
    have h0 : 0 ≤ v := by rcases h with h | h <;> [exact h; exact absurd h hle]
    unfold Stores at hn
    rw [hn] at h0
    have := nonneg_of_mul_nonneg_left h0 (zp _)
    exact_mod_cast this

/-- 2.75 in a format with 4 fraction bits, converted to 1 fraction bit: 2.5 -/
example : conv ⟨4, 4, false⟩ ⟨20, 1, true⟩ 44 = some 5 := by decide +kernel

/-- a negative number that loses fraction bits, in a container that does not shrink, never becomes negative: here −1.5, from 4 to 1
fraction bits, becomes +14.5 -/
theorem C68_conv_negative_wrong {f g : Fmt} (hf : 1 ≤ f.int) (hg : 1 ≤ g.int) (hg' : 0 ≤ g.frac)
    (hlt : g.frac < f.frac) {n : ℤ} {v : ℚ} (hn : Stores f n v) (hneg : v < 0) {wf wg : ℕ} (hcf : Container (f.int + f.frac) wf)
    (hcg : Container (g.int + g.frac) wg) (hle : wf ≤ wg) {m : ℤ} (hm : conv f g n = some m) {w : ℚ} (hw : Stores g m w) :
    w ≠ down g.frac v ∧ 0 ≤ w := by
  have hwg := hcg.2.1
  have hm0 : 0 ≤ m := by
    unfold conv at hm
    rw [if_neg (by rintro rfl; omega)] at hm
    simp only [container_eq (by omega) hcf, container_eq (by omega) hcg, Option.bind_some, hle, if_true, align, show ¬ (0 < g.frac - f.frac) by omega, if_false,
      show g.frac - f.frac < 0 by omega, srl] at hm
    split at hm
    · rename_i hk
      simp only [Option.map_some, Option.some.injEq] at hm
      set k := (-(g.frac - f.frac)).toNat
      set y := wrap ⟨wg, g.signed⟩ n % 2 ^ wg
      have hy0 : 0 ≤ y := Int.emod_nonneg _ (by positivity)
      have hy1 : y < 2 ^ wg := Int.emod_lt_of_pos _ (by positivity)
      have hwge : (2 : ℤ) ^ wg = 2 * 2 ^ (wg - 1) := by rw [← pow_succ', Nat.sub_add_cancel (by omega)]
      have hq0 : 0 ≤ y / 2 ^ k := Int.ediv_nonneg hy0 (by positivity)
      have hq1 : y / 2 ^ k < 2 ^ (wg - 1) := by
        rw [Int.ediv_lt_iff_lt_mul (by positivity)]
        have : (2 : ℤ) ^ 1 ≤ 2 ^ k := pow_le_pow_right₀ (by norm_num) (by omega)
        have h2 : (0 : ℤ) < 2 ^ (wg - 1) := by positivity
        nlinarith
      have hfit : (CInt.mk wg g.signed).Fits (y / 2 ^ k) := by
        unfold CInt.Fits
        split
        · exact ⟨by have : (0 : ℤ) < 2 ^ (wg - 1) := by positivity
                    simp only; omega, hq1⟩
        · exact ⟨hq0, by simp only; omega⟩
      rw [fits_wrap (by simp only; omega) hfit] at hm
      unfold finish at hm
      split at hm
      · omega
      · rename_i hs
        rw [← hm]
        unfold mask wrap
        simp only [hs, Bool.false_eq_true, if_false]
        exact Int.emod_nonneg _ (by positivity)
    · simp at hm
  have hw0 : 0 ≤ w := by
    unfold Stores at hw
    rw [hw]; exact mul_nonneg (by exact_mod_cast hm0) (zp _).le
  refine ⟨?_, hw0⟩
  have hd : down g.frac v < 0 := by
    unfold down
    have h1 : v * (2 : ℚ) ^ g.frac < 0 := mul_neg_of_neg_of_pos hneg (zp _)
    have h2 : ⌊v * (2 : ℚ) ^ g.frac⌋ < 0 := by
      have := Int.floor_le (v * (2 : ℚ) ^ g.frac)
      have h3 : ((⌊v * (2 : ℚ) ^ g.frac⌋ : ℤ) : ℚ) < 0 := by linarith
      exact_mod_cast h3
    exact mul_neg_of_neg_of_pos (by exact_mod_cast h2) (zp _)
  intro hc
  rw [hc] at hw0
  linarith

example : conv ⟨4, 4, true⟩ ⟨7, 1, true⟩ (-24) = some 29 := by decide +kernel

/-! ## Addition and subtraction -/

theorem stores_int {f : Fmt} {v : ℚ} (h : f.Holds v) : ∃ n, Stores f n v := by
  obtain ⟨⟨n, hn⟩, -⟩ := h
  exact ⟨n, hn⟩

theorem stores_inj {f : Fmt} {m n : ℤ} {v : ℚ} (h1 : Stores f m v) (h2 : Stores f n v) : m = n := by
  unfold Stores at h1 h2
  rw [h1] at h2
  have := mul_right_cancel₀ (zp (-f.frac)).ne' h2
  exact_mod_cast this

theorem down_le (gf : ℤ) (v : ℚ) : down gf v ≤ v := by
  unfold down
  have h1 := Int.floor_le (v * (2 : ℚ) ^ gf)
  have h2 : v = v * (2 : ℚ) ^ gf * (2 : ℚ) ^ (-gf) := by rw [mul_assoc, ← zadd]; simp
  calc _ ≤ v * (2 : ℚ) ^ gf * (2 : ℚ) ^ (-gf) := mul_le_mul_of_nonneg_right h1 (zp _).le
    _ = v := h2.symm

theorem down_nonneg {gf : ℤ} {v : ℚ} (h : 0 ≤ v) : 0 ≤ down gf v := by
  unfold down
  refine mul_nonneg ?_ (zp _).le
  exact_mod_cast Int.floor_nonneg.2 (mul_nonneg h (zp _).le)

theorem down_mono {gf : ℤ} {v w : ℚ} (h : v ≤ w) : down gf v ≤ down gf w := by
  unfold down
  refine mul_le_mul_of_nonneg_right ?_ (zp _).le
  exact_mod_cast Int.floor_le_floor (mul_le_mul_of_nonneg_right h (zp _).le)

theorem down_grid (gf : ℤ) (v : ℚ) : Fixed.OnGrid gf (down gf v) := ⟨_, rfl⟩

theorem down_id {gf : ℤ} {v : ℚ} (h : Fixed.OnGrid gf v) : down gf v = v := by
  obtain ⟨n, rfl⟩ := h
  unfold down
  rw [mul_assoc, ← zadd]; simp

/-- rounding down to a finer grid first changes nothing -/
theorem down_down {a b : ℤ} (h : a ≤ b) (v : ℚ) : down a (down b v) = down a v := by
  unfold down
  congr 2
  have e1 : ((⌊v * (2 : ℚ) ^ b⌋ : ℤ) : ℚ) * (2 : ℚ) ^ (-b) * (2 : ℚ) ^ a = (⌊v * (2 : ℚ) ^ b⌋ : ℤ) / ((2 ^ (b - a).toNat : ℕ) : ℚ) := by
    rw [mul_assoc, ← zadd, div_eq_mul_inv, show -b + a = -(b - a) by ring, zpow_neg, znat (b - a) (by omega)]; push_cast; rfl
  have e2 : v * (2 : ℚ) ^ a = v * (2 : ℚ) ^ b / ((2 ^ (b - a).toNat : ℕ) : ℚ) := by
    rw [div_eq_mul_inv, mul_assoc]
    congr 1
    have : (((2 ^ (b - a).toNat : ℕ) : ℚ))⁻¹ = (2 : ℚ) ^ (-(b - a)) := by rw [zpow_neg, znat _ (by omega)]; push_cast; rfl
    rw [this, ← zadd]; congr 1; ring
  rw [e1, e2, Rat.floor_intCast_div_natCast, Int.floor_div_natCast]

theorem down_add_grid {b : ℤ} {v w : ℚ} (h : Fixed.OnGrid b w) : down b v + w = down b (v + w) := by
  obtain ⟨n, rfl⟩ := h
  unfold down
  have : (v + n * (2 : ℚ) ^ (-b)) * (2 : ℚ) ^ b = v * (2 : ℚ) ^ b + n := by
    rw [add_mul, mul_assoc (n : ℚ), ← zadd]; simp
  rw [this, Int.floor_add_intCast]; push_cast; ring

/-- the generic lemma on the two operations: both operands are converted exactly to the intermediate format as `a` and `b`, and the
rounded intermediate result is the expected result -/
theorem addsub_raw {op : ℤ → ℤ → ℤ} {opq : ℚ → ℚ → ℚ} (hop : ∀ a b : ℤ, ∀ s : ℚ, opq (a * s) (b * s) = (op a b : ℤ) * s)
    {f0 f1 g : Fmt} (h0 : 1 ≤ f0.int) (h0' : 0 ≤ f0.frac) (h0b : f0.int + f0.frac ≤ 128) (h1 : 1 ≤ f1.int) (h1' : 0 ≤ f1.frac)
    (h1b : f1.int + f1.frac ≤ 128) (hg : 1 ≤ g.int) (hg' : 0 ≤ g.frac) {r : ℤ} (hr : r = max (min f0.frac f1.frac) g.frac)
    (hrb : g.int + r ≤ 128) {x0 x1 : ℤ} {v0 v1 : ℚ} (s0 : Stores f0 x0 v0) (s1 : Stores f1 x1 v1) (hv0 : f0.Holds v0) (hv1 : f1.Holds v1)
    (t0 : (⟨g.int, r, g.signed⟩ : Fmt).Holds (down r v0)) (t1 : (⟨g.int, r, g.signed⟩ : Fmt).Holds (down r v1))
    (t : (⟨g.int, r, g.signed⟩ : Fmt).Holds (opq (down r v0) (down r v1)))
    (n0 : 0 ≤ v0 ∨ f0.frac ≤ r) (n1 : 0 ≤ v1 ∨ f1.frac ≤ r) (nr : 0 ≤ opq (down r v0) (down r v1) ∨ r ≤ g.frac)
    (hres : g.Holds (down g.frac (opq (down r v0) (down r v1)))) :
    ∃ m, addsub op f0 f1 g x0 x1 = some m ∧ Stores g m (down g.frac (opq (down r v0) (down r v1))) := by
  have hr0 : 0 ≤ r := by rw [hr]; exact le_max_of_le_right hg'
  have hgr : g.frac ≤ r := by rw [hr]; exact le_max_right _ _
  obtain ⟨a, ha, sa⟩ := C68_conv_partial (g := ⟨g.int, r, g.signed⟩) h0 h0' h0b hg hr0 hrb s0 hv0 t0 n0
  obtain ⟨b, hb, sb⟩ := C68_conv_partial (g := ⟨g.int, r, g.signed⟩) h1 h1' h1b hg hr0 hrb s1 hv1 t1 n1
  obtain ⟨w, hw, hwl, -⟩ := support_eq (f := ⟨g.int, r, g.signed⟩) (by simp only; omega) hrb
  have sab : Stores ⟨g.int, r, g.signed⟩ (op a b) (opq (down r v0) (down r v1)) := by
    unfold Stores at sa sb ⊢
    rw [sa, sb, hop]
  have hfit := (holds_fits (by simp only; omega) sab).1 t
  have hwr : wrap ⟨w, g.signed⟩ (op a b) = op a b := by
    refine fits_wrap ?_ (fits_mono ?_ hfit)
    · simp only at hwl ⊢; omega
    · simp only at hwl ⊢; omega
  obtain ⟨m, hm, sm⟩ := C68_conv_partial (f := ⟨g.int, r, g.signed⟩) hg hr0 hrb hg hg' (by omega) sab t hres nr
  refine ⟨m, ?_, sm⟩
  unfold addsub
  subst hr
  simp only [hw, ha, hb, Option.bind_some, hwr, hm]

theorem holds_of_le {g : Fmt} {r : ℤ} {v w : ℚ} (hv : g.Holds w) (hgr : g.frac ≤ r) (h0 : 0 ≤ v) (hvw : down g.frac v ≤ w) (hgi : 1 ≤ g.int)
    (hg' : 0 ≤ g.frac) (hgrid : Fixed.OnGrid r v) : (⟨g.int, r, g.signed⟩ : Fmt).Holds v := by
  obtain ⟨-, hb⟩ := hv
  refine ⟨hgrid, ?_⟩
  -- the bound is an integer multiple of the grid step of `g`
  have key : ∀ k : ℤ, 0 ≤ k → w < (2 : ℚ) ^ k → v < (2 : ℚ) ^ k := by
    intro k hk hw
    by_contra hc
    push Not at hc
    have h1 : down g.frac ((2 : ℚ) ^ k) = (2 : ℚ) ^ k := down_id (Fixed.OnGrid.pow (by omega))
    have h2 := down_mono (gf := g.frac) hc
    rw [h1] at h2
    linarith
  cases hs : g.signed <;> simp only [hs, Bool.false_eq_true, if_false, if_true] at hb ⊢
  · exact ⟨h0, key _ (by omega) hb.2⟩
  · exact ⟨by have := zp (g.int - 1); linarith, key _ (by omega) hb.2⟩

theorem grid_mono_holds {f : Fmt} {v : ℚ} (h : f.Holds v) {r : ℤ} (hr : f.frac ≤ r) : Fixed.OnGrid r v := h.1.mono hr

/-- **C68** (addition) The generated addition returns the sum rounded toward minus infinity whenever this is in the result format, for
operands that are not negative, or that are in the result format.  Missing: negative operands with more fraction bits than the result
(see `C68_conv_negative_wrong`), operands outside the format of a result that fits (`C68_add_wrong`). -/
theorem C68_add_partial {f0 f1 g : Fmt} (h0 : 1 ≤ f0.int) (h0' : 0 ≤ f0.frac) (h0b : f0.int + f0.frac ≤ 128) (h1 : 1 ≤ f1.int) (h1' : 0 ≤ f1.frac)
    (h1b : f1.int + f1.frac ≤ 128) (hg : 1 ≤ g.int) (hg' : 0 ≤ g.frac) (hgb : g.int + max (min f0.frac f1.frac) g.frac ≤ 128)
    {x0 x1 : ℤ} {v0 v1 : ℚ} (s0 : Stores f0 x0 v0) (s1 : Stores f1 x1 v1) (hv0 : f0.Holds v0) (hv1 : f1.Holds v1)
    (hres : g.Holds (down g.frac (v0 + v1)))
    (hcase : (0 ≤ v0 ∧ 0 ≤ v1) ∨ (g.Holds v0 ∧ g.Holds v1 ∧ f0.frac ≤ g.frac ∧ f1.frac ≤ g.frac)) :
    ∃ m, add f0 f1 g x0 x1 = some m ∧ Stores g m (down g.frac (v0 + v1)) := by
  set r := max (min f0.frac f1.frac) g.frac with hr
  have hgr : g.frac ≤ r := le_max_right _ _
  have hsum : down r v0 + down r v1 = down r (v0 + v1) := by
    rcases le_total f0.frac f1.frac with h | h
    · have hgrid : Fixed.OnGrid r v0 := grid_mono_holds hv0 (by rw [hr, min_eq_left h]; exact le_max_left _ _)
      rw [down_id hgrid, add_comm, down_add_grid hgrid, add_comm]
    · have hgrid : Fixed.OnGrid r v1 := grid_mono_holds hv1 (by rw [hr, min_eq_right h]; exact le_max_left _ _)
      rw [down_id hgrid, down_add_grid hgrid]
  have hd : down g.frac (down r v0 + down r v1) = down g.frac (v0 + v1) := by rw [hsum, down_down hgr]
  have main := addsub_raw (op := (· + ·)) (opq := (· + ·)) (by intro a b s; push_cast; ring) h0 h0' h0b h1 h1' h1b hg hg' hr hgb s0 s1 hv0 hv1
  rw [← hd] at hres ⊢
  rcases hcase with ⟨p0, p1⟩ | ⟨q0, q1, l0, l1⟩
  · have e0 := down_nonneg (gf := r) p0
    have e1 := down_nonneg (gf := r) p1
    refine main ?_ ?_ ?_ (Or.inl p0) (Or.inl p1) (Or.inl (by simpa using add_nonneg e0 e1)) hres
    · exact holds_of_le hres hgr e0 (down_mono (by simpa using e1)) hg hg' (down_grid _ _)
    · exact holds_of_le hres hgr e1 (down_mono (by simpa using e0)) hg hg' (down_grid _ _)
    · exact holds_of_le hres hgr (add_nonneg e0 e1) le_rfl hg hg' ((down_grid _ _).add (down_grid _ _))
  · have hrg : r = g.frac := by rw [hr]; exact max_eq_right ((min_le_left _ _).trans l0)
    have i0 : down r v0 = v0 := down_id (by rw [hrg]; exact q0.1)
    have i1 : down r v1 = v1 := down_id (by rw [hrg]; exact q1.1)
    have i2 : down g.frac (v0 + v1) = v0 + v1 := down_id (q0.1.add q1.1)
    refine main ?_ ?_ ?_ (Or.inr (by omega)) (Or.inr (by omega)) (Or.inr hrg.le) hres
    · rw [i0, hrg]; exact q0
    · rw [i1, hrg]; exact q1
    · simp only [i0, i1] at hres ⊢
      rw [i2] at hres
      rw [hrg]; exact hres

/-- 1.25 + 2.5, rounded down to an integer: 3 -/
example : add ⟨4, 4, false⟩ ⟨4, 1, false⟩ ⟨6, 0, true⟩ 20 5 = some 3 := by decide +kernel

/-- 24 − 17 on signed operands of 6 bits with an unsigned result of 4 bits: the operands are masked before the addition, and the sum
is not, which yields 23. -/
theorem C68_add_wrong : ∃ (f0 f1 g : Fmt) (x0 x1 m : ℤ) (v0 v1 : ℚ), Stores f0 x0 v0 ∧ Stores f1 x1 v1 ∧ f0.Holds v0 ∧ f1.Holds v1 ∧
    g.Holds (v0 + v1) ∧ add f0 f1 g x0 x1 = some m ∧ ¬ Stores g m (v0 + v1) := by
  refine ⟨⟨6, 0, true⟩, ⟨6, 0, true⟩, ⟨4, 0, false⟩, 24, -17, 23, 24, -17, by norm_num [Stores], by norm_num [Stores],
    ⟨⟨24, by norm_num⟩, by norm_num⟩, ⟨⟨-17, by norm_num⟩, by norm_num⟩, ⟨⟨7, by norm_num⟩, by norm_num⟩, by decide +kernel, by norm_num [Stores]⟩

/-- **C68** (subtraction) The generated subtraction returns the difference rounded toward minus infinity whenever this is in the result
format, for operands of the result format, or for `0 ≤ v1 ≤ v0` with `v0` in the range of the result when the second operand has no
more fraction bits than the first or than the result.  Missing: more fraction bits in the second operand (`C68_sub_wrong`), negative
operands that lose fraction bits. -/
theorem C68_sub_partial {f0 f1 g : Fmt} (h0 : 1 ≤ f0.int) (h0' : 0 ≤ f0.frac) (h0b : f0.int + f0.frac ≤ 128) (h1 : 1 ≤ f1.int) (h1' : 0 ≤ f1.frac)
    (h1b : f1.int + f1.frac ≤ 128) (hg : 1 ≤ g.int) (hg' : 0 ≤ g.frac) (hgb : g.int + max (min f0.frac f1.frac) g.frac ≤ 128)
    {x0 x1 : ℤ} {v0 v1 : ℚ} (s0 : Stores f0 x0 v0) (s1 : Stores f1 x1 v1) (hv0 : f0.Holds v0) (hv1 : f1.Holds v1)
    (hres : g.Holds (down g.frac (v0 - v1)))
    (hcase : (0 ≤ v1 ∧ v1 ≤ v0 ∧ g.Holds (down g.frac v0) ∧ (f1.frac ≤ f0.frac ∨ f1.frac ≤ g.frac)) ∨
      (g.Holds v0 ∧ g.Holds v1 ∧ f0.frac ≤ g.frac ∧ f1.frac ≤ g.frac)) :
    ∃ m, sub f0 f1 g x0 x1 = some m ∧ Stores g m (down g.frac (v0 - v1)) := by
  set r := max (min f0.frac f1.frac) g.frac with hr
  have hgr : g.frac ≤ r := le_max_right _ _
  have hf1 : f1.frac ≤ r := by
    rw [hr]
    rcases hcase with ⟨-, -, -, h | h⟩ | ⟨-, -, -, h⟩
    · rw [min_eq_right h]; exact le_max_left _ _
    · exact h.trans (le_max_right _ _)
    · exact h.trans (le_max_right _ _)
  have hgrid1 : Fixed.OnGrid r v1 := grid_mono_holds hv1 hf1
  have i1 : down r v1 = v1 := down_id hgrid1
  have hsum : down r v0 - down r v1 = down r (v0 - v1) := by
    rw [i1, sub_eq_add_neg, down_add_grid hgrid1.neg, ← sub_eq_add_neg]
  have hd : down g.frac (down r v0 - down r v1) = down g.frac (v0 - v1) := by rw [hsum, down_down hgr]
  have main := addsub_raw (op := (· - ·)) (opq := (· - ·)) (by intro a b s; push_cast; ring) h0 h0' h0b h1 h1' h1b hg hg' hr hgb s0 s1 hv0 hv1
  rw [← hd] at hres ⊢
  rcases hcase with ⟨p1, p01, q0, -⟩ | ⟨q0, q1, l0, l1⟩
  · have p0 : 0 ≤ v0 := p1.trans p01
    have e0 := down_nonneg (gf := r) p0
    have e1 := down_nonneg (gf := r) p1
    have e2 : 0 ≤ down r v0 - down r v1 := by rw [hsum]; exact down_nonneg (by linarith)
    refine main ?_ ?_ ?_ (Or.inl p0) (Or.inr hf1) (Or.inl e2) hres
    · exact holds_of_le q0 hgr e0 (down_mono (down_le _ _)) hg hg' (down_grid _ _)
    · exact holds_of_le q0 hgr e1 (down_mono ((down_le _ _).trans p01)) hg hg' (down_grid _ _)
    · exact holds_of_le hres hgr e2 le_rfl hg hg' ((down_grid _ _).sub (down_grid _ _))
  · have hrg : r = g.frac := by rw [hr]; exact max_eq_right ((min_le_left _ _).trans l0)
    have i0 : down r v0 = v0 := down_id (by rw [hrg]; exact q0.1)
    have i2 : down g.frac (v0 - v1) = v0 - v1 := down_id (q0.1.sub q1.1)
    refine main ?_ ?_ ?_ (Or.inr (by omega)) (Or.inr (by omega)) (Or.inr hrg.le) hres
    · rw [i0, hrg]; exact q0
    · rw [i1, hrg]; exact q1
    · simp only [i0, i1] at hres ⊢
      rw [i2] at hres
      rw [hrg]; exact hres

/-- 3.75 − 1.5, rounded down to an integer: 2 -/
example : sub ⟨4, 4, false⟩ ⟨4, 1, false⟩ ⟨6, 0, false⟩ 60 3 = some 2 := by decide +kernel

/-- 3 − 0.25 with an integer result: the second operand is rounded down before the subtraction, which rounds the difference up to 3. -/
theorem C68_sub_wrong : ∃ (f0 f1 g : Fmt) (x0 x1 m : ℤ) (v0 v1 : ℚ), Stores f0 x0 v0 ∧ Stores f1 x1 v1 ∧ f0.Holds v0 ∧ f1.Holds v1 ∧
    g.Holds (down g.frac (v0 - v1)) ∧ sub f0 f1 g x0 x1 = some m ∧ ¬ Stores g m (down g.frac (v0 - v1)) := by
  have hd : down 0 (3 - 1 / 4) = 2 := by
    unfold down
    have : ⌊((3 - 1 / 4 : ℚ)) * (2 : ℚ) ^ (0 : ℤ)⌋ = 2 := by rw [Int.floor_eq_iff]; norm_num
    rw [this]; norm_num
  refine ⟨⟨4, 0, false⟩, ⟨4, 2, false⟩, ⟨4, 0, false⟩, 3, 1, 3, 3, 1 / 4, by norm_num [Stores], by norm_num [Stores],
    ⟨⟨3, by norm_num⟩, by norm_num⟩, ⟨⟨1, by norm_num⟩, by norm_num⟩, ?_, by decide +kernel, ?_⟩
  · simp only [hd]; exact ⟨⟨2, by norm_num⟩, by norm_num⟩
  · simp only [hd]; norm_num [Stores]

/-! ## Multiplication -/

/-- the product is in the intermediate format of the multiplication -/
theorem mul_tmp {f0 f1 g : Fmt} (h0 : 1 ≤ f0.int) (h1 : 1 ≤ f1.int) (hg : 1 ≤ g.int) (hg' : 0 ≤ g.frac) {v0 v1 : ℚ} (hv0 : f0.Holds v0)
    (hv1 : f1.Holds v1) (hres : g.Holds (down g.frac (v0 * v1)))
    (hfit : g.signed = true ∨ (f0.signed = false ∧ f1.signed = false) ∨ f0.int + f1.int ≤ g.int) :
    (⟨min g.int (f0.int + f1.int), f0.frac + f1.frac, f0.signed || f1.signed⟩ : Fmt).Holds (v0 * v1) := by
  obtain ⟨g0, b0⟩ := hv0
  obtain ⟨g1, b1⟩ := hv1
  refine ⟨g0.mul g1, ?_⟩
  have e : ∀ k : ℤ, (2 : ℚ) ^ k = 2 * (2 : ℚ) ^ (k - 1) := Fixed.two_zpow_pred
  -- the product of the ranges
  have full : if (f0.signed || f1.signed) then -(2 : ℚ) ^ (f0.int + f1.int - 1) ≤ v0 * v1 ∧ v0 * v1 < (2 : ℚ) ^ (f0.int + f1.int - 1)
      else 0 ≤ v0 * v1 ∧ v0 * v1 < (2 : ℚ) ^ (f0.int + f1.int) := by
    have p0 := zp (f0.int - 1)
    have p1 := zp (f1.int - 1)
    have q0 := zp f0.int
    have q1 := zp f1.int
    cases hs0 : f0.signed <;> cases hs1 : f1.signed <;> simp only [hs0, hs1, Bool.false_eq_true, if_false, if_true, Bool.or_true, Bool.or_false] at b0 b1 ⊢
    · rw [zadd]
      exact ⟨mul_nonneg b0.1 b1.1, by nlinarith⟩
    · rw [show f0.int + f1.int - 1 = f0.int + (f1.int - 1) by ring, zadd]
      constructor <;> nlinarith
    · rw [show f0.int + f1.int - 1 = (f0.int - 1) + f1.int by ring, zadd]
      constructor <;> nlinarith
    · have : (2 : ℚ) ^ (f0.int + f1.int - 1) = 2 * ((2 : ℚ) ^ (f0.int - 1) * (2 : ℚ) ^ (f1.int - 1)) := by
        rw [show f0.int + f1.int - 1 = 1 + ((f0.int - 1) + (f1.int - 1)) by ring, zadd, zadd]; norm_num
      rw [this]
      have a0 : |v0| ≤ (2 : ℚ) ^ (f0.int - 1) := abs_le.2 ⟨b0.1, b0.2.le⟩
      have a1 : |v1| ≤ (2 : ℚ) ^ (f1.int - 1) := abs_le.2 ⟨b1.1, b1.2.le⟩
      have a2 : |v0 * v1| ≤ (2 : ℚ) ^ (f0.int - 1) * (2 : ℚ) ^ (f1.int - 1) := by
        rw [abs_mul]; exact mul_le_mul a0 a1 (abs_nonneg _) p0.le
      have pp := mul_pos p0 p1
      have := abs_le.1 a2
      exact ⟨by linarith, by linarith⟩
  rcases le_or_gt (f0.int + f1.int) g.int with hle | hlt
  · simp only [min_eq_right hle]
    exact full
  · simp only [min_eq_left hlt.le]
    obtain ⟨-, hb⟩ := hres
    have key : ∀ k : ℤ, 0 ≤ k → down g.frac (v0 * v1) < (2 : ℚ) ^ k → v0 * v1 < (2 : ℚ) ^ k := by
      intro k hk hw
      by_contra hc
      push Not at hc
      have h1 : down g.frac ((2 : ℚ) ^ k) = (2 : ℚ) ^ k := down_id (Fixed.OnGrid.pow (by omega))
      have h2 := down_mono (gf := g.frac) hc
      rw [h1] at h2
      linarith
    have hlow := down_le g.frac (v0 * v1)
    cases hs : (f0.signed || f1.signed) <;> simp only [hs, Bool.false_eq_true, if_false, if_true] at full ⊢
    · refine ⟨full.1, ?_⟩
      cases hgs : g.signed <;> simp only [hgs, Bool.false_eq_true, if_false, if_true] at hb
      · exact key _ (by omega) hb.2
      · have h1 := key _ (by omega) hb.2
        have h2 := e g.int
        have h3 := zp (g.int - 1)
        linarith
    · have hgs : g.signed = true := by
        rcases hfit with h | ⟨h, h'⟩ | h
        · exact h
        · simp [h, h'] at hs
        · omega
      simp only [hgs, if_true] at hb
      exact ⟨by linarith [hb.1], key _ (by omega) hb.2⟩

/-- **C68** (multiplication) The generated multiplication returns the product rounded toward minus infinity whenever this is in the
result format, when the product is not negative or no fraction bit is dropped, when signed operands have a signed or a large enough
result, and when the C type of the second operand is not that of the intermediate product, unless the first has this type too.
Missing: negative products that lose bits (`C68_conv_negative_wrong`) and the case of the types (`C68_mul_wrong`). -/
theorem C68_mul_partial {f0 f1 g : Fmt} (h0 : 1 ≤ f0.int) (h0' : 0 ≤ f0.frac) (h0b : f0.int + f0.frac ≤ 128) (h1 : 1 ≤ f1.int) (h1' : 0 ≤ f1.frac)
    (h1b : f1.int + f1.frac ≤ 128) (hg : 1 ≤ g.int) (hg' : 0 ≤ g.frac) (hgb : g.int + g.frac ≤ 128)
    (htb : min g.int (f0.int + f1.int) + (f0.frac + f1.frac) ≤ 128) {x0 x1 : ℤ} {v0 v1 : ℚ} (s0 : Stores f0 x0 v0) (s1 : Stores f1 x1 v1)
    (hv0 : f0.Holds v0) (hv1 : f1.Holds v1) (hres : g.Holds (down g.frac (v0 * v1)))
    (hfit : g.signed = true ∨ (f0.signed = false ∧ f1.signed = false) ∨ f0.int + f1.int ≤ g.int)
    (hrnd : 0 ≤ v0 * v1 ∨ f0.frac + f1.frac ≤ g.frac) {c0 c1 c : ℕ} (hc0 : Container (f0.int + f0.frac) c0)
    (hc1 : Container (f1.int + f1.frac) c1) (hc : Container (min g.int (f0.int + f1.int) + (f0.frac + f1.frac)) c)
    (hty : ¬ (c1 = c ∧ f1.signed = (f0.signed || f1.signed)) ∨ (c0 = c ∧ f0.signed = (f0.signed || f1.signed))) :
    ∃ m, mul f0 f1 g x0 x1 = some m ∧ Stores g m (down g.frac (v0 * v1)) := by
  set tmp : Fmt := ⟨min g.int (f0.int + f1.int), f0.frac + f1.frac, f0.signed || f1.signed⟩ with htmp
  have hti : 1 ≤ tmp.int := by simp only [htmp]; omega
  have htf : 0 ≤ tmp.frac := by simp only [htmp]; omega
  have ht : tmp.Holds (v0 * v1) := mul_tmp h0 h1 hg hg' hv0 hv1 hres hfit
  have st : Stores tmp (x0 * x1) (v0 * v1) := by
    unfold Stores at s0 s1 ⊢
    rw [s0, s1]
    simp only [htmp]
    rw [neg_add, zadd]; push_cast; ring
  have hfits := (holds_fits (by omega) st).1 ht
  have hcl := hc.2.1
  have himul : imul ⟨c, tmp.signed⟩ ⟨c0, f0.signed⟩ ⟨c1, f1.signed⟩ x0 x1 = x0 * x1 := by
    have hfc : (CInt.mk c tmp.signed).Fits (x0 * x1) := fits_mono (by simp only [htmp]; omega) hfits
    have hcp : 1 ≤ c := by omega
    have m0 := wrap_mod ⟨c, tmp.signed⟩ x0
    have m1 := wrap_mod ⟨c, tmp.signed⟩ x1
    unfold imul
    split
    · exact fits_wrap hcp hfc
    · rename_i hne
      have hb : (CInt.mk c1 f1.signed) ≠ ⟨c, tmp.signed⟩ := by
        intro hcon
        rw [CInt.mk.injEq] at hcon
        rcases hty with h | h
        · exact h hcon
        · exact hne ⟨by rw [CInt.mk.injEq]; exact h, by rw [CInt.mk.injEq]; exact hcon⟩
      simp only [hb, ne_eq, not_false_eq_true, if_true]
      refine wrap_eq hcp hfc ?_
      split
      · exact m0.mul m1
      · exact (Int.ModEq.refl x0).mul m1
  obtain ⟨m, hm, sm⟩ := C68_conv_partial (f := tmp) hti htf htb hg hg' hgb st ht hres hrnd
  refine ⟨m, ?_, sm⟩
  unfold mul
  simp only [container_eq (by omega) hc0, container_eq (by omega) hc1, Option.bind_some]
  rw [container_eq (f := tmp) (by omega) hc]
  simp only [Option.bind_some]
  rw [himul]
  exact hm

/-- 1.5 * 2.25 -/
example : mul ⟨4, 4, false⟩ ⟨4, 4, false⟩ ⟨8, 4, false⟩ 24 36 = some 54 := by decide +kernel

/-- When only the second operand has the C type of the intermediate product, the result does not depend on the second operand (it is
the square of the first one): 1 * 3 = 1 * 200, here with formats of 8 and 24 bits. -/
theorem C68_mul_wrong {f0 f1 g : Fmt} (h0 : 1 ≤ f0.int + f0.frac) (h1 : 1 ≤ f1.int + f1.frac)
    (ht : 1 ≤ min g.int (f0.int + f1.int) + (f0.frac + f1.frac)) {c0 c : ℕ} (hc0 : Container (f0.int + f0.frac) c0)
    (hc1 : Container (f1.int + f1.frac) c) (hc : Container (min g.int (f0.int + f1.int) + (f0.frac + f1.frac)) c)
    (hty : f1.signed = (f0.signed || f1.signed) ∧ ¬ (c0 = c ∧ f0.signed = (f0.signed || f1.signed))) (x0 x1 x1' : ℤ) :
    mul f0 f1 g x0 x1 = mul f0 f1 g x0 x1' := by
  unfold mul
  simp only [container_eq h0 hc0, container_eq h1 hc1, Option.bind_some]
  rw [container_eq (f := ⟨min g.int (f0.int + f1.int), f0.frac + f1.frac, f0.signed || f1.signed⟩) ht hc]
  simp only [Option.bind_some]
  congr 1
  unfold imul
  have e1 : (CInt.mk c f1.signed) = ⟨c, f0.signed || f1.signed⟩ := by rw [CInt.mk.injEq]; exact ⟨rfl, hty.1⟩
  have e0 : (CInt.mk c0 f0.signed) ≠ ⟨c, f0.signed || f1.signed⟩ := by rw [ne_eq, CInt.mk.injEq]; exact hty.2
  simp only [e0, false_and, if_false, e1, ne_eq, not_true_eq_false, not_false_eq_true, if_true]

example : mul ⟨4, 4, false⟩ ⟨8, 16, false⟩ ⟨12, 20, false⟩ 16 (3 * 2 ^ 16) = some 256 ∧
    mul ⟨4, 4, false⟩ ⟨8, 16, false⟩ ⟨12, 20, false⟩ 16 (200 * 2 ^ 16) = some 256 := by decide +kernel

/-! ## Comparison -/

/-- **C68** (comparison) For operands of one format the comparison of the integers is that of the numbers. Missing: two formats, which
raise (`C68_cmp_wrong`). -/
theorem C68_cmp_partial {f : Fmt} (hf : 1 ≤ f.int + f.frac) (hfb : f.int + f.frac ≤ 128) {x0 x1 : ℤ} {v0 v1 : ℚ} (s0 : Stores f x0 v0)
    (s1 : Stores f x1 v1) (p : Pred) : ∃ b, cmp p f f x0 x1 = some b ∧ (b = true ↔ p.Rel v0 v1) := by
  obtain ⟨w, hw, -⟩ := support_eq hf hfb
  refine ⟨p.evalC x0 x1, by simp [cmp, hw], ?_⟩
  unfold Stores at s0 s1
  rw [s0, s1]
  have hp := zp (-f.frac)
  generalize (2 : ℚ) ^ (-f.frac) = s at hp
  cases p <;> simp [Pred.evalC, Pred.Rel, mul_lt_mul_iff_of_pos_right hp, mul_le_mul_iff_of_pos_right hp, hp.ne']

example : cmp .lt ⟨4, 4, true⟩ ⟨4, 4, true⟩ (-3) 2 = some true := by decide +kernel

/-- Operands of two formats cannot be compared: the generator raises. -/
theorem C68_cmp_wrong {f0 f1 : Fmt} (h : f0 ≠ f1) (p : Pred) (x0 x1 : ℤ) : cmp p f0 f1 x0 x1 = none := by simp [cmp, h]

/-! ## Conversions from and to floating-point -/

/-- **C68** (from floating-point) A number that is in the fixed-point format, and whose integer is in the floating-point format, is
converted exactly. Missing: numbers that have to be rounded (`C68_from_fp_wrong`). -/
theorem C68_from_fp_partial {F : Float.Fmt} (he : 1 ≤ F.e) {g : Fmt} (hb : 1 ≤ g.int + g.frac) (hbb : g.int + g.frac ≤ 128) {x : ℚ}
    (hx : g.Holds x) (hF : F.Finite ((2 : ℚ) ^ g.frac * x)) : ∃ n, fromFp F g x = some n ∧ Stores g n x := by
  obtain ⟨n, hn⟩ := stores_int hx
  have hfit := (holds_fits hb hn).1 hx
  obtain ⟨w, hw, hwl, -⟩ := support_eq hb hbb
  refine ⟨n, ?_, hn⟩
  have e : (2 : ℚ) ^ g.frac * x = n := by
    unfold Stores at hn
    rw [hn, mul_comm, mul_assoc, ← zadd]; simp
  unfold fromFp
  rw [e] at hF ⊢
  rw [Float.rnd_finite he hF]
  simp only [Option.bind_some, hw, Option.map_some, Float.rne_int, Option.some.injEq]
  exact fits_wrap (by simp only; omega) (fits_mono (by omega) hfit)

/-- 0.75 in binary32, converted to an integer format with the rounding toward minus infinity the backend accepts: 1 -/
theorem C68_from_fp_wrong : ∃ (F : Float.Fmt) (g : Fmt) (x : ℚ) (n : ℤ), F.Finite x ∧ g.Holds (down g.frac x) ∧ fromFp F g x = some n ∧
    ¬ Stores g n (down g.frac x) := by
  have hF : Float.Fmt.Finite ⟨8, 23⟩ (3 / 4) := ⟨3, 21, by norm_num, by norm_num [Float.Fmt.emin, Float.Fmt.emax], by norm_num [Float.Fmt.emax], by norm_num⟩
  have hd : down 0 (3 / 4) = 0 := by
    unfold down
    have : ⌊(3 / 4 : ℚ) * (2 : ℚ) ^ (0 : ℤ)⌋ = 0 := by rw [Int.floor_eq_iff]; norm_num
    rw [this]; norm_num
  refine ⟨⟨8, 23⟩, ⟨8, 0, false⟩, 3 / 4, 1, hF, ?_, ?_, ?_⟩
  · simp only [hd]; exact ⟨⟨0, by norm_num⟩, by norm_num⟩
  · have hr : Float.rne (3 / 4) = 1 := by
      have : ⌊(3 / 4 : ℚ)⌋ = 0 := by rw [Int.floor_eq_iff]; norm_num
      unfold Float.rne
      simp only [this]
      norm_num
    unfold fromFp
    have e : (2 : ℚ) ^ (0 : ℤ) * (3 / 4) = 3 / 4 := by norm_num
    simp only [e, Float.rnd_finite (by norm_num) hF, Option.bind_some, hr]
    decide +kernel
  · simp only [hd]; norm_num [Stores]

/-- **C68** (to floating-point) A stored number is converted exactly when it is in the floating-point format, as well as the integer
that stores it and the scale factor. -/
theorem C68_to_fp {F : Float.Fmt} (he : 1 ≤ F.e) {f : Fmt} {n : ℤ} {v : ℚ} (hn : Stores f n v) (h1 : F.Finite n) (h2 : F.Finite v)
    (h3 : F.Finite ((2 : ℚ) ^ (-f.frac))) : toFp F f n = some v := by
  unfold Stores at hn
  unfold toFp
  rw [Float.rnd_finite he h1, Option.bind_some, Float.rnd_finite he h3, Option.bind_some, ← hn, Float.rnd_finite he h2]

/-- 1.5 stored in U4.4 -/
example : toFp ⟨8, 23⟩ ⟨4, 4, false⟩ 24 = some (3 / 2) :=
  C68_to_fp (by norm_num) (by norm_num [Stores])
    ⟨24, 23, by norm_num, by norm_num [Float.Fmt.emin, Float.Fmt.emax], by norm_num [Float.Fmt.emax], by norm_num⟩
    ⟨24, 19, by norm_num, by norm_num [Float.Fmt.emin, Float.Fmt.emax], by norm_num [Float.Fmt.emax], by norm_num⟩
    ⟨1, 19, by norm_num, by norm_num [Float.Fmt.emin, Float.Fmt.emax], by norm_num [Float.Fmt.emax], by norm_num⟩

end Verif.FixC
