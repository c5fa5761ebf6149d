import Verif.Fn.RemquoModel
import Verif.Fn.RemquoSpec
import Verif.Blocks.Lift
import Mathlib.Data.Int.ModEq
import Mathlib.Tactic.Linarith
import Mathlib.Tactic.NormNum
import Mathlib.Tactic.Ring
import Mathlib.Tactic.Positivity
import Mathlib.Tactic.Push
import Mathlib.Tactic.FieldSimp

namespace Verif.Fn

open Verif.Blocks (Rep zpow2_pos)

/-! ### wrapping integers -/

theorem wrapS_mod {w : ℕ} (z : ℤ) : wrapS w z ≡ z [ZMOD 2 ^ w] := by
  unfold wrapS
  have h : (z + 2 ^ (w - 1)) % 2 ^ w ≡ z + 2 ^ (w - 1) [ZMOD 2 ^ w] := Int.mod_modEq _ _
  have := h.sub_right (2 ^ (w - 1))
  simpa using this

theorem wrapS_congr {w : ℕ} {a b : ℤ} (h : a ≡ b [ZMOD 2 ^ w]) : wrapS w a = wrapS w b := by
  unfold wrapS
  have := h.add_right (2 ^ (w - 1))
  rw [show (a + 2 ^ (w - 1)) % 2 ^ w = (b + 2 ^ (w - 1)) % 2 ^ w from this]

theorem wrapS_lin {w : ℕ} (c Q b : ℤ) : wrapS w (c * wrapS w Q + b) = wrapS w (c * Q + b) :=
  wrapS_congr (((wrapS_mod Q).mul_left c).add_right b)

theorem wrapS_add {w : ℕ} (Q b : ℤ) : wrapS w (wrapS w Q + b) = wrapS w (Q + b) :=
  wrapS_congr ((wrapS_mod Q).add_right b)

theorem wrapS_id {w : ℕ} (hw : 1 ≤ w) {z : ℤ} (h1 : -(2 ^ (w - 1)) ≤ z) (h2 : z < 2 ^ (w - 1)) :
    wrapS w z = z := by
  unfold wrapS
  obtain ⟨v, rfl⟩ : ∃ v, w = v + 1 := ⟨w - 1, by omega⟩
  rw [Nat.add_sub_cancel] at *
  rw [Int.emod_eq_of_lt (by linarith) (by rw [pow_succ]; linarith)]
  ring

/-! ### multiples of a unit -/

/-- `v` is an integer multiple of `2^u` -/
def Mult (u : ℤ) (v : ℚ) : Prop := ∃ m : ℤ, v = (m : ℚ) * (2:ℚ) ^ u

theorem z2 (a b : ℤ) : (2:ℚ) ^ (a + b) = 2 ^ a * 2 ^ b := zpow_add₀ (by norm_num) a b

theorem z2_le {a b : ℤ} (h : a ≤ b) : (2:ℚ) ^ a ≤ 2 ^ b := zpow_le_zpow_right₀ (by norm_num) h

theorem z2_lt {a b : ℤ} (h : (2:ℚ) ^ a < 2 ^ b) : a < b := by
  by_contra hc
  exact absurd (z2_le (not_lt.1 hc)) (not_le.2 h)

theorem Mult.mono {u u' : ℤ} {v : ℚ} (h : Mult u' v) (hu : u ≤ u') : Mult u v := by
  obtain ⟨m, rfl⟩ := h
  obtain ⟨k, rfl⟩ : ∃ k : ℕ, u' = u + k := ⟨(u' - u).toNat, by omega⟩
  refine ⟨m * 2 ^ k, ?_⟩
  rw [z2, zpow_natCast]
  push_cast
  ring

theorem Mult.sub {u : ℤ} {a b : ℚ} (ha : Mult u a) (hb : Mult u b) : Mult u (a - b) := by
  obtain ⟨m, rfl⟩ := ha
  obtain ⟨n, rfl⟩ := hb
  exact ⟨m - n, by push_cast; ring⟩

theorem Mult.neg {u : ℤ} {a : ℚ} (ha : Mult u a) : Mult u (-a) := by
  obtain ⟨m, rfl⟩ := ha
  exact ⟨-m, by push_cast; ring⟩

theorem Mult.abs {u : ℤ} {a : ℚ} (ha : Mult u a) : Mult u |a| := by
  rcases abs_choice a with h | h
  · rw [h]; exact ha
  · rw [h]; exact ha.neg

theorem Mult.zero (u : ℤ) : Mult u 0 := ⟨0, by simp⟩

theorem Mult.scale {u : ℤ} {a : ℚ} (e : ℤ) (ha : Mult u a) : Mult (u + e) (a * 2 ^ e) := by
  obtain ⟨m, rfl⟩ := ha
  exact ⟨m, by rw [z2]; ring⟩

theorem Mult.double {u : ℤ} {a : ℚ} (ha : Mult u a) : Mult (u + 1) (2 * a) := by
  have := ha.scale 1
  rwa [zpow_one, mul_comm] at this

/-- a `p`-digit number with last place `u` -/
def Fine (p : ℕ) (u : ℤ) (v : ℚ) : Prop := Mult u v ∧ |v| < (2:ℚ) ^ ((p : ℤ) + u)

theorem Fine.scale {p : ℕ} {u : ℤ} {v : ℚ} (h : Fine p u v) (e : ℤ) :
    Fine p (u + e) (v * 2 ^ e) := by
  refine ⟨h.1.scale e, ?_⟩
  rw [abs_mul, abs_of_pos (zpow2_pos e), ← add_assoc, z2 _ e]
  exact mul_lt_mul_of_pos_right h.2 (zpow2_pos e)

theorem Fine.rep {p : ℕ} {q u : ℤ} {v : ℚ} (h : Fine p u v) (hq : q ≤ u) : Rep p q v := by
  obtain ⟨⟨m, rfl⟩, h2⟩ := h
  refine ⟨m, u, ?_, WithBot.coe_le_coe.2 hq, rfl⟩
  rw [abs_mul, abs_of_pos (zpow2_pos u), z2] at h2
  have := lt_of_mul_lt_mul_right h2 (zpow2_pos u).le
  rw [zpow_natCast] at this
  exact_mod_cast this

theorem Fine.exact {p : ℕ} {q u : ℤ} {v : ℚ} {rnd : ℚ → ℚ} (hr : IsRounding p q rnd)
    (h : Fine p u v) (hq : q ≤ u) : rnd v = v := hr.2 v (h.rep hq)

theorem scale_exact {p : ℕ} {q u a b : ℤ} {v : ℚ} {rnd : ℚ → ℚ} (hr : IsRounding p q rnd)
    (h : Fine p u v) (h1 : q ≤ u + a) (h2 : q ≤ u + a + b) :
    rnd (rnd (v * 2 ^ a) * 2 ^ b) = v * 2 ^ (a + b) := by
  rw [(h.scale a).exact hr h1, ((h.scale a).scale b).exact hr h2, z2]
  ring

/-! ### exponents -/

/-- last place of a number of the format -/
def ulpE (p : ℕ) (emin : ℤ) (v : ℚ) : ℤ := max (emin - p + 1) (expo emin v - p + 1)

theorem rep_facts {p : ℕ} {emin : ℤ} {v : ℚ} (hv : Rep p (emin - p + 1 : ℤ) v) (h0 : v ≠ 0) :
    Fine p (ulpE p emin v) v ∧ |v| < (2:ℚ) ^ (expo emin v + 1) ∧
      (¬ |v| < (2:ℚ) ^ emin → (2:ℚ) ^ expo emin v ≤ |v| ∧ emin ≤ expo emin v) ∧
      emin - 1 ≤ expo emin v := by
  obtain ⟨m, f, hm, hf, rfl⟩ := hv
  have hf : emin - p + 1 ≤ f := WithBot.coe_le_coe.1 hf
  have hpos : 0 < |(m:ℚ) * 2 ^ f| := abs_pos.2 h0
  have hlow := Int.zpow_log_le_self (b := 2) (by norm_num) hpos
  have hhigh := Int.lt_zpow_succ_log_self (b := 2) (by norm_num) |(m:ℚ) * 2 ^ f|
  push_cast at hlow hhigh
  have hmag : |(m:ℚ) * 2 ^ f| < 2 ^ ((p:ℤ) + f) := by
    rw [abs_mul, abs_of_pos (zpow2_pos f), z2, zpow_natCast]
    refine mul_lt_mul_of_pos_right ?_ (zpow2_pos f)
    exact_mod_cast hm
  have hM : Mult f ((m:ℚ) * 2 ^ f) := ⟨m, rfl⟩
  unfold ulpE expo
  generalize hv : (m:ℚ) * 2 ^ f = v at *
  split
  · rename_i hs
    have e : max (emin - p + 1) (emin - 1 - p + 1) = emin - (p:ℤ) + 1 := by omega
    rw [e]
    refine ⟨⟨hM.mono hf, ?_⟩, ?_, fun h => absurd hs h, le_refl _⟩
    · exact hs.trans_le (z2_le (by omega))
    · exact hs.trans_le (z2_le (by omega))
  · rename_i hs
    have he : emin ≤ Int.log 2 |v| := by
      have := (not_lt.1 hs).trans_lt hhigh
      have := z2_lt this
      omega
    have h1 : Int.log 2 |v| < (p:ℤ) + f := z2_lt (hlow.trans_lt hmag)
    have e : max (emin - p + 1) (Int.log 2 |v| - p + 1) = Int.log 2 |v| - (p:ℤ) + 1 := by omega
    rw [e]
    refine ⟨⟨hM.mono (by omega), ?_⟩, hhigh, fun _ => ⟨hlow, he⟩, by omega⟩
    exact hhigh.trans_le (z2_le (by omega))

theorem tdiv_bounds (e : ℤ) : (0 ≤ e → 0 ≤ Int.tdiv e 2 ∧ Int.tdiv e 2 ≤ e) ∧
    (e ≤ 0 → e ≤ Int.tdiv e 2 ∧ Int.tdiv e 2 ≤ 0) := by
  constructor
  · intro h
    rw [Int.tdiv_eq_ediv_of_nonneg h]
    omega
  · intro h
    obtain ⟨f, rfl⟩ : ∃ f : ℤ, e = -f := ⟨-e, by omega⟩
    rw [Int.neg_tdiv, Int.tdiv_eq_ediv_of_nonneg (by omega)]
    omega

theorem tdiv_half (e : ℤ) (h : e ≤ 0) : e - 1 ≤ 2 * Int.tdiv (e - 1) 2 := by
  obtain ⟨f, hf⟩ : ∃ f : ℤ, e - 1 = -f := ⟨-(e - 1), by omega⟩
  rw [hf, Int.neg_tdiv, Int.tdiv_eq_ediv_of_nonneg (by omega)]
  omega

theorem unscale_exact {p : ℕ} {emin : ℤ} (he : emin ≤ 0) {rnd : ℚ → ℚ}
    (hr : IsRounding p (emin - p + 1) rnd) {v : ℚ} (hv : Rep p (emin - p + 1 : ℤ) v) (h0 : v ≠ 0) :
    unscale2 rnd v (expo emin v) = v * 2 ^ (-expo emin v) := by
  obtain ⟨h1, -, -, h4⟩ := rep_facts hv h0
  have hu1 : emin - p + 1 ≤ ulpE p emin v := le_max_left _ _
  have hu2 : expo emin v - p + 1 ≤ ulpE p emin v := le_max_right _ _
  obtain ⟨t1, t2⟩ := tdiv_bounds (expo emin v)
  unfold unscale2
  rw [scale_exact hr h1]
  · congr 2; ring
  · rcases le_total 0 (expo emin v) with h | h
    · have := t1 h; omega
    · have := t2 h; omega
  · rcases le_total 0 (expo emin v) with h | h
    · have := t1 h; omega
    · have := t2 h; omega

/-- the scaled divisor -/
theorem my_facts {p : ℕ} (hp : 2 ≤ p) {emin : ℤ} (he : emin ≤ 0) {rnd : ℚ → ℚ}
    (hr : IsRounding p (emin - p + 1) rnd) {y : ℚ} (hy : Rep p (emin - p + 1 : ℤ) y) (h0 : y ≠ 0) :
    ∃ j : ℕ, myOf rnd p emin y = |y| * 2 ^ (-(expo emin y - j)) ∧
      1 ≤ myOf rnd p emin y ∧ myOf rnd p emin y < 2 ∧ Mult (1 - p) (myOf rnd p emin y) ∧
      (¬ |y| < (2:ℚ) ^ emin → j = 0) ∧
      (|y| < (2:ℚ) ^ emin → Mult (2 - p) (myOf rnd p emin y)) ∧ (j : ℤ) ≤ p - 2 := by
  obtain ⟨⟨h1, h1'⟩, h2, h3, h4⟩ := rep_facts hy h0
  have hypos : 0 < |y| := abs_pos.2 h0
  unfold myOf
  by_cases hs : |y| < (2:ℚ) ^ emin
  · simp only [if_pos hs]
    have hey : expo emin y = emin - 1 := by unfold expo; rw [if_pos hs]
    have hu : ulpE p emin y = emin - p + 1 := by unfold ulpE; rw [hey]; omega
    rw [hu] at h1 h1'
    have hz : rnd (y * (2:ℚ) ^ p) = y * 2 ^ p := by
      have hf : Fine p (emin - p + 1) y := ⟨h1, h1'⟩
      have h := (hf.scale (p:ℤ)).exact hr (by omega)
      rwa [zpow_natCast] at h
    rw [hz]
    have hzpos : 0 < |y * (2:ℚ) ^ p| := abs_pos.2 (mul_ne_zero h0 (by positivity))
    have hlow := Int.zpow_log_le_self (b := 2) (by norm_num) hzpos
    have hhigh := Int.lt_zpow_succ_log_self (b := 2) (by norm_num) |y * (2:ℚ) ^ p|
    push_cast at hlow hhigh
    unfold mantissa
    generalize hL : Int.log 2 |y * (2:ℚ) ^ p| = L at *
    have habs : |y * (2:ℚ) ^ p| = |y| * 2 ^ (p:ℤ) := by
      rw [abs_mul, zpow_natCast, abs_of_pos (by positivity : (0:ℚ) < 2 ^ p)]
    have hval : |y * (2:ℚ) ^ p / 2 ^ L| = |y| * 2 ^ ((p:ℤ) - L) := by
      rw [abs_div, habs, abs_of_pos (zpow2_pos L), sub_eq_add_neg, z2, zpow_neg,
        div_eq_mul_inv, mul_assoc]
    rw [habs] at hlow hhigh
    have b1 : L < emin + p := by
      refine z2_lt (hlow.trans_lt ?_)
      rw [z2]
      exact mul_lt_mul_of_pos_right hs (zpow2_pos _)
    have b2 : emin - p + 1 + p < L + 1 := by
      have hge : (2:ℚ) ^ (emin - p + 1) ≤ |y| := by
        obtain ⟨m, hm⟩ := h1
        have hm0 : m ≠ 0 := by rintro rfl; apply h0; rw [hm]; simp
        rw [hm, abs_mul, abs_of_pos (zpow2_pos _)]
        have : (1:ℚ) ≤ |(m:ℚ)| := by exact_mod_cast Int.one_le_abs hm0
        have := mul_le_mul_of_nonneg_right this (zpow2_pos (emin - p + 1)).le
        linarith
      refine z2_lt (lt_of_le_of_lt ?_ hhigh)
      rw [z2]
      exact mul_le_mul_of_nonneg_right hge (zpow2_pos _).le
    refine ⟨(emin - 1 - (L - p)).toNat, ?_, ?_, ?_, ?_, fun h => absurd hs h, fun _ => ?_, ?_⟩
    · rw [hval, hey, Int.toNat_of_nonneg (by omega)]
      congr 2; ring
    · rw [hval, sub_eq_add_neg, z2, ← mul_assoc]
      have := mul_le_mul_of_nonneg_right hlow (zpow2_pos (-L)).le
      rwa [← z2, add_neg_cancel, zpow_zero] at this
    · rw [hval, sub_eq_add_neg, z2, ← mul_assoc]
      have := mul_lt_mul_of_pos_right hhigh (zpow2_pos (-L))
      rwa [← z2, show L + 1 + -L = 1 by ring, zpow_one] at this
    · rw [hval]
      exact (h1.abs.scale _).mono (by omega)
    · rw [hval]
      exact (h1.abs.scale _).mono (by omega)
    · rw [Int.toNat_of_nonneg (by omega)]
      omega
  · simp only [if_neg hs]
    obtain ⟨g1, g2⟩ := h3 hs
    have hu : ulpE p emin y = expo emin y - p + 1 := by unfold ulpE; omega
    rw [hu] at h1 h1'
    rw [unscale_exact he hr hy h0, abs_mul, abs_of_pos (zpow2_pos _)]
    refine ⟨0, by simp, ?_, ?_, ?_, fun _ => rfl, fun h => absurd h hs, by simp; omega⟩
    · have := mul_le_mul_of_nonneg_right g1 (zpow2_pos (-expo emin y)).le
      rwa [← z2, add_neg_cancel, zpow_zero] at this
    · have := mul_lt_mul_of_pos_right h2 (zpow2_pos (-expo emin y))
      rwa [← z2, show expo emin y + 1 + -expo emin y = 1 by ring, zpow_one] at this
    · exact (h1.abs.scale _).mono (by omega)

/-! ### the loops -/

theorem loop1_spec {p : ℕ} (hp : 2 ≤ p) {q : ℤ} (hq : q ≤ 1 - p) {rnd : ℚ → ℚ}
    (hr : IsRounding p q rnd) {w : ℕ} {my : ℚ} (hmy : my < 2) (hM : Mult (1 - p) my) (n : ℕ) :
    ∀ (Q : ℤ) (mx : ℚ) (wd : ℕ), n ≤ wd → 0 ≤ Q → Mult (1 - p) mx → 0 ≤ mx → mx < 2 * my →
      ∃ (Q' : ℤ) (mx' : ℚ), loop1 rnd w my n (wrapS w Q) mx wd = some (wrapS w Q', mx', wd - n) ∧
        mx' + 2 * Q' * my = 2 ^ n * (mx + 2 * Q * my) ∧ 0 ≤ mx' ∧ mx' < 2 * my ∧ 0 ≤ Q' ∧
        (n = 0 → mx' = mx ∧ Q' = Q) ∧ (1 ≤ n → Mult (2 - p) mx') := by
  induction n with
  | zero =>
    intro Q mx wd _ hQ _ h1 h2
    exact ⟨Q, mx, rfl, by simp, h1, h2, hQ, fun _ => ⟨rfl, rfl⟩, fun h => absurd h (by omega)⟩
  | succ n ih =>
    intro Q mx wd hwd hQ hm h1 h2
    obtain ⟨wd, rfl⟩ : ∃ v, wd = v + 1 := ⟨wd - 1, by omega⟩
    have hd : ∃ (b : ℤ) (d : ℚ), (if my ≤ mx then (1:ℤ) else 0) = b ∧
        mx - (if my ≤ mx then my else 0) = d ∧ d = mx - b * my ∧ 0 ≤ b ∧ 0 ≤ d ∧ d < my ∧
        Mult (1 - p) d := by
      by_cases h : my ≤ mx
      · exact ⟨1, mx - my, by rw [if_pos h], by rw [if_pos h], by push_cast; ring, by norm_num,
          by linarith, by linarith, hm.sub hM⟩
      · exact ⟨0, mx, by rw [if_neg h], by rw [if_neg h, sub_zero], by push_cast; ring, le_refl _, h1,
          not_le.1 h, hm⟩
    obtain ⟨b, d, e1, e2, e3, b0, d0, d1, d2⟩ := hd
    have r1 : rnd d = d := by
      refine Fine.exact (u := 1 - p) hr ⟨d2, ?_⟩ hq
      rw [abs_of_nonneg d0, show (p:ℤ) + (1 - p) = 1 by ring, zpow_one]
      linarith
    have d3 : Mult (2 - p) (2 * d) := by
      have := d2.double
      rwa [show (1 - (p:ℤ)) + 1 = 2 - p by ring] at this
    have r2 : rnd (2 * d) = 2 * d := by
      refine Fine.exact (u := 2 - p) hr ⟨d3, ?_⟩ (by omega)
      rw [abs_of_nonneg (by linarith), show (p:ℤ) + (2 - p) = 2 by ring]
      norm_num
      linarith
    obtain ⟨Q', mx', i1, i2, i3, i4, i5, i6, i7⟩ := ih (2 * Q + b) (2 * d) wd (by omega)
      (by linarith) (d3.mono (by omega)) (by linarith) (by linarith)
    refine ⟨Q', mx', ?_, ?_, i3, i4, i5, fun h => absurd h (by omega), fun _ => ?_⟩
    · rw [loop1]
      rw [e1, e2, r1, r2, wrapS_lin, i1]
      congr 3
      omega
    · rw [i2, e3, pow_succ]
      push_cast
      ring
    · rcases n with _ | n
      · rw [(i6 rfl).1]; exact d3
      · exact i7 (by omega)

/-- the watchdog fires when the exponents are too far apart -/
theorem loop1_watchdog {rnd : ℚ → ℚ} {w : ℕ} {my : ℚ} (wd : ℕ) :
    ∀ (n : ℕ) (q : ℤ) (mx : ℚ), wd < n → loop1 rnd w my n q mx wd = none := by
  induction wd with
  | zero =>
    intro n q mx h
    obtain ⟨n, rfl⟩ : ∃ v, n = v + 1 := ⟨n - 1, by omega⟩
    rfl
  | succ wd ih =>
    intro n q mx h
    obtain ⟨n, rfl⟩ : ∃ v, n = v + 1 := ⟨n - 1, by omega⟩
    rw [loop1]
    exact ih n _ _ (by omega)

theorem loop2_skip {rnd : ℚ → ℚ} {w : ℕ} {ay my mx : ℚ} {q : ℤ} (h : my ≤ ay) (wd : ℕ) :
    loop2 rnd w ay wd q mx my = some (q, mx, wd) := by
  cases wd with
  | zero => rw [loop2, if_neg (not_lt.2 h)]
  | succ wd => rw [loop2, if_neg (not_lt.2 h)]

theorem loop2_spec {p : ℕ} {q : ℤ} {rnd : ℚ → ℚ} (hr : IsRounding p q rnd) {w : ℕ} {ay : ℚ}
    (hay : 0 < ay) (hM : Mult q ay) (j : ℕ) :
    ∀ (Q : ℤ) (mx : ℚ) (wd : ℕ), j ≤ wd → 0 ≤ Q → Mult q mx → 0 ≤ mx → mx < 2 * (ay * 2 ^ j) →
      ay * 2 ^ j < 2 ^ ((p:ℤ) + q) →
      ∃ (Q' : ℤ) (mx' : ℚ),
        loop2 rnd w ay wd (wrapS w Q) mx (ay * 2 ^ j) = some (wrapS w Q', mx', wd - j) ∧
        mx' + 2 * Q' * ay = mx + 2 * Q * (ay * 2 ^ j) ∧ 0 ≤ mx' ∧ mx' < 2 * ay ∧ 0 ≤ Q' ∧
        Mult q mx' := by
  induction j with
  | zero =>
    intro Q mx wd _ hQ hm h1 h2 _
    rw [pow_zero, mul_one] at *
    exact ⟨Q, mx, loop2_skip (le_refl _) wd, rfl, h1, h2, hQ, hm⟩
  | succ j ih =>
    intro Q mx wd hwd hQ hm h1 h2 h3
    obtain ⟨wd, rfl⟩ : ∃ v, wd = v + 1 := ⟨wd - 1, by omega⟩
    have hj : (1:ℚ) ≤ 2 ^ j := one_le_pow₀ (by norm_num)
    have hlt : ay * 2 ^ (j + 1) > ay := by
      rw [pow_succ]
      nlinarith
    have hmy : Mult q (ay * 2 ^ (j + 1)) := by
      have := hM.scale ((j + 1 : ℕ) : ℤ)
      rw [zpow_natCast] at this
      exact this.mono (by omega)
    have habs : |ay * 2 ^ (j + 1)| = ay * 2 ^ (j + 1) := abs_of_pos (by positivity)
    have hhalf : ay * 2 ^ (j + 1) * (1 / 2) = ay * 2 ^ j := by rw [pow_succ]; ring
    rw [loop2, if_pos hlt, habs, hhalf]
    set my := ay * 2 ^ (j + 1) with hmyd
    have hd : ∃ (b : ℤ) (d : ℚ), (if my ≤ mx then (1:ℤ) else 0) = b ∧
        mx - (if my ≤ mx then my else 0) = d ∧ d = mx - b * my ∧ 0 ≤ b ∧ 0 ≤ d ∧ d < my ∧
        Mult q d := by
      by_cases h : my ≤ mx
      · exact ⟨1, mx - my, by rw [if_pos h], by rw [if_pos h], by push_cast; ring, by norm_num,
          by linarith, by linarith, hm.sub hmy⟩
      · exact ⟨0, mx, by rw [if_neg h], by rw [if_neg h, sub_zero], by push_cast; ring, le_refl _, h1,
          not_le.1 h, hm⟩
    obtain ⟨b, d, e1, e2, e3, b0, d0, d1, d2⟩ := hd
    have r1 : rnd d = d := Fine.exact (u := q) hr ⟨d2, by rw [abs_of_nonneg d0]; linarith⟩ (le_refl _)
    have hlt2 : ay * 2 ^ j < my := by rw [hmyd, pow_succ]; nlinarith
    have r2 : rnd (ay * 2 ^ j) = ay * 2 ^ j := by
      refine Fine.exact (u := q) hr ⟨?_, ?_⟩ (le_refl _)
      · have := hM.scale ((j : ℕ) : ℤ)
        rw [zpow_natCast] at this
        exact this.mono (by omega)
      · rw [abs_of_pos (by positivity)]; linarith
    rw [e1, e2, r1, r2, wrapS_lin]
    have hmy2 : my = 2 * (ay * 2 ^ j) := by rw [hmyd, pow_succ]; ring
    obtain ⟨Q', mx', i1, i2, i3, i4, i5, i6⟩ := ih (2 * Q + b) d wd (by omega) (by linarith) d2 d0
      (by linarith) (by linarith)
    refine ⟨Q', mx', ?_, ?_, i3, i4, i5, i6⟩
    · rw [i1]; congr 3; omega
    · rw [i2, e3, hmy2]; push_cast; ring

end Verif.Fn
