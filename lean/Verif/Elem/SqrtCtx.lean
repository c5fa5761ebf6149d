import Verif.Elem.SqrtNR
import Verif.Elem.SqrtInt

/-! # The square root in units of half its last place -/

namespace Verif.Elem

open Verif.Float (Fmt Val)
open Verif.Check

/-- half the last place of the numbers between `2 ^ e` and `2 ^ (e + 1)` -/
noncomputable def ww (F : Fmt) (e : ℤ) : ℝ := (2 : ℝ) ^ (e - F.f - 1)

/-- `2 ^ e` in these units -/
def TT (F : Fmt) : ℤ := 2 ^ (F.f + 1)

theorem ww_pos (F : Fmt) (e : ℤ) : 0 < ww F e := r2 _

theorem TT_cast (F : Fmt) : ((TT F : ℤ) : ℝ) = (2 : ℝ) ^ ((F.f : ℤ) + 1) := by
  unfold TT; push_cast
  rw [show ((F.f : ℤ) + 1) = ((F.f + 1 : ℕ) : ℤ) by push_cast; ring, zpow_natCast]

theorem TT_ww (F : Fmt) (e : ℤ) : (TT F : ℝ) * ww F e = (2 : ℝ) ^ e := by
  rw [TT_cast]; unfold ww; rw [← r2add]; congr 1; ring

theorem uu_TT (F : Fmt) : uu F = 1 / (TT F : ℝ) := by
  rw [TT_cast, one_div, ← zpow_neg]; unfold uu; congr 1; ring

/-- the square root `s` of the value of `x`, between `2 ^ e` and `2 ^ (e + 1)` -/
structure Ctx (F : Fmt) (x : Val) (s : ℝ) (e X : ℤ) : Prop where
  hf : 20 ≤ F.f
  hm : 2 * (F.f : ℤ) + 4 ≤ F.emax
  hx : Fin' F x
  s0 : 0 < s
  hs : s ^ 2 = rv x
  e1 : (2 : ℝ) ^ e ≤ s
  e2 : s < (2 : ℝ) ^ (e + 1)
  lo : F.emin + F.f + 3 ≤ 2 * e
  hi : 2 * e ≤ F.emax
  hX : rv x = X * ww F e ^ 2
  sq : Sq (TT F) X (s / ww F e)

theorem Ctx.big {F : Fmt} {x : Val} {s : ℝ} {e X : ℤ} (c : Ctx F x s e X) : Big F :=
  ⟨by have := c.hf; omega, by have := c.hm; have := c.hf; omega⟩

theorem ctx_of {F : Fmt} {x : Val} (hf : 20 ≤ F.f) (hm : 2 * (F.f : ℤ) + 4 ≤ F.emax) (hx : Fin' F x) (hlo : (2 : ℝ) ^ (F.emin + F.f + 4) ≤ rv x) {s : ℝ}
    (s0 : 0 < s) (hs : s ^ 2 = rv x) : ∃ e X, Ctx F x s e X := by
  have B : Big F := ⟨by omega, by omega⟩
  have he := B.he2
  obtain ⟨e, h1, h2⟩ := binade s0
  have hp := r2 e
  have q1 : (2 : ℝ) ^ (2 * e) ≤ rv x := by
    rw [show 2 * e = e + e by ring, r2add, ← hs]; nlinarith
  have q2 : rv x < (2 : ℝ) ^ (2 * e + 2) := by
    rw [show 2 * e + 2 = (e + 1) + (e + 1) by ring, r2add, ← hs]; nlinarith
  have hxo := (fin_unb he hx)
  have q3 : rv x < (2 : ℝ) ^ (F.emax + 1) := by
    have h2 := omega_lt he
    have : numOf x < (2 : ℚ) ^ (F.emax + 1) := by have := le_abs_self (numOf x); linarith [hxo.2]
    unfold rv
    rw [r2cast (F.emax + 1)]; exact_mod_cast this
  have a1 : F.emin + F.f + 4 < 2 * e + 2 := r2lt' (lt_of_le_of_lt hlo q2)
  have a2 : 2 * e < F.emax + 1 := r2lt' (lt_of_le_of_lt q1 q3)
  have grid : ∀ E : ℤ, (2 : ℝ) ^ E ≤ rv x → ∃ n : ℤ, rv x = n * (2 : ℝ) ^ (E - F.f) := by
    intro E hE
    obtain ⟨n, hn⟩ := unb_grid hxo.1 (E := E) (by
      unfold rv at hE; rw [r2cast] at hE
      exact le_trans (by exact_mod_cast hE) (le_abs_self _))
    exact ⟨n, by unfold rv; rw [hn]; push_cast; rfl⟩
  obtain ⟨n, hn⟩ := grid _ q1
  have hw := ww_pos F e
  have hww : ww F e ^ 2 = (2 : ℝ) ^ (2 * e - 2 * F.f - 2) := by
    unfold ww; rw [sq, ← r2add]; congr 1; ring
  have hTw := TT_ww F e
  have hXv : rv x = ((n * (2 * TT F) : ℤ) : ℝ) * ww F e ^ 2 := by
    have : (((2 * TT F) : ℤ) : ℝ) * ww F e ^ 2 = (2 : ℝ) ^ (2 * e - F.f) := by
      push_cast
      rw [hww, TT_cast, show (2 : ℝ) * 2 ^ ((F.f : ℤ) + 1) = (2 : ℝ) ^ ((F.f : ℤ) + 2) by
        rw [show (F.f : ℤ) + 2 = 1 + (F.f + 1) by ring, r2add 1, zpow_one], ← r2add]
      congr 1; ring
    rw [hn]; push_cast at this ⊢
    linear_combination -(n : ℝ) * this
  refine ⟨e, n * (2 * TT F), hf, hm, hx, s0, hs, h1, h2, by omega, by omega, hXv, ?_⟩
  set X := n * (2 * TT F) with hXdef
  have hXdiv : (X : ℝ) = rv x / ww F e ^ 2 := by rw [hXv]; field_simp
  have hT0 : (0 : ℝ) < TT F := by rw [TT_cast]; exact r2 _
  constructor
  · exact ⟨F.f + 1, by omega, rfl⟩
  · positivity
  · rw [div_pow, hs, hXv]; field_simp
  · have : ((TT F ^ 2 : ℤ) : ℝ) ≤ X := by
      rw [hXdiv, le_div_iff₀ (by positivity)]; push_cast
      rw [← mul_pow, hTw]
      refine le_trans (le_of_eq ?_) q1
      rw [sq, ← r2add]; congr 1; ring
    exact_mod_cast this
  · have : (X : ℝ) < ((4 * TT F ^ 2 : ℤ) : ℝ) := by
      rw [hXdiv, div_lt_iff₀ (by positivity)]; push_cast
      rw [mul_assoc, ← mul_pow, hTw]
      refine lt_of_lt_of_eq q2 ?_
      rw [show 2 * e + 2 = 2 + e + e by ring, r2add, r2add]; norm_num; ring
    exact_mod_cast this
  · exact ⟨n, by rw [hXdef]; ring⟩
  · intro h
    have h' : (2 : ℝ) ^ (2 * e + 1) ≤ rv x := by
      have : ((2 * TT F ^ 2 : ℤ) : ℝ) ≤ X := by exact_mod_cast h
      rw [hXdiv, le_div_iff₀ (by positivity)] at this; push_cast at this
      rw [mul_assoc, ← mul_pow, hTw] at this
      refine le_trans (le_of_eq ?_) this
      rw [show 2 * e + 1 = 1 + e + e by ring, r2add, r2add]; norm_num; ring
    obtain ⟨k, hk⟩ := grid _ h'
    refine ⟨k, ?_⟩
    have : (X : ℝ) = ((4 * TT F * k : ℤ) : ℝ) := by
      rw [hXdiv, hk]
      push_cast
      rw [div_eq_iff (by positivity), hww, TT_cast,
        show (4 : ℝ) * 2 ^ ((F.f : ℤ) + 1) * k * 2 ^ (2 * e - 2 * (F.f : ℤ) - 2) = k * ((2 : ℝ) ^ ((F.f : ℤ) + 3) * 2 ^ (2 * e - 2 * (F.f : ℤ) - 2)) by
          rw [show (F.f : ℤ) + 3 = 2 + (F.f + 1) by ring, r2add 2, show (2 : ℝ) ^ (2 : ℤ) = 4 by norm_num]; ring, ← r2add]
      congr 2; ring
    exact_mod_cast this

/-- no number of the format between a power of two and the next one -/
theorem no_gap {F : Fmt} {v : ℚ} (hv : Unbounded F v) {k : ℤ} : ¬ ((2 : ℝ) ^ k < v ∧ (v : ℝ) < (2 : ℝ) ^ k * (1 + 2 * uu F)) := by
  rintro ⟨h1, h2⟩
  have hp := r2 k
  have h1' : (2 : ℚ) ^ k < v := by rw [r2cast] at h1; exact_mod_cast h1
  obtain ⟨n, hn⟩ := unb_grid hv (E := k) (le_trans h1'.le (le_abs_self _))
  have hq := r2 (k - F.f)
  have e1 : (2 : ℝ) ^ k = ((2 ^ F.f : ℤ) : ℝ) * (2 : ℝ) ^ (k - F.f) := by
    push_cast
    rw [← zpow_natCast, ← r2add]; congr 1; ring
  have e2 : (2 : ℝ) ^ k * (2 * uu F) = (2 : ℝ) ^ (k - F.f) := by
    unfold uu
    rw [show (2 : ℝ) * 2 ^ (-(F.f : ℤ) - 1) = (2 : ℝ) ^ (-(F.f : ℤ)) by
      rw [show -(F.f : ℤ) = 1 + (-(F.f : ℤ) - 1) by ring, r2add, zpow_one]; congr 2; ring, ← r2add]; congr 1
  have ev : (v : ℝ) = n * (2 : ℝ) ^ (k - F.f) := by rw [hn]; push_cast; rfl
  rw [mul_add, mul_one, e2, ev, e1] at h2
  rw [ev, e1] at h1
  have b1 : ((2 ^ F.f : ℤ) : ℝ) < n := lt_of_mul_lt_mul_right h1 hq.le
  have b2 : (n : ℝ) < ((2 ^ F.f + 1 : ℤ) : ℝ) := by
    refine lt_of_mul_lt_mul_right (a := (2 : ℝ) ^ (k - F.f)) ?_ hq.le
    push_cast at h2 ⊢; linarith
  have b1' : 2 ^ F.f < n := by exact_mod_cast b1
  have b2' : n < 2 ^ F.f + 1 := by exact_mod_cast b2
  omega

/-- the rounding of a multiple of a power of two above the least subnormal number -/
theorem ru_grid {F : Fmt} {n q : ℤ} (hq : F.emin - F.f ≤ q) :
    |(roundUnb F .RN (n * (2 : ℝ) ^ q) : ℝ) - n * (2 : ℝ) ^ q| ≤ uu F * |n * (2 : ℝ) ^ q| := by
  by_cases h : |n| ≤ 2 ^ (F.f + 1)
  · have e : (n * (2 : ℝ) ^ q : ℝ) = ((n * (2 : ℚ) ^ q : ℚ) : ℝ) := by push_cast; rfl
    rw [e, ru_exact (unb_of h hq), sub_self, abs_zero]
    have := uu_pos F
    positivity
  · have h := not_le.1 h
    have hR : ((2 ^ (F.f + 1) : ℤ) : ℝ) ≤ |(n : ℝ)| := by
      have : ((2 ^ (F.f + 1) : ℤ) : ℝ) ≤ ((|n| : ℤ) : ℝ) := by exact_mod_cast h.le
      rwa [Int.cast_abs] at this
    obtain ⟨d, hd, e⟩ := ru_norm (F := F) (z := n * (2 : ℝ) ^ q) (by
      rw [abs_mul, abs_of_pos (r2 q)]
      refine le_trans ?_ (mul_le_mul_of_nonneg_right hR (r2 q).le)
      push_cast
      rw [← zpow_natCast, ← r2add]; exact r2le (by push_cast; omega))
    rw [e, show (n * (2 : ℝ) ^ q * (1 + d) - n * (2 : ℝ) ^ q : ℝ) = d * (n * (2 : ℝ) ^ q) by ring, abs_mul]
    exact mul_le_mul_of_nonneg_right hd (abs_nonneg _)

end Verif.Elem
