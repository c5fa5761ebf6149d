import Verif.Elem.FpLemmas
import Verif.Float.Theorems

/-! # From a relative error to a faithful result -/

namespace Verif.Elem

open Verif.Float (Fmt Val)
open Verif.Check

/-- a number of the format above `2^E` is on the grid of that binade -/
theorem unb_grid {F : Fmt} {w : ℚ} (hw : Unbounded F w) {E : ℤ} (h : (2 : ℚ) ^ E ≤ |w|) : ∃ n : ℤ, w = n * (2 : ℚ) ^ (E - F.f) := by
  obtain ⟨m, E', hm, hE, rfl⟩ := hw
  apply grid_coarse
  by_contra hc
  have h1 : (|m| : ℚ) < 2 ^ (F.f + 1) := by exact_mod_cast hm
  have hp := Float.zp (E' - F.f)
  rw [abs_mul, abs_of_pos hp] at h
  have h2 : (|m| : ℚ) * (2 : ℚ) ^ (E' - F.f) < (2 : ℚ) ^ (F.f + 1) * (2 : ℚ) ^ (E' - F.f) := mul_lt_mul_of_pos_right h1 hp
  rw [← Float.znat, ← Float.zadd] at h2
  have h3 : (2 : ℚ) ^ (((F.f + 1 : ℕ) : ℤ) + (E' - F.f)) ≤ (2 : ℚ) ^ E := Float.zle (by push_cast; omega)
  linarith

/-- every number of the format is a multiple of the least one -/
theorem unb_min_grid {F : Fmt} {w : ℚ} (hw : Unbounded F w) : ∃ n : ℤ, w = n * (2 : ℚ) ^ (F.emin - F.f) := by
  obtain ⟨m, E', hm, hE, rfl⟩ := hw
  exact grid_coarse m (by omega)

theorem grid_gap {a b : ℤ} {q : ℤ} {v w : ℚ} (hv : v = a * (2 : ℚ) ^ q) (hw : w = b * (2 : ℚ) ^ q) (h : v < w) : (2 : ℚ) ^ q ≤ w - v := by
  have hp := Float.zp q
  subst hv hw
  have h1 : (a : ℚ) < b := lt_of_mul_lt_mul_right h hp.le
  have h2 : (a : ℚ) + 1 ≤ b := by exact_mod_cast (by exact_mod_cast h1 : a < b)
  nlinarith

theorem unb_gap {F : Fmt} {v w : ℚ} (hv : Unbounded F v) (hw : Unbounded F w) {E : ℤ} (h0 : (2 : ℚ) ^ E ≤ v) (h : v < w) :
    (2 : ℚ) ^ (E - F.f) ≤ w - v := by
  have hp := Float.zp E
  obtain ⟨a, ha⟩ := unb_grid hv (E := E) (by rwa [abs_of_pos (by linarith)])
  obtain ⟨b, hb⟩ := unb_grid hw (E := E) (by rw [abs_of_pos (by linarith)]; linarith)
  exact grid_gap ha hb h

/-- there is no number of the format between the greatest one and the next power of two -/
theorem unb_le_omega {F : Fmt} (he : 2 ≤ F.e) {y : ℚ} (hy : Unbounded F y) (h : y < (2 : ℚ) ^ (F.emax + 1)) : y ≤ Float.omega F := by
  by_contra hc
  have hu : Unbounded F (Float.omega F) := ((finite_iff he).1 (Float.C02_omega_is_greatest F he).1).1
  have h1 := unb_gap hu hy (omega_ge he) (not_le.1 hc)
  rw [omega_val he] at h1
  rw [Float.zsucc] at h
  rw [show F.emax - (F.f : ℤ) = F.emax + -(F.f : ℤ) by ring, Float.zadd] at h1
  linarith

/-- to be faithful for a real, against the unbounded numbers -/
theorem faithful_num {F : Fmt} (he : 2 ≤ F.e) {x : ℝ} {v : ℚ}
    (h : ((v : ℝ) ≤ x ∧ ∀ w, Unbounded F w → (w : ℝ) ≤ x → w ≤ v) ∨ (x ≤ v ∧ ∀ w, Unbounded F w → x ≤ (w : ℝ) → v ≤ w)) {r : Val}
    (hr : value r = some ((v : ℝ) : EReal)) : Faithful F x r := by
  refine ⟨_, hr, ?_⟩
  have fin : ∀ w, F.Finite w → Unbounded F w := fun w hw => ((finite_iff he).1 hw).1
  rcases h with ⟨h1, h2⟩ | ⟨h1, h2⟩
  · left
    refine ⟨by exact_mod_cast h1, ?_⟩
    intro w q hw hq hle
    cases w <;> simp only [value, Option.some.injEq, reduceCtorEq] at hq
    · subst hq; exact absurd hle (not_le.2 (EReal.coe_lt_top x))
    · subst hq; exact bot_le
    · subst hq
      have : (0 : ℚ) ≤ v := h2 0 (unb_zero F) (by exact_mod_cast hle)
      exact_mod_cast this
    · subst hq
      have : (0 : ℚ) ≤ v := h2 0 (unb_zero F) (by exact_mod_cast hle)
      exact_mod_cast this
    · subst hq
      have := h2 _ (fin _ hw.1) (by exact_mod_cast hle)
      exact_mod_cast this
  · right
    refine ⟨by exact_mod_cast h1, ?_⟩
    intro w q hw hq hle
    cases w <;> simp only [value, Option.some.injEq, reduceCtorEq] at hq
    · subst hq; exact le_top
    · subst hq; exact absurd hle (not_le.2 (EReal.bot_lt_coe x))
    · subst hq
      have : v ≤ (0 : ℚ) := h2 0 (unb_zero F) (by exact_mod_cast hle)
      exact_mod_cast this
    · subst hq
      have : v ≤ (0 : ℚ) := h2 0 (unb_zero F) (by exact_mod_cast hle)
      exact_mod_cast this
    · subst hq
      have := h2 _ (fin _ hw.1) (by exact_mod_cast hle)
      exact_mod_cast this

/-- an infinity is faithful to a real above the greatest number -/
theorem faithful_inf {F : Fmt} (he : 2 ≤ F.e) {x : ℝ} (h : ((Float.omega F : ℚ) : ℝ) < x) : Faithful F x .plusInf := by
  refine ⟨⊤, rfl, Or.inr ⟨le_top, ?_⟩⟩
  have hw0 : (0 : ℚ) ≤ Float.omega F := le_trans (Float.zp _).le (omega_ge he)
  have hw0' : (0 : ℝ) ≤ ((Float.omega F : ℚ) : ℝ) := by exact_mod_cast hw0
  intro w q hw hq hle
  cases w <;> simp only [value, Option.some.injEq, reduceCtorEq] at hq
  · subst hq; exact le_refl _
  · subst hq; exact absurd hle (not_le.2 (EReal.bot_lt_coe x))
  · subst hq
    have : x ≤ 0 := by exact_mod_cast hle
    linarith
  · subst hq
    have : x ≤ 0 := by exact_mod_cast hle
    linarith
  · subst hq
    rename_i v
    have h1 : x ≤ v := by exact_mod_cast hle
    have h2 := ((finite_iff he).1 hw.1).2
    have h3 : ((v : ℚ) : ℝ) ≤ ((Float.omega F : ℚ) : ℝ) := by exact_mod_cast le_trans (le_abs_self v) h2
    linarith

theorem value_rnd_small {F : Fmt} {s : Bool} {x : ℝ} (h : |roundUnb F .RN x| ≤ Float.omega F) :
    value (rnd F s x) = some (((roundUnb F .RN x : ℚ) : ℝ) : EReal) := by
  unfold rnd
  by_cases hx : x = 0
  · rw [if_pos hx, hx]; cases s <;> simp [zeroS, value, roundUnb]
  · rw [if_neg hx]
    by_cases h1 : roundUnb F .RN x = 0
    · rw [if_pos h1, h1]; by_cases h2 : x < 0 <;> simp [zeroS, value, h2]
    · rw [if_neg h1, if_pos h]; rfl

theorem binade {y : ℝ} (hy : 0 < y) : ∃ E : ℤ, (2 : ℝ) ^ E ≤ y ∧ y < (2 : ℝ) ^ (E + 1) := by
  refine ⟨Int.log 2 |y|, ?_, ?_⟩
  · have := log_le hy.ne'; rwa [abs_of_pos hy] at this ⊢
  · have := lt_log y; rwa [abs_of_pos hy] at this ⊢

/-- A number `y` with at most the precision of the format in `[2^(J-1), 2^(J+1))`, and a real `x` at less than the last place of the
lower binade from it, or at less than the last place of the upper binade if both are in it: the rounding of `y` is faithful to `x`. -/
theorem faithful_of_close {F : Fmt} (he : 2 ≤ F.e) {x : ℝ} {y : ℚ} {J : ℤ} (hy1 : (2 : ℝ) ^ (J - 1) ≤ y) (hy2 : (y : ℝ) < (2 : ℝ) ^ (J + 1))
    (hx : (2 : ℝ) ^ (J - 1) ≤ x) (hu : (2 : ℚ) ^ F.emin ≤ y → Unbounded F y)
    (h : |(y : ℝ) - x| < (2 : ℝ) ^ (J - F.f - 1) ∨ ((2 : ℝ) ^ J ≤ y ∧ (2 : ℝ) ^ J ≤ x ∧ |(y : ℝ) - x| < (2 : ℝ) ^ (J - F.f))) (s : Bool) :
    Faithful F x (rnd F s (y : ℝ)) := by
  have hyr : (0 : ℝ) < (y : ℝ) := lt_of_lt_of_le (r2 _) hy1
  have hy : 0 < y := by exact_mod_cast hyr
  have hup : (2 : ℝ) ^ (J - F.f - 1) ≤ (2 : ℝ) ^ (J - F.f) := r2le (by omega)
  have hc2 : |(y : ℝ) - x| < (2 : ℝ) ^ (J - F.f) := by
    rcases h with h | h
    · linarith
    · exact h.2.2
  have gapR : ∀ {v w : ℚ}, Unbounded F v → Unbounded F w → ∀ {E : ℤ}, (2 : ℝ) ^ E ≤ v → (v : ℝ) < w → (2 : ℝ) ^ (E - F.f) ≤ (w : ℝ) - v := by
    intro v w hv hw E h0 h1
    have := unb_gap hv hw (E := E) (by rw [r2cast] at h0; exact_mod_cast h0) (by exact_mod_cast h1)
    rw [r2cast]; exact_mod_cast this
  have gapL : ∀ {v w : ℚ}, Unbounded F v → Unbounded F w → (2 : ℝ) ^ (J - 1) ≤ v → (v : ℝ) < w → (2 : ℝ) ^ (J - F.f - 1) ≤ (w : ℝ) - v := by
    intro v w hv hw h0 h1
    have := gapR hv hw h0 h1
    rwa [show J - 1 - (F.f : ℤ) = J - F.f - 1 by ring] at this
  by_cases hn : (2 : ℚ) ^ F.emin ≤ y
  · have hyu := hu hn
    have hry := ru_exact hyu
    by_cases ho : |y| ≤ Float.omega F
    · have hval : value (rnd F s (y : ℝ)) = some (((y : ℚ) : ℝ) : EReal) := by
        rw [value_rnd_small (by rwa [hry]), hry]
      refine faithful_num he ?_ hval
      rcases le_total (y : ℝ) x with hle | hle
      · left
        refine ⟨hle, fun w hw hwx => ?_⟩
        by_contra hc
        have hyw : (y : ℝ) < w := by exact_mod_cast not_le.1 hc
        rw [abs_of_nonpos (by linarith)] at h
        rcases h with h | ⟨h1, h2, h3⟩
        · have := gapL hyu hw hy1 hyw; linarith
        · have := gapR hyu hw h1 hyw; linarith
      · right
        refine ⟨hle, fun w hw hwx => ?_⟩
        by_contra hc
        have hyw : (w : ℝ) < y := by exact_mod_cast not_le.1 hc
        rw [abs_of_nonneg (by linarith)] at h
        rcases h with h | ⟨h1, h2, h3⟩
        · have := gapL hw hyu (by linarith) hyw; linarith
        · have := gapR hw hyu (by linarith) hyw; linarith
    · rw [abs_of_pos hy] at ho
      have hbig : (2 : ℝ) ^ (F.emax + 1) ≤ (y : ℝ) := by
        by_contra hc
        apply ho
        have h1 : y < (2 : ℚ) ^ (F.emax + 1) := by rw [r2cast] at hc; exact_mod_cast not_le.1 hc
        exact unb_le_omega he hyu h1
      rw [rnd_overflow he s hbig]
      apply faithful_inf he
      have hom : ((Float.omega F : ℚ) : ℝ) = (2 : ℝ) ^ (F.emax + 1) - (2 : ℝ) ^ (F.emax - F.f) := by
        rw [omega_val he]
        push_cast
        rw [r2add, show F.emax - (F.f : ℤ) = F.emax + -(F.f : ℤ) by ring, r2add]; norm_num; ring
      have hJ : F.emax + 1 ≤ J := by
        have := r2lt' (lt_of_le_of_lt hbig hy2); omega
      have hp := r2 (F.emax - F.f)
      rw [hom]
      rcases eq_or_lt_of_le hJ with hJ | hJ
      · rw [hJ]
        rcases h with h | ⟨h1, h2, h3⟩
        · have h4 := (abs_lt.1 h).2
          rw [show J - (F.f : ℤ) - 1 = F.emax - F.f by omega] at h4
          rw [hJ] at hbig
          linarith
        · linarith
      · have : (2 : ℝ) ^ (F.emax + 1) ≤ (2 : ℝ) ^ (J - 1) := r2le (by omega)
        linarith
  · have hn' : (y : ℝ) < (2 : ℝ) ^ F.emin := by rw [r2cast]; exact_mod_cast not_le.1 hn
    set R := roundUnb F .RN (y : ℝ) with hR
    have hRu : Unbounded F R := roundUnb_unb F _ _
    have hRle : (R : ℝ) ≤ (2 : ℝ) ^ F.emin := by
      have := ru_between_le (F := F) (x := (y : ℝ)) (unb_pow (k := F.emin) (by omega)) (by rw [← r2cast]; exact hn'.le)
      rwa [← r2cast] at this
    have hR0 : (0 : ℝ) ≤ R := ru_pos_sign hyr
    have hRo : |R| ≤ Float.omega F := by
      rw [abs_of_nonneg (by exact_mod_cast hR0)]
      have h1 : R ≤ (2 : ℚ) ^ F.emin := by rw [r2cast] at hRle; exact_mod_cast hRle
      have h2 : (2 : ℚ) ^ F.emin ≤ (2 : ℚ) ^ F.emax := Float.zle (Float.emin_le_emax F he)
      have := omega_ge he
      linarith
    have hval := value_rnd_small (s := s) hRo
    have hge : ∀ {v w : ℚ}, Unbounded F v → Unbounded F w → (v : ℝ) < w → (2 : ℝ) ^ (F.emin - F.f) ≤ (w : ℝ) - v := by
      intro v w hv hw h
      obtain ⟨a, ha⟩ := unb_min_grid hv
      obtain ⟨b, hb⟩ := unb_min_grid hw
      have := grid_gap ha hb (by exact_mod_cast h)
      rw [r2cast]; exact_mod_cast this
    have hlast : |(R : ℝ) - y| ≤ (2 : ℝ) ^ (F.emin - F.f - 1) := by
      have h1 := ru_error F (y : ℝ)
      have h2 : lastPlace F (y : ℝ) = F.emin - F.f := by
        have := log_ltR (a := |(y : ℝ)|) (abs_pos.2 hyr.ne') (by rwa [abs_of_pos hyr])
        unfold lastPlace; omega
      rwa [h2] at h1
    have hJ : J ≤ F.emin := by
      have := r2lt' (lt_of_le_of_lt hy1 hn'); omega
    have hclose : |(y : ℝ) - x| < (2 : ℝ) ^ (F.emin - F.f - 1) := by
      rcases h with h | ⟨h1, h2, h3⟩
      · exact lt_of_lt_of_le h (r2le (by omega))
      · have := r2lt' (lt_of_le_of_lt h1 hn')
        exact lt_of_lt_of_le h3 (r2le (by omega))
    have hsum : (2 : ℝ) ^ (F.emin - F.f) = 2 * (2 : ℝ) ^ (F.emin - F.f - 1) := by
      rw [show F.emin - (F.f : ℤ) = 1 + (F.emin - F.f - 1) by ring, r2add, zpow_one]; congr 3; ring
    obtain ⟨hl1, hl2⟩ := abs_le.1 hlast
    obtain ⟨hc1, hc2⟩ := abs_lt.1 hclose
    refine faithful_num he ?_ hval
    rcases le_total (R : ℝ) x with hle | hle
    · left
      refine ⟨hle, fun w hw hwx => ?_⟩
      by_contra hc
      have := hge hRu hw (by exact_mod_cast not_le.1 hc)
      linarith
    · right
      refine ⟨hle, fun w hw hwx => ?_⟩
      by_contra hc
      have := hge hw hRu (by exact_mod_cast not_le.1 hc)
      linarith

end Verif.Elem
