import Verif.Rem.Scale

/-! # The loop of `remquo` -/

namespace Verif.Rem

open Verif.Float (Fmt Val)
open Verif.Elem
open Verif.Check

theorem finite_lt {F : Fmt} (he : 2 ≤ F.e) {v : ℚ} (h : F.Finite v) : |v| < (2 : ℚ) ^ (F.emax + 1) :=
  lt_of_le_of_lt ((finite_iff he).1 h).2 (omega_lt he)

theorem unscale_eq {F : Fmt} (he : 3 ≤ F.e) {ex ey s : ℤ} (hs : (if ey < ex then ey else ex) = s) (h1 : F.emin - 1 ≤ s) (h2 : s ≤ F.emax)
    {a c : ℤ} {t : ℕ} (ht : t ≤ 1) (hac : a = c * 2 ^ t) (hc0 : 0 ≤ c) (hc : c < 2 ^ (F.f + 1)) (hfin : F.Finite (a * (2 : ℚ) ^ (s - F.f))) :
    unscale F ex ey (nn (a * (2 : ℚ) ^ (-(F.f : ℤ)))) = nn (a * (2 : ℚ) ^ (s - F.f)) := by
  obtain ⟨k1, k2, k3, k4, k5, k6⟩ := halves he h1 h2
  have he2 : 2 ≤ F.e := by omega
  unfold unscale
  simp only [hs]
  set p := s.tdiv 2
  rw [insExp_eq he2 (k := p) k1 (by omega), insExp_eq he2 (k := s - p) k4 (by omega)]
  have ha0 : 0 ≤ a := by rw [hac]; positivity
  have hap : (0 : ℚ) ≤ a := by exact_mod_cast ha0
  have e1 : (a : ℚ) * (2 : ℚ) ^ (-(F.f : ℤ)) * (2 : ℚ) ^ p = a * (2 : ℚ) ^ (p - F.f) := by
    rw [mul_assoc, ← Float.zadd]; congr 2; ring
  have e2 : (a : ℚ) * (2 : ℚ) ^ (p - F.f) * (2 : ℚ) ^ (s - p) = a * (2 : ℚ) ^ (s - F.f) := by
    rw [mul_assoc, ← Float.zadd]; congr 2; ring
  have hf1 : F.Finite ((a : ℚ) * (2 : ℚ) ^ (p - F.f)) := by
    have e3 : (a : ℚ) * (2 : ℚ) ^ (p - F.f) = c * (2 : ℚ) ^ (p + t - F.f) := by
      rw [show p + t - F.f = (t : ℤ) + (p - F.f) by ring, Float.zadd, Float.znat, hac]; push_cast; ring
    refine fin_of he2 (c := c) (j := p + t - F.f) (by rw [abs_of_nonneg hc0]; exact hc.le) (by omega) e3 ?_
    rw [e3, abs_mul, abs_of_pos (Float.zp (p + t - F.f)), abs_of_nonneg (by exact_mod_cast hc0)]
    have h3 : ((c : ℤ) : ℚ) < 2 ^ (F.f + 1) := by exact_mod_cast hc
    have h4 := mul_lt_mul_of_pos_right h3 (Float.zp (p + t - F.f))
    rw [← Float.znat, ← Float.zadd] at h4
    exact lt_of_lt_of_le h4 (Float.zle (by push_cast; omega))
  rw [← nn_num (Float.zp p).ne', fmul_nn he2 (mul_nonneg hap (Float.zp _).le) (Float.zp p).le (by rw [e1]; exact hf1), e1,
    ← nn_num (Float.zp (s - p)).ne', fmul_nn he2 (mul_nonneg hap (Float.zp _).le) (Float.zp _).le (by rw [e2]; exact hfin), e2]

/-- what holds before the third loop -/
structure Stage (F : Fmt) (V A : ℚ) (Q : ℤ) (m : ℚ) : Prop where
  q0 : 0 ≤ Q
  m0 : 0 ≤ m
  lt : m < 2 * V
  fin : F.Finite m
  eq : Q * V + m = A
  sub : V ≤ m → F.Finite (m - V)
  last : ∀ m', (m < V ∧ m' = m) ∨ (V ≤ m ∧ m' = m - V) → V ≤ 2 * m' → F.Finite (m' - V)

theorem stage_grid {F : Fmt} (he : 2 ≤ F.e) {V A m : ℚ} {Q C a j : ℤ} (hC : 0 < C) (hC1 : C ≤ 2 ^ (F.f + 1)) (hj : F.emin - F.f ≤ j)
    (hV : V = C * (2 : ℚ) ^ j) (hVf : F.Finite V) (hm : m = a * (2 : ℚ) ^ j) (ha0 : 0 ≤ a) (ha : a < 2 * C) (hmf : F.Finite m) (hQ : 0 ≤ Q)
    (hA : (Q * C + a) * (2 : ℚ) ^ j = A) : Stage F V A Q m := by
  have hp := Float.zp j
  have hVlt := finite_lt he hVf
  have hg : ∀ (c : ℤ) (q : ℚ), |c| ≤ C → q = c * (2 : ℚ) ^ j → F.Finite q := by
    intro c q hc hq
    refine fin_of he (c := c) (j := j) (le_trans hc hC1) hj hq (lt_of_le_of_lt ?_ hVlt)
    rw [hq, hV, abs_mul, abs_mul, abs_of_pos hp]
    apply mul_le_mul_of_nonneg_right _ hp.le
    rw [abs_of_pos (by exact_mod_cast hC : (0 : ℚ) < C)]
    exact_mod_cast hc
  have hle : ∀ b : ℤ, V ≤ b * (2 : ℚ) ^ j ↔ C ≤ b := by
    intro b; rw [hV, mul_le_mul_iff_left₀ hp]; norm_cast
  refine ⟨hQ, ?_, ?_, hmf, ?_, ?_, ?_⟩
  · rw [hm]; exact mul_nonneg (by exact_mod_cast ha0) hp.le
  · rw [hm, hV, ← mul_assoc]
    apply mul_lt_mul_of_pos_right _ hp
    exact_mod_cast ha
  · rw [← hA, hm, hV]; ring
  · intro h
    rw [hm, hle] at h
    exact hg (a - C) _ (by rw [abs_of_nonneg (by omega)]; omega) (by rw [hm, hV]; push_cast; ring)
  · rintro m' (⟨h1, h2⟩ | ⟨h1, h2⟩) _
    · rw [← not_le, hm, hle] at h1
      exact hg (a - C) _ (by rw [abs_of_neg (by omega)]; omega) (by rw [h2, hm, hV]; push_cast; ring)
    · rw [hm, hle] at h1
      exact hg (a - 2 * C) _ (by rw [abs_of_nonpos (by omega)]; omega) (by rw [h2, hm, hV]; push_cast; ring)

/-- the dividend is not above the divisor: nothing is subtracted before the last step -/
theorem stage_small {F : Fmt} (he : 3 ≤ F.e) {X Y : ℚ} (hX : F.Finite X) (h0 : X ≠ 0) (hY : F.Finite Y) (h : |X| < |Y|) : Stage F |Y| |X| 0 |X| := by
  have he2 : 2 ≤ F.e := by omega
  have hXa : F.Finite |X| := by rcases abs_choice X with g | g <;> rw [g]; exacts [hX, finite_neg hX]
  refine ⟨le_refl _, abs_nonneg _, by have := abs_nonneg X; linarith, hXa, by simp, fun g => absurd g (not_le.2 h), ?_⟩
  rintro m' (⟨_, rfl⟩ | ⟨g, _⟩) g2
  · -- Sterbenz
    obtain ⟨huX, _⟩ := (finite_iff he2).1 hX
    obtain ⟨huY, _⟩ := (finite_iff he2).1 hY
    have key : ∀ j : ℤ, F.emin - F.f ≤ j → ∀ a b : ℤ, |X| = a * (2 : ℚ) ^ j → |Y| = b * (2 : ℚ) ^ j → a ≤ 2 ^ (F.f + 1) → F.Finite (|X| - |Y|) := by
      intro j hj a b ha hb hab
      have hp := Float.zp j
      have e : |X| - |Y| = (a - b : ℤ) * (2 : ℚ) ^ j := by rw [ha, hb]; push_cast; ring
      have hneg : |(|X| - |Y|)| ≤ |X| := by rw [abs_of_neg (by linarith)]; linarith
      refine fin_of he2 (c := a - b) (j := j) ?_ hj e (lt_of_le_of_lt hneg (finite_lt he2 hX))
      have h5 : |((a - b : ℤ) : ℚ)| ≤ a := by
        rw [e, ha, abs_mul, abs_of_pos hp, mul_le_mul_iff_left₀ hp] at hneg
        exact hneg
      have : |a - b| ≤ a := by exact_mod_cast h5
      omega
    by_cases hs : |X| < (2 : ℚ) ^ F.emin
    · obtain ⟨a, ha⟩ := unb_min_grid (F := F) (w := |X|) (by rcases abs_choice X with g | g <;> rw [g]; exacts [huX, unb_neg huX])
      obtain ⟨b, hb⟩ := unb_min_grid (F := F) (w := |Y|) (by rcases abs_choice Y with g | g <;> rw [g]; exacts [huY, unb_neg huY])
      refine key _ (le_refl _) a b ha hb ?_
      rw [ha, show F.emin = (F.f : ℤ) + (F.emin - F.f) by ring, add_sub_cancel_left, Float.zadd, mul_lt_mul_iff_of_pos_right (Float.zp _), Float.znat] at hs
      have h6 : a < 2 ^ F.f := by exact_mod_cast hs
      rw [pow_succ]; have : (0 : ℤ) < 2 ^ F.f := by positivity
      omega
    · have hp : 0 < |X| := abs_pos.2 h0
      have h1 := Float.pow_log_le hp
      have h2 := Float.lt_pow_log (a := |X|)
      have h3 : F.emin ≤ Int.log 2 |X| := Float.le_log hp (not_lt.1 hs)
      set L := Int.log 2 |X|
      obtain ⟨a, ha⟩ := unb_grid (F := F) (w := |X|) (by rcases abs_choice X with g | g <;> rw [g]; exacts [huX, unb_neg huX]) (E := L) (by rwa [abs_abs])
      obtain ⟨b, hb⟩ := unb_grid (F := F) (w := |Y|) (by rcases abs_choice Y with g | g <;> rw [g]; exacts [huY, unb_neg huY]) (E := L)
        (by rw [abs_abs]; linarith)
      refine key _ (by omega) a b ha hb ?_
      rw [ha, show L + 1 = ((F.f + 1 : ℕ) : ℤ) + (L - F.f) by push_cast; ring, Float.zadd, mul_lt_mul_iff_of_pos_right (Float.zp _), Float.znat] at h2
      have : a < 2 ^ (F.f + 1) := by exact_mod_cast h2
      exact this.le
  · exact absurd g (not_le.2 h)

theorem fabs_num' {Y : ℚ} (h : Y ≠ 0) : fabs (.num Y) = nn |Y| := fabs_num h

/-- the loops up to the third one -/
theorem to_stage {F : Fmt} (he : 3 ≤ F.e) (hfe : (F.f : ℤ) ≤ F.emax) (hwd : 2 * F.emax + F.f + 1 ≤ 5000) {X Y : ℚ} (hX : F.Finite X) (hX0 : X ≠ 0)
    (hY : F.Finite Y) (hY0 : Y ≠ 0) (k : ℕ) : ∃ (Q : ℤ) (m : ℚ) (w : ℕ), Stage F |Y| |X| Q m ∧ 1 ≤ w ∧
      remLoop F k (.num X) (.num Y) = match loop3 F (.num Y) w (wrap F Q) (nn m) with
        | none => none
        | some (q, mx, _) => some (signs F k (.num X) (.num Y) (atHalf F (.num Y) (overHalf F (.num Y) (reduce F (.num Y) q mx)))) := by
  have he2 : 2 ≤ F.e := by omega
  have hem := emax_ge3 he
  obtain ⟨a, ha0, ha, hXa, hx1, hx2, hx3, hx4⟩ := split he hX hX0
  obtain ⟨B, s, hB1, hB2, hmy, hYB, hs1, hs2⟩ := initMy_eq he hfe hY hY0
  obtain ⟨_, _, _, _, hy1, hy2, hy3, hy4⟩ := split he hY hY0
  have hmx := scaleDown_eq he hX0 ha0 ha hXa hx1 hx2
  have hB0 : 0 < B := lt_of_lt_of_le (by positivity) hB1
  have hYa : F.Finite |Y| := by rcases abs_choice Y with g | g <;> rw [g]; exacts [hY, finite_neg hY]
  have hpow : (2 : ℤ) ^ (F.f + 1) = 2 * 2 ^ F.f := by rw [pow_succ]; ring
  unfold remLoop
  simp only [hmx, hmy]
  set ex := expExtract F (.num X)
  set ey := expExtract F (.num Y)
  have hw0 : wrap F 0 = 0 := wrap_small le_rfl (by positivity)
  by_cases hlt : ex < ey
  · -- the exponent of the dividend is smaller
    have hsel : (if ey < ex then ey else ex) = ex := if_neg (by omega)
    have hXa' : F.Finite |X| := by rcases abs_choice X with g | g <;> rw [g]; exacts [hX, finite_neg hX]
    have hey : F.emin ≤ ey := by omega
    have hXY : |X| < |Y| := by
      rw [hYB, hs1 hey, hXa]
      have h1 : (a : ℚ) < 2 ^ (F.f + 1) := by exact_mod_cast ha
      have h2 : (2 : ℚ) ^ F.f ≤ B := by exact_mod_cast hB1
      calc (a : ℚ) * (2 : ℚ) ^ (ex - F.f) < 2 ^ (F.f + 1) * (2 : ℚ) ^ (ex - F.f) := mul_lt_mul_of_pos_right h1 (Float.zp _)
        _ = (2 : ℚ) ^ (ex + 1) := by rw [← Float.znat, ← Float.zadd]; congr 1; push_cast; ring
        _ ≤ (2 : ℚ) ^ ey := Float.zle (by omega)
        _ = (2 : ℚ) ^ F.f * (2 : ℚ) ^ (ey - (0 : ℕ) - F.f) := by rw [← Float.znat, ← Float.zadd]; congr 1; push_cast; ring
        _ ≤ _ := mul_le_mul_of_nonneg_right h2 (Float.zp _).le
    refine ⟨0, |X|, 5000, stage_small he hX hX0 hY hXY, by norm_num, ?_⟩
    rw [loop1_done _ _ _ _ _ (by omega)]
    simp only
    rw [unscale_eq he hsel hx1 hx2 (c := a) (t := 0) (by omega) (by simp) ha0.le ha (by rw [← hXa]; exact hXa'), ← hXa]
    have hskip : fgt (unscale F ex ey (nn (B * (2 : ℚ) ^ (-(F.f : ℤ))))) (fabs (.num Y)) = false := by
      obtain ⟨k1, k2, k3, k4, k5, k6⟩ := halves he hx1 hx2
      unfold unscale
      simp only [hsel]
      set p := ex.tdiv 2
      rw [insExp_eq he2 (k := p) k1 (by omega), insExp_eq he2 (k := ex - p) k4 (by omega)]
      have hBp : (0 : ℚ) ≤ B := by exact_mod_cast hB0.le
      have e1 : (B : ℚ) * (2 : ℚ) ^ (-(F.f : ℤ)) * (2 : ℚ) ^ p = B * (2 : ℚ) ^ (p - F.f) := by
        rw [mul_assoc, ← Float.zadd]; congr 2; ring
      have e2 : (B : ℚ) * (2 : ℚ) ^ (p - F.f) * (2 : ℚ) ^ (ex - p) = B * (2 : ℚ) ^ (ex - F.f) := by
        rw [mul_assoc, ← Float.zadd]; congr 2; ring
      have hf1 : F.Finite ((B : ℚ) * (2 : ℚ) ^ (p - F.f)) := by
        refine fin_of he2 (c := B) (j := p - F.f) (by rw [abs_of_pos hB0]; exact hB2.le) (by omega) rfl ?_
        rw [abs_of_nonneg (mul_nonneg hBp (Float.zp _).le)]
        have h3 : ((B : ℤ) : ℚ) < 2 ^ (F.f + 1) := by exact_mod_cast hB2
        have h4 := mul_lt_mul_of_pos_right h3 (Float.zp (p - F.f))
        rw [← Float.znat, ← Float.zadd] at h4
        exact lt_of_lt_of_le h4 (Float.zle (by push_cast; omega))
      rw [← nn_num (Float.zp p).ne', fmul_nn he2 (mul_nonneg hBp (Float.zp _).le) (Float.zp p).le (by rw [e1]; exact hf1), e1, fabs_num hY0]
      have hf2 : Fin' F (nn ((B : ℚ) * (2 : ℚ) ^ (p - F.f))) := nn_fin hf1
      have hf3 : Fin' F (.num ((2 : ℚ) ^ (ex - p))) := by
        rw [← insExp_eq he2 (k := ex - p) k4 (by omega)]; exact (insExp_fin he2 k4 (by omega)).1
      have hleY : ((numOf (nn ((B : ℚ) * (2 : ℚ) ^ (p - F.f))) * numOf (.num ((2 : ℚ) ^ (ex - p))) : ℚ) : ℝ) ≤ ((|Y| : ℚ) : ℝ) := by
        rw [numOf_nn]; simp only [numOf]
        rw [e2, hYB, hs1 hey]
        have : (B : ℚ) * (2 : ℚ) ^ (ex - F.f) ≤ B * (2 : ℚ) ^ (ey - (0 : ℕ) - F.f) :=
          mul_le_mul_of_nonneg_left (Float.zle (by push_cast; omega)) hBp
        exact_mod_cast this
      have hge0 : (0 : ℝ) ≤ ((numOf (nn ((B : ℚ) * (2 : ℚ) ^ (p - F.f))) * numOf (.num ((2 : ℚ) ^ (ex - p))) : ℚ) : ℝ) := by
        rw [numOf_nn]; simp only [numOf]
        exact_mod_cast mul_nonneg (mul_nonneg hBp (Float.zp _).le) (Float.zp _).le
      have hr1 := ru_between_le ((finite_iff he2).1 hYa).1 hleY
      have hr0 : (((0 : ℚ) : ℚ) : ℝ) ≤ _ := ru_between_ge (F := F) (w := 0) (unb_zero F) (by simpa using hge0)
      have hr1' : roundUnb F .RN ((numOf (nn ((B : ℚ) * (2 : ℚ) ^ (p - F.f))) * numOf (.num ((2 : ℚ) ^ (ex - p))) : ℚ) : ℝ) ≤ |Y| := by exact_mod_cast hr1
      have hr0' : 0 ≤ roundUnb F .RN ((numOf (nn ((B : ℚ) * (2 : ℚ) ^ (p - F.f))) * numOf (.num ((2 : ℚ) ^ (ex - p))) : ℚ) : ℝ) := by exact_mod_cast hr0
      obtain ⟨hf4, hf5⟩ := fmul_fin he2 hf2 hf3 (by
        rw [abs_of_nonneg hr0']
        exact le_trans hr1' (by have := ((finite_iff he2).1 hYa).2; rwa [abs_abs] at this))
      unfold fgt
      rw [flt_fin (nn_fin hYa) hf4, hf5, numOf_nn]
      exact decide_eq_false (not_lt.2 hr1')
    rw [show loop2 F (.num Y) 5000 0 (nn |X|) (unscale F ex ey (nn (B * (2 : ℚ) ^ (-(F.f : ℤ))))) = some (0, nn |X|, 5000) by
      rw [loop2, hskip]; rfl]
    simp only [zero_mul]
    rfl
  · -- the first loop
    obtain ⟨n, hn⟩ : ∃ n : ℕ, ex - ey = n := ⟨(ex - ey).toNat, by omega⟩
    have hsel : (if ey < ex then ey else ex) = ey := by split_ifs <;> omega
    have hnb : n ≤ 4999 - F.f := by unfold Fmt.emin at *; omega
    have haB : a < 2 * B := by omega
    obtain ⟨Q1, a1, g1, g2, g3, g4, g5, g6, g7⟩ := loop1_spec (F := F) he2 hB2 (ex - ey) n 5000 0 0 a (by omega) (by omega) ha0.le haB le_rfl
    rw [hw0] at g1
    rw [g1]
    simp only
    have hA : ((2 * Q1 * B + a1 : ℤ) : ℚ) * (2 : ℚ) ^ (ey - F.f) = |X| := by
      rw [g2, hXa, show ex - F.f = (n : ℤ) + (ey - F.f) by omega, Float.zadd, Float.znat]; push_cast; ring
    obtain ⟨c, t, ht, hac, hc0, hc⟩ : ∃ (c : ℤ) (t : ℕ), t ≤ 1 ∧ a1 = c * 2 ^ t ∧ 0 ≤ c ∧ c < 2 ^ (F.f + 1) := by
      rcases Nat.eq_zero_or_pos n with h | h
      · exact ⟨a1, 0, by omega, by simp, g3, by rw [g7 h]; exact ha⟩
      · obtain ⟨r, hr⟩ := g6 h
        exact ⟨r, 1, le_rfl, by rw [hr]; ring, by omega, by omega⟩
    by_cases hyn : F.emin ≤ ey
    · have hs0 := hs1 hyn
      have hYB' : |Y| = B * (2 : ℚ) ^ (ey - F.f) := by rw [hYB, hs0]; norm_num
      have hmf : F.Finite ((a1 : ℚ) * (2 : ℚ) ^ (ey - F.f)) := by
        have e3 : (a1 : ℚ) * (2 : ℚ) ^ (ey - F.f) = c * (2 : ℚ) ^ (ey + t - F.f) := by
          rw [show ey + t - F.f = (t : ℤ) + (ey - F.f) by ring, Float.zadd, Float.znat, hac]; push_cast; ring
        refine fin_of he2 (c := c) (j := ey + t - F.f) (by rw [abs_of_nonneg hc0]; exact hc.le) (by omega) e3 ?_
        rw [abs_of_nonneg (mul_nonneg (by exact_mod_cast g3) (Float.zp _).le)]
        have hle : (a1 : ℚ) * (2 : ℚ) ^ (ey - F.f) ≤ |X| := by
          rw [← hA]
          apply mul_le_mul_of_nonneg_right _ (Float.zp _).le
          have : 0 ≤ 2 * Q1 * B := by positivity
          exact_mod_cast (by omega : a1 ≤ 2 * Q1 * B + a1)
        exact lt_of_le_of_lt hle (finite_lt he2 hX)
      have hBf : F.Finite ((B : ℚ) * (2 : ℚ) ^ (ey - F.f)) := by rw [← hYB']; exact hYa
      rw [unscale_eq he hsel hy1 hy2 ht hac hc0 hc hmf, unscale_eq he hsel hy1 hy2 (c := B) (t := 0) (by omega) (by simp) hB0.le hB2 hBf]
      obtain ⟨Q2, a2, f1, f2, f3, f4, f5, f6, f7⟩ := loop2_spec (F := F) he2 (y := .num Y) (C := B) (j := ey - F.f) hB0
        (by rw [fabs_num hY0, hYB']) (by omega) 0 (5000 - n) Q1 a1 (by omega) g3 (by simpa using g4) g5 (by omega)
      rw [show ((B * 2 ^ 0 : ℤ) : ℚ) = B by simp] at f1
      rw [f1]
      simp only
      rw [wrap_mul]
      refine ⟨Q2 * 2, _, 5000 - n - 0, ?_, by omega, rfl⟩
      rw [f6 rfl]
      refine stage_grid he2 hB0 hB2.le (by omega) hYB' hYa rfl g3 g4 hmf (by omega) ?_
      rw [← hA]
      have : Q2 = Q1 := by
        rw [f6 rfl] at f2
        have f3 : 2 * B * (Q2 - Q1) = 0 := by rw [pow_zero, mul_one] at f2; linarith
        have := (mul_eq_zero.1 f3).resolve_left (by omega)
        omega
      rw [this]; push_cast; ring
    · have hE : ey = F.emin - 1 := by omega
      obtain ⟨hsf, hYlt, C, hC0, hBC, hYC⟩ := hs2 hE
      have hev : Even a1 := by
        rcases Nat.eq_zero_or_pos n with h | h
        · rw [g7 h]; exact (hx4 (by omega)).1
        · exact g6 h
      obtain ⟨α, hα⟩ := hev
      have hBC' : B = 2 * (C * 2 ^ s) := by rw [hBC, pow_succ]; ring
      have e1 : (a1 : ℚ) * (2 : ℚ) ^ (ey - F.f) = α * (2 : ℚ) ^ (F.emin - F.f) := by
        rw [hE, hα, show F.emin - F.f = 1 + (F.emin - 1 - F.f) by ring, Float.zadd, zpow_one]; push_cast; ring
      have e2 : (B : ℚ) * (2 : ℚ) ^ (ey - F.f) = (C * 2 ^ s : ℤ) * (2 : ℚ) ^ (F.emin - F.f) := by
        rw [hE, hBC', show F.emin - F.f = 1 + (F.emin - 1 - F.f) by ring, Float.zadd, zpow_one]; push_cast; ring
      have hgf : ∀ b : ℤ, 0 ≤ b → b ≤ 2 ^ (F.f + 1) → F.Finite ((b : ℚ) * (2 : ℚ) ^ (F.emin - F.f)) := by
        intro b hb0 hb
        refine fin_of he2 (c := b) (j := F.emin - F.f) (by rwa [abs_of_nonneg hb0]) le_rfl rfl ?_
        rw [abs_of_nonneg (mul_nonneg (by exact_mod_cast hb0) (Float.zp _).le)]
        have h3 : ((b : ℤ) : ℚ) ≤ 2 ^ (F.f + 1) := by exact_mod_cast hb
        have h4 := mul_le_mul_of_nonneg_right h3 (Float.zp (F.emin - F.f)).le
        rw [← Float.znat, ← Float.zadd] at h4
        exact lt_of_le_of_lt h4 (Float.zlt (by unfold Fmt.emin; push_cast; omega))
      have h2s : (0 : ℤ) < 2 ^ s := by positivity
      have hCs : 0 < C * 2 ^ s := by positivity
      have hCC : C ≤ C * 2 ^ s := le_mul_of_one_le_right hC0.le (by omega)
      have hα2 : α < 2 * (C * 2 ^ s) := by omega
      rw [unscale_eq he hsel hy1 hy2 ht hac hc0 hc (by rw [e1]; exact hgf α (by omega) (by omega)),
        unscale_eq he hsel hy1 hy2 (c := B) (t := 0) (by omega) (by simp) hB0.le hB2 (by rw [e2]; exact hgf _ (by omega) (by omega)), e1, e2]
      obtain ⟨Q2, a2, f1, f2, f3, f4, f5, f6, f7⟩ := loop2_spec (F := F) he2 (y := .num Y) (C := C) (j := F.emin - F.f) hC0
        (by rw [fabs_num hY0, hYC]) le_rfl s (5000 - n) Q1 α (by omega) (by omega) hα2 g5 (fun _ => ⟨by omega, by unfold Fmt.emin; omega⟩)
      rw [f1]
      simp only
      rw [wrap_mul]
      refine ⟨Q2 * 2, _, 5000 - n - s, ?_, by omega, rfl⟩
      refine stage_grid he2 hC0 (by omega) le_rfl hYC hYa rfl f3 f4 (hgf _ f3 (by omega)) (by omega) ?_
      rw [← hA, hα, hE, show F.emin - F.f = 1 + (F.emin - 1 - F.f) by ring, Float.zadd, zpow_one, hBC']
      have f2' : (2 * Q2 * C + a2 : ℚ) = 2 * Q1 * (C * 2 ^ s) + α := by exact_mod_cast f2
      push_cast
      linear_combination (2 * (2 : ℚ) ^ (F.emin - 1 - F.f)) * f2'

end Verif.Rem
