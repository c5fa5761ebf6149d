import Verif.Elem.Exp2Red

/-! # Theorems on the generated `exp2` (property C88) -/

namespace Verif.Elem

open Verif.Float (Fmt Val)
open Verif.Check

/-- entries of the table -/
theorem exp2Tab_val {F : Fmt} (hF : Wide F) {i : ℤ} (h0 : 0 ≤ i) (h8 : i ≤ 8) :
    Fin' F (cst F ((2 : ℝ) ^ ((i : ℝ) / 8))) ∧ (1 : ℚ) ≤ numOf (cst F ((2 : ℝ) ^ ((i : ℝ) / 8))) ∧ numOf (cst F ((2 : ℝ) ^ ((i : ℝ) / 8))) ≤ 2 ∧
      |rv (cst F ((2 : ℝ) ^ ((i : ℝ) / 8))) - (2 : ℝ) ^ ((i : ℝ) / 8)| ≤ uu F * (2 : ℝ) ^ ((i : ℝ) / 8) ∧
      (i ≤ 7 → numOf (cst F ((2 : ℝ) ^ ((i : ℝ) / 8))) ≤ 15 / 8) ∧ (i = 0 → numOf (cst F ((2 : ℝ) ^ ((i : ℝ) / 8))) = 1) ∧
      (i = 8 → numOf (cst F ((2 : ℝ) ^ ((i : ℝ) / 8))) = 2) := by
  have he := hF.e2
  have hm := hF.m
  have hf := hF.f
  have hem : F.emin = 1 - F.emax := rfl
  set t := (2 : ℝ) ^ ((i : ℝ) / 8) with ht
  have iR : (0 : ℝ) ≤ i := by exact_mod_cast h0
  have iR8 : (i : ℝ) ≤ 8 := by exact_mod_cast h8
  have t1 : 1 ≤ t := Real.one_le_rpow (by norm_num) (by positivity)
  have t2 : t ≤ 2 := by
    have := Real.rpow_le_rpow_of_exponent_le (x := 2) (by norm_num) (show (i : ℝ) / 8 ≤ 1 by linarith)
    rwa [Real.rpow_one] at this
  have p1 : |t| ≤ (2 : ℝ) ^ F.emax := by
    rw [abs_of_pos (by linarith)]
    have : (2 : ℝ) ^ (1 : ℤ) ≤ (2 : ℝ) ^ F.emax := r2le (by omega)
    rw [zpow_one] at this; linarith
  obtain ⟨c1, c2⟩ := cst_fin (F := F) he (x := t) (ru_no_over he p1)
  have u1 : Unbounded F 1 := by simpa using unb_pow (F := F) (k := 0) (by omega)
  have u2 : Unbounded F 2 := by simpa using unb_pow (F := F) (k := 1) (by omega)
  have u15 : Unbounded F (15 / 8) := by
    have := unb_of (F := F) (n := 15) (q := -3) (by
      have : (2 : ℤ) ^ 4 ≤ 2 ^ (F.f + 1) := pow_le_pow_right₀ (by norm_num) (by omega)
      norm_num at this ⊢; linarith) (by omega)
    norm_num at this ⊢; exact this
  refine ⟨c1, ?_, ?_, ?_, ?_, ?_, ?_⟩
  · rw [c2]; have := ru_between_ge (F := F) (x := t) u1 (by exact_mod_cast t1); exact_mod_cast this
  · rw [c2]; have := ru_between_le (F := F) (x := t) u2 (by exact_mod_cast t2); exact_mod_cast this
  · unfold rv
    rw [c2]
    rcases ru_rel F t with h | h
    · rwa [abs_of_pos (show 0 < t by linarith)] at h
    · refine le_trans h ?_
      have : ee F ≤ uu F := r2le (by omega)
      have := mul_le_mul_of_nonneg_left t1 (uu_pos F).le
      linarith
  · intro h7
    rw [c2]
    have h7 : (i : ℝ) ≤ 7 := by exact_mod_cast h7
    have key : t ≤ 15 / 8 := by
      have a1 : (2 : ℝ) ^ ((i : ℝ) / 8) ≤ (2 : ℝ) ^ ((7 : ℝ) / 8) := Real.rpow_le_rpow_of_exponent_le (by norm_num) (by linarith)
      have a2 : (2 : ℝ) ^ ((7 : ℝ) / 8) = ((2 : ℝ) ^ (7 : ℝ)) ^ ((1 : ℝ) / 8) := by rw [← Real.rpow_mul (by norm_num)]; norm_num
      have a3 : (2 : ℝ) ^ (7 : ℝ) ≤ (15 / 8 : ℝ) ^ (8 : ℝ) := by
        rw [show (7 : ℝ) = ((7 : ℕ) : ℝ) by norm_num, show (8 : ℝ) = ((8 : ℕ) : ℝ) by norm_num, Real.rpow_natCast, Real.rpow_natCast]; norm_num
      have a4 : ((2 : ℝ) ^ (7 : ℝ)) ^ ((1 : ℝ) / 8) ≤ ((15 / 8 : ℝ) ^ (8 : ℝ)) ^ ((1 : ℝ) / 8) := Real.rpow_le_rpow (by positivity) a3 (by norm_num)
      have a5 : ((15 / 8 : ℝ) ^ (8 : ℝ)) ^ ((1 : ℝ) / 8) = 15 / 8 := by rw [← Real.rpow_mul (by norm_num)]; norm_num
      linarith
    have := ru_between_le (F := F) (x := t) u15 (by push_cast; exact key)
    exact_mod_cast this
  · intro h
    rw [c2]
    have : t = ((1 : ℚ) : ℝ) := by rw [ht, h]; simp
    rw [this, ru_exact u1]
  · intro h
    rw [c2]
    have : t = ((2 : ℚ) : ℝ) := by rw [ht, h]; norm_num
    rw [this, ru_exact u2]

theorem cst_int2 {F : Fmt} (hF : Wide F) {n : ℤ} (h1 : F.emin - F.f ≤ n) (h2 : n ≤ F.emax + 1) : Fin' F (cst F (n : ℝ)) ∧ numOf (cst F (n : ℝ)) = n := by
  have he := hF.e2
  have hm := hF.m
  have hem : F.emin = 1 - F.emax := rfl
  have a := hF.emax_le
  have hb : |n| ≤ 2 * F.emax := by rw [abs_le]; constructor <;> omega
  have d : (2 : ℤ) ^ (F.f - 1) * 4 = 2 ^ (F.f + 1) := by
    rw [show (4 : ℤ) = 2 ^ 2 by norm_num, ← pow_add]; congr 1; have := hF.f; omega
  have hu := unb_int (F := F) he (n := n) (by omega)
  have hl : |(n : ℚ)| ≤ Float.omega F := by
    by_cases h0 : n = 0
    · rw [h0]; simp; exact le_trans (Float.zp _).le (omega_ge he)
    · exact (fin_unb he (fin_int he (n := n) (by omega) hb h0)).2
  have e : ((n : ℚ) : ℝ) = (n : ℝ) := by push_cast; rfl
  have := cst_fin (F := F) he (x := (n : ℝ)) (by rw [← e, ru_exact hu]; exact hl)
  rw [← e, ru_exact hu] at this
  rw [← e]; exact this

theorem exp2_consts {F : Fmt} (hF : Wide F) :
    (Fin' F (cst F ((F.emax : ℝ) + 1)) ∧ numOf (cst F ((F.emax : ℝ) + 1)) = F.emax + 1) ∧ (Fin' F (cst F (F.emin : ℝ)) ∧ numOf (cst F (F.emin : ℝ)) = F.emin) ∧
      (Fin' F (cst F ((F.emin : ℝ) - F.f)) ∧ numOf (cst F ((F.emin : ℝ) - F.f)) = F.emin - F.f) := by
  have hm := hF.m
  have hem : F.emin = 1 - F.emax := rfl
  refine ⟨?_, cst_int2 hF (by omega) (by omega), ?_⟩
  · have := cst_int2 hF (n := F.emax + 1) (by omega) (by omega)
    push_cast at this; exact this
  · have := cst_int2 hF (n := F.emin - F.f) (by omega) (by omega)
    push_cast at this; exact this

/-- which path a finite input takes -/
theorem exp2_path {F : Fmt} (hF : Wide F) (P : Val → Val) (cv : Val → ℤ) {a : Val} (ha : Fin' F a) :
    exp2Model F P cv a =
      if (F.emax : ℚ) + 1 ≤ numOf a then some .plusInf
      else if numOf a < F.emin then
        if (F.emin : ℚ) - F.f < numOf a then exp2Core F P cv (scaleSub F) a else some .plusZero
      else exp2Core F P cv (scaleStd F) a := by
  obtain ⟨⟨a1, a2⟩, ⟨b1, b2⟩, ⟨c1, c2⟩⟩ := exp2_consts hF
  unfold exp2Model fge fgt
  rw [cLe_fin a1 ha, flt_fin ha b1, flt_fin c1 ha, a2, b2, c2]
  have hem : F.emin = 1 - F.emax := rfl
  by_cases h1 : (F.emax : ℚ) + 1 ≤ numOf a
  · simp [h1]
  · by_cases h2 : numOf a < F.emin <;> by_cases h3 : (F.emin : ℚ) - F.f < numOf a <;> simp [h1, h2, h3]

theorem omega15 {F : Fmt} (hF : Wide F) : (15 / 8 : ℚ) * (2 : ℚ) ^ F.emax ≤ Float.omega F := by
  rw [omega_val hF.e2, mul_comm]
  apply mul_le_mul_of_nonneg_left _ (Float.zp _).le
  have : (2 : ℚ) ^ (-(F.f : ℤ)) ≤ (2 : ℚ) ^ (-3 : ℤ) := Float.zle (by have := hF.f; omega)
  norm_num at this ⊢
  linarith

/-- the scaled entry, normal case -/
theorem scaleStd_val {F : Fmt} (hF : Wide F) {n : ℤ} {h : Val} (hh : Fin' F h) (h1 : 1 ≤ numOf h) (h2 : numOf h ≤ 2) (n1 : F.emin ≤ n) (n2 : n ≤ F.emax)
    (h3 : n = F.emax → numOf h ≤ 15 / 8) : Fin' F (scaleStd F n h) ∧ numOf (scaleStd F n h) = numOf h * (2 : ℚ) ^ n := by
  have he := hF.e2
  have hi := insExp_fin (F := F) he n1 n2
  have hv : numOf (insExp F n) = (2 : ℚ) ^ n := by rw [insExp_eq he n1 n2]; rfl
  have hu : Unbounded F (numOf h * (2 : ℚ) ^ n) :=
    unb_scale (fin_unb he hh).1 (a := 0) (j := n) (by simpa using le_trans h1 (le_abs_self _)) (by omega)
  have hp := Float.zp n
  have hle : |numOf h * (2 : ℚ) ^ n| ≤ Float.omega F := by
    rw [abs_of_nonneg (by positivity)]
    rcases eq_or_lt_of_le n2 with e | e
    · refine le_trans ?_ (omega15 hF)
      rw [e]; exact mul_le_mul_of_nonneg_right (h3 e) (Float.zp _).le
    · refine le_trans ?_ (omega_ge he)
      have : (2 : ℚ) ^ (n + 1) ≤ (2 : ℚ) ^ F.emax := Float.zle (by omega)
      rw [zpow_add₀ (by norm_num), zpow_one] at this
      nlinarith
  have := fmul_fin he hh hi.1 (by rw [hv, ru_exact hu]; exact hle)
  rw [hv, ru_exact hu] at this
  exact this

/-- the scaled entry, subnormal case -/
theorem scaleSub_val {F : Fmt} (hF : Wide F) {n : ℤ} {h : Val} (hh : Fin' F h) (h1 : 1 ≤ numOf h) (h2 : numOf h ≤ 2) (n1 : F.emin - F.f ≤ n) (n2 : n < F.emin) :
    Fin' F (scaleSub F n h) ∧ numOf (scaleSub F n h) = roundUnb F .RN ((numOf h * (2 : ℚ) ^ n : ℚ) : ℝ) ∧
      |rv (scaleSub F n h) - rv h * (2 : ℝ) ^ n| ≤ ee F := by
  have he := hF.e2
  have hm := hF.m
  have hem : F.emin = 1 - F.emax := rfl
  have hf := hF.f
  obtain ⟨s1, s2⟩ := scaleStd_val hF hh h1 h2 (n := -(F.emin - n)) (by omega) (by omega) (by omega)
  have hi := insExp_fin (F := F) he (k := F.emin) le_rfl (by omega)
  have hv : numOf (insExp F F.emin) = (2 : ℚ) ^ F.emin := by rw [insExp_eq he le_rfl (by omega)]; rfl
  have e : numOf (scaleStd F (-(F.emin - n)) h) * numOf (insExp F F.emin) = numOf h * (2 : ℚ) ^ n := by
    rw [s2, hv, mul_assoc, ← zpow_add₀ (by norm_num)]; congr 2; ring
  have hb : |numOf h * (2 : ℚ) ^ n| ≤ (2 : ℚ) ^ F.emin := by
    have hp := Float.zp n
    rw [abs_of_nonneg (by positivity)]
    have : (2 : ℚ) ^ (n + 1) ≤ (2 : ℚ) ^ F.emin := Float.zle (by omega)
    rw [zpow_add₀ (by norm_num), zpow_one] at this
    nlinarith
  have hbR : |((numOf h * (2 : ℚ) ^ n : ℚ) : ℝ)| ≤ (2 : ℝ) ^ F.emin := by rw [r2cast]; exact_mod_cast hb
  have h3 := ru_abs_le (F := F) (k := F.emin) (by omega) hbR
  have h4 := fmul_fin he s1 hi.1 (by rw [e]; exact abs_le_omega_of he (le_trans h3 (Float.zle (by omega))))
  rw [e] at h4
  refine ⟨h4.1, h4.2, ?_⟩
  have h5 := ru_err_le (F := F) (k := F.emin) le_rfl (le_trans hbR (r2le (by omega)))
  have h6 : rv (scaleSub F n h) = (roundUnb F .RN ((numOf h * (2 : ℚ) ^ n : ℚ) : ℝ) : ℝ) := by
    unfold rv; exact_mod_cast h4.2
  rw [h6]
  have h7 : ((numOf h * (2 : ℚ) ^ n : ℚ) : ℝ) = rv h * (2 : ℝ) ^ n := by unfold rv; push_cast; rfl
  rw [← h7]
  exact h5

/-- the sum of the reconstruction -/
theorem exp2_sum {F : Fmt} (hF : Wide F) {A p : Val} (hA : Fin' F A) (hp : Fin' F p) {y W D e T κ : ℝ} (hy : 0 < y) (hT : T = y * W * D)
    (hW1 : W ≤ 209 / 200) (hW2 : 1 ≤ W * (209 / 200)) (hW0 : 0 < W) (hD : |D - 1| ≤ uu F / 2) (he : |e| ≤ uu F / 4)
    (hpv : rv p = W - 1 + e) (hTmax : T ≤ 192 / 100 * (2 : ℝ) ^ F.emax)
    (hk : (κ = 0 ∧ |rv A - y| ≤ uu F * y) ∨ (κ = 1 ∧ T ≤ (2 : ℝ) ^ F.emin ∧ |rv A - y| ≤ uu F * y + ee F)) :
    Fin' F (fadd F (fmul F A p) A) ∧ |rv (fadd F (fmul F A p) A) - T| ≤ 4 * uu F * max T ((2 : ℝ) ^ F.emin) := by
  have he2 := hF.e2
  have hm := hF.m
  have hem : F.emin = 1 - F.emax := rfl
  have hf := hF.f
  have hu0 := uu_pos F
  have hu1 : uu F ≤ 1 / 2048 := by
    have : uu F ≤ (2 : ℝ) ^ (-11 : ℤ) := r2le (by omega)
    norm_num at this ⊢; exact this
  have hee : ee F = uu F * (2 : ℝ) ^ F.emin := by unfold ee uu; rw [← r2add]; congr 1; ring
  set m := (2 : ℝ) ^ F.emin with hmm
  have m0 : 0 < m := r2 _
  have hX : m ≤ (2 : ℝ) ^ F.emax := r2le (by omega)
  have hX0 : 0 < (2 : ℝ) ^ F.emax := r2 _
  have hT0 : 0 < T := by
    have : 0 < D := by have := (abs_le.1 hD).1; linarith
    rw [hT]; positivity
  have hG : max T m ≤ 192 / 100 * (2 : ℝ) ^ F.emax := max_le hTmax (by linarith)
  have hG0 : 0 < max T m := lt_max_of_lt_right m0
  have κ0 : 0 ≤ κ := by rcases hk with h | h <;> rw [h.1]; norm_num
  have κ1 : κ ≤ 1 := by rcases hk with h | h <;> rw [h.1]; norm_num
  have hA' : |rv A - y| ≤ uu F * y + κ * (uu F * m) := by
    rcases hk with h | h
    · rw [h.1]; simpa using h.2
    · rw [h.1, ← hee]; simpa using h.2.2
  -- the product
  have hyG : y ≤ 105 / 100 * max T m := by
    have h1 : y * (W * (209 / 200)) ≥ y := by nlinarith
    have h2 : y * W * (1 - uu F / 2) ≤ T := by
      rw [hT]; exact mul_le_mul_of_nonneg_left (by have := (abs_le.1 hD).1; linarith) (by positivity)
    have h3 : T ≤ max T m := le_max_left _ _
    have h4 : 0 < y * W := by positivity
    nlinarith
  have hAb : |rv A| ≤ 106 / 100 * max T m := by
    have h1 : |rv A| ≤ |rv A - y| + |y| := by have := abs_add_le (rv A - y) y; simpa using this
    rw [abs_of_pos hy] at h1
    have h2 : uu F * y ≤ 1 / 2048 * (105 / 100 * max T m) := mul_le_mul hu1 hyG hy.le (by norm_num)
    have h3 : κ * (uu F * m) ≤ 1 * (1 / 2048 * max T m) :=
      mul_le_mul κ1 (mul_le_mul hu1 (le_max_right _ _) m0.le (by norm_num)) (by positivity) (by norm_num)
    linarith
  have hpb : |rv p| ≤ 46 / 1000 := by
    obtain ⟨e1, e2⟩ := abs_le.1 he
    rw [hpv, abs_le]; constructor <;> nlinarith
  have hprod : |rv A * rv p| ≤ (2 : ℝ) ^ F.emax := by
    rw [abs_mul]
    have := mul_le_mul hAb hpb (abs_nonneg _) (by positivity)
    nlinarith
  obtain ⟨q1, q2⟩ := fmul_val he2 hA hp hprod
  have hb : ∃ b, rv (fmul F A p) = rv A * rv p + b ∧ (|b| ≤ uu F * |rv A * rv p| ∨ |b| ≤ uu F * m) := by
    refine ⟨rv (fmul F A p) - rv A * rv p, by ring, ?_⟩
    rw [q2]
    rcases ru_rel F (rv A * rv p) with h | h
    · exact Or.inl h
    · rw [hee] at h; exact Or.inr h
  obtain ⟨b, hb1, hb2⟩ := hb
  have key := exp2_err hu0 hu1 m0 hy hT hW1 hW2 hW0 hD he κ0 κ1 hA' hpv hb2
  set z := rv A + (rv A * rv p + b) with hz
  have ez : ((numOf (fmul F A p) + numOf A : ℚ) : ℝ) = z := by
    rw [hz, ← hb1]; unfold rv; push_cast; ring
  have huGs : uu F * max T m ≤ 1 / 2048 * max T m := mul_le_mul_of_nonneg_right hu1 hG0.le
  have huG0 : 0 < uu F * max T m := by positivity
  have hkey' : |z - T| ≤ (277 / 100 + 105 / 100 * κ) * (uu F * max T m) := by rw [← mul_assoc]; exact key
  have hkey2 : |z - T| ≤ 382 / 100 * (uu F * max T m) := le_trans hkey' (mul_le_mul_of_nonneg_right (by linarith) huG0.le)
  have hTG : T ≤ max T m := le_max_left _ _
  obtain ⟨k1, k2⟩ := abs_le.1 hkey2
  have hza : |z| ≤ 1002 / 1000 * max T m := by rw [abs_le]; constructor <;> linarith
  have hzo : |roundUnb F .RN z| ≤ Float.omega F := by
    have hz2 : |z| ≤ (15 / 8 : ℝ) * (2 : ℝ) ^ F.emax ∨ |z| ≤ 193 / 100 * (2 : ℝ) ^ F.emax := Or.inr (by linarith)
    have hom : (193 / 100 : ℝ) * (2 : ℝ) ^ F.emax ≤ (Float.omega F : ℝ) := by
      rw [omega_val he2]
      push_cast
      rw [mul_comm]
      apply mul_le_mul_of_nonneg_left _ hX0.le
      have : (2 : ℝ) ^ (-(F.f : ℤ)) ≤ (2 : ℝ) ^ (-4 : ℤ) := r2le (by omega)
      norm_num at this ⊢
      linarith
    have hzle : |z| ≤ (Float.omega F : ℝ) := by linarith [hza, hG]
    have hωu : Unbounded F (Float.omega F) := ((finite_iff he2).1 (Float.C02_omega_is_greatest F he2).1).1
    obtain ⟨z1, z2⟩ := abs_le.1 hzle
    have a1 := ru_between_le (F := F) (x := z) hωu z2
    have a2 := ru_between_ge (F := F) (x := z) (unb_neg hωu) (by push_cast; exact z1)
    rw [abs_le]; constructor
    · exact_mod_cast a2
    · exact_mod_cast a1
  obtain ⟨r1, r2⟩ := fadd_fin he2 q1 hA (by rw [ez]; exact hzo)
  obtain ⟨s1, s2⟩ := add_ru (fin_unb he2 q1).1 (fin_unb he2 hA).1
  refine ⟨r1, ?_⟩
  have hr : rv (fadd F (fmul F A p) A) = (roundUnb F .RN z : ℝ) := by unfold rv; rw [r2, ez]
  rw [ez] at s1
  rw [hr]
  rcases hk with ⟨h, _⟩ | ⟨h, hTm, _⟩
  · rw [h] at hkey'
    have a1 : uu F * |z| ≤ uu F * (1002 / 1000 * max T m) := mul_le_mul_of_nonneg_left hza hu0.le
    have a2 := abs_add_le ((roundUnb F .RN z : ℝ) - z) (z - T)
    rw [show (roundUnb F .RN z : ℝ) - z + (z - T) = (roundUnb F .RN z : ℝ) - T by ring] at a2
    have a3 : uu F * (1002 / 1000 * max T m) = 1002 / 1000 * (uu F * max T m) := by ring
    rw [show 4 * uu F * max T m = 4 * (uu F * max T m) by ring]
    linarith
  · have hmx : max T m = m := max_eq_right hTm
    have hz3 : |numOf (fmul F A p) + numOf A| ≤ (2 : ℚ) ^ (F.emin + 1) := by
      have : |z| ≤ (2 : ℝ) ^ (F.emin + 1) := by
        rw [r2add, zpow_one, ← hmm]; rw [hmx] at hza; linarith
      rw [← ez, r2cast] at this
      exact_mod_cast this
    have := s2 hz3
    rw [ez] at this
    rw [this, ez]
    rw [show 4 * uu F * max T m = 4 * (uu F * max T m) by ring]
    linarith

/-- C88, proved part (the full claim: the result is faithful).  Every format with `e ≤ f`, `10 ≤ f < emax`.  If the polynomial part returns a datum at less than a quarter of a
unit roundoff from `2^r - 1` for `|r| ≤ 1/16`, then for EVERY input between the least subnormal exponent and `emax + 15/16` the generated function returns a finite number, at
less than `4` unit roundoffs (two units in the last place) of `2^x`, relative to the normal numbers. -/
theorem C88_exp2_error_partial (F : Fmt) (h1 : 10 ≤ F.f) (h2 : F.e ≤ F.f) (h3 : (F.f : ℤ) + 1 ≤ F.emax) (P : Val → Val) (cv : Val → ℤ)
    (hP : ∀ a r, IsReal F a r → |r| ≤ 1 / 16 → ∃ q, IsReal F (P a) q ∧ |q - ((2 : ℝ) ^ r - 1)| ≤ (2 : ℝ) ^ (-(F.f : ℤ) - 3)) :
    ∀ a x, IsReal F a x → (F.emin : ℝ) - F.f < x → x < F.emax + 15 / 16 →
      ∃ b y, exp2Model F P cv a = some b ∧ IsReal F b y ∧ |y - (2 : ℝ) ^ x| ≤ (2 : ℝ) ^ (1 - (F.f : ℤ)) * max ((2 : ℝ) ^ x) ((2 : ℝ) ^ F.emin) := by
  intro a x hx hlo hhi
  have hF : Wide F := ⟨h1, h2, h3⟩
  have he := hF.e2
  obtain ⟨ha, hxv⟩ := isReal_rv.1 hx
  have hem : F.emin = 1 - F.emax := rfl
  have hxq : ((numOf a : ℚ) : ℝ) = x := hxv
  have qlo : (F.emin : ℚ) - F.f < numOf a := by rw [← hxq] at hlo; exact_mod_cast hlo
  have qhi : numOf a < F.emax + 15 / 16 := by
    have : ((numOf a : ℚ) : ℝ) < ((F.emax + 15 / 16 : ℚ) : ℝ) := by rw [hxq]; push_cast; exact hhi
    exact_mod_cast this
  set n := ⌊numOf a⌋ with hn
  have nle : (n : ℚ) ≤ numOf a := Int.floor_le _
  have nlt : numOf a < n + 1 := Int.lt_floor_add_one _
  have nR : (n : ℝ) ≤ x := by rw [← hxq]; exact_mod_cast nle
  have nR1 : x < n + 1 := by rw [← hxq]; exact_mod_cast nlt
  have hn1 : F.emin - F.f ≤ n := Int.le_floor.2 (by push_cast; exact qlo.le)
  have hn2 : n ≤ F.emax := by
    have : n < F.emax + 1 := Int.floor_lt.2 (by push_cast; linarith)
    omega
  have red : ∀ scale, ∃ (w : ℚ) (i : ℤ) (rl : Val), w = roundUnb F .RN ((numOf a - ⌊numOf a⌋ : ℚ) : ℝ) ∧ 0 ≤ w ∧ w ≤ 1 ∧ i = toInt .RN ((w * 8 : ℚ) : ℝ) ∧ 0 ≤ i ∧ i ≤ 8 ∧
      Fin' F rl ∧ numOf rl = w - i / 8 ∧ |w - i / 8| ≤ 1 / 16 ∧
      exp2Core F P cv scale a = some (fadd F (fmul F (scale ⌊numOf a⌋ (cst F ((2 : ℝ) ^ ((i : ℝ) / 8)))) (P rl)) (scale ⌊numOf a⌋ (cst F ((2 : ℝ) ^ ((i : ℝ) / 8))))) :=
    fun scale => exp2_reduce hF P cv scale ha qlo.le (by linarith)
  -- common part
  have main : ∀ scale : ℤ → Val → Val, ∀ κ : ℝ,
      (∀ i : ℤ, 0 ≤ i → i ≤ 8 → (n = F.emax → i ≤ 7) → Fin' F (scale n (cst F ((2 : ℝ) ^ ((i : ℝ) / 8)))) ∧
        ((κ = 0 ∧ |rv (scale n (cst F ((2 : ℝ) ^ ((i : ℝ) / 8)))) - (2 : ℝ) ^ n * (2 : ℝ) ^ ((i : ℝ) / 8)| ≤ uu F * ((2 : ℝ) ^ n * (2 : ℝ) ^ ((i : ℝ) / 8))) ∨
         (κ = 1 ∧ (2 : ℝ) ^ x ≤ (2 : ℝ) ^ F.emin ∧
          |rv (scale n (cst F ((2 : ℝ) ^ ((i : ℝ) / 8)))) - (2 : ℝ) ^ n * (2 : ℝ) ^ ((i : ℝ) / 8)| ≤ uu F * ((2 : ℝ) ^ n * (2 : ℝ) ^ ((i : ℝ) / 8)) + ee F))) →
      ∃ b y, exp2Core F P cv scale a = some b ∧ IsReal F b y ∧ |y - (2 : ℝ) ^ x| ≤ (2 : ℝ) ^ (1 - (F.f : ℤ)) * max ((2 : ℝ) ^ x) ((2 : ℝ) ^ F.emin) := by
    intro scale κ hs
    obtain ⟨w, i, rl, hw, w0, w1, hi, i0, i8, r1, r2, r3, r4⟩ := red scale
    rw [← hn] at hw r4
    have hi7 : n = F.emax → i ≤ 7 := by
      intro hne
      have hpos : (0 : ℚ) ≤ numOf a := by
        have : (0 : ℚ) ≤ n := by rw [hne]; exact_mod_cast (by omega : 0 ≤ F.emax)
        linarith
      have hex : w = numOf a - n := by rw [hw, ru_exact]; exact fract_unb (fin_unb he ha).1 hpos
      have hwl : w < 15 / 16 := by rw [hex, hne]; linarith
      obtain ⟨z1, z2⟩ := abs_le.1 r3
      have : (i : ℚ) < 8 := by linarith
      have : i < 8 := by exact_mod_cast this
      omega
    obtain ⟨t1, t2⟩ := hs i i0 i8 hi7
    obtain ⟨q, hq, hqe⟩ := hP rl (rv rl) (isReal_rv.2 ⟨r1, rfl⟩) (by
      unfold rv; rw [r2]
      have : ((|w - i / 8| : ℚ) : ℝ) ≤ ((1 / 16 : ℚ) : ℝ) := by exact_mod_cast r3
      push_cast at this ⊢; exact this)
    obtain ⟨p1, p2⟩ := isReal_rv.1 hq
    have hrl : |rv rl| ≤ 1 / 16 := by
      unfold rv; rw [r2]
      have : ((|w - i / 8| : ℚ) : ℝ) ≤ ((1 / 16 : ℚ) : ℝ) := by exact_mod_cast r3
      push_cast at this ⊢; exact this
    obtain ⟨W1, W2⟩ := two_rpow_bounds hrl
    have W0 : 0 < (2 : ℝ) ^ (rv rl) := Real.rpow_pos_of_pos (by norm_num) _
    set δ : ℝ := x - n - w with hδ
    have hδb : |δ| ≤ uu F / 2 := by
      have h5 := ru_err_le (F := F) (x := ((numOf a - n : ℚ) : ℝ)) (k := -1) (by omega) (by
        have hh1 : (0 : ℚ) ≤ numOf a - n := by linarith
        have hh2 : (numOf a - n : ℚ) ≤ 1 := by linarith
        rw [show (-1 : ℤ) + 1 = 0 by ring, zpow_zero, abs_of_nonneg (by exact_mod_cast hh1)]
        exact_mod_cast hh2)
      rw [← hw] at h5
      have e1 : ((numOf a - n : ℚ) : ℝ) = x - n := by push_cast; rw [hxq]
      rw [e1, abs_sub_comm] at h5
      have e2 : (2 : ℝ) ^ (-1 - (F.f : ℤ) - 1) = uu F / 2 := by
        unfold uu; rw [show -1 - (F.f : ℤ) - 1 = (-(F.f : ℤ) - 1) + (-1) by ring, r2add]; norm_num; ring
      rw [e2] at h5
      exact h5
    have hu1 : uu F ≤ 1 := by
      have : uu F ≤ (2 : ℝ) ^ (0 : ℤ) := r2le (by omega)
      simpa using this
    have hD := two_rpow_small hδb (by linarith)
    have hxs : x = n + (i : ℝ) / 8 + rv rl + δ := by
      unfold rv; rw [r2, hδ]; push_cast; ring
    have hTT : (2 : ℝ) ^ x = ((2 : ℝ) ^ n * (2 : ℝ) ^ ((i : ℝ) / 8)) * (2 : ℝ) ^ (rv rl) * (2 : ℝ) ^ δ := by
      conv_lhs => rw [hxs]
      rw [Real.rpow_add (by norm_num), Real.rpow_add (by norm_num), Real.rpow_add (by norm_num), Real.rpow_intCast]
    have hy : 0 < (2 : ℝ) ^ n * (2 : ℝ) ^ ((i : ℝ) / 8)   := mul_pos (zpow_pos (by norm_num) _) (Real.rpow_pos_of_pos (by norm_num) _)
    have hTmax : (2 : ℝ) ^ x ≤ 192 / 100 * (2 : ℝ) ^ F.emax := by
      have b1 : (2 : ℝ) ^ x ≤ (2 : ℝ) ^ ((15 : ℝ) / 16 + F.emax) := Real.rpow_le_rpow_of_exponent_le (by norm_num) (by linarith)
      have b2 : (2 : ℝ) ^ ((15 : ℝ) / 16 + F.emax) = (2 : ℝ) ^ ((15 : ℝ) / 16) * (2 : ℝ) ^ F.emax := by
        rw [Real.rpow_add (by norm_num), Real.rpow_intCast]
      have b3 : (2 : ℝ) ^ ((15 : ℝ) / 16) ≤ 192 / 100 := by
        have a3 : (2 : ℝ) ^ (15 : ℝ) ≤ (192 / 100 : ℝ) ^ (16 : ℝ) := by
          rw [show (15 : ℝ) = ((15 : ℕ) : ℝ) by norm_num, show (16 : ℝ) = ((16 : ℕ) : ℝ) by norm_num, Real.rpow_natCast, Real.rpow_natCast]; norm_num
        have a4 : ((2 : ℝ) ^ (15 : ℝ)) ^ ((1 : ℝ) / 16) ≤ ((192 / 100 : ℝ) ^ (16 : ℝ)) ^ ((1 : ℝ) / 16) := Real.rpow_le_rpow (by positivity) a3 (by norm_num)
        rw [← Real.rpow_mul (by norm_num), ← Real.rpow_mul (by norm_num)] at a4
        norm_num at a4 ⊢
        exact a4
      rw [b2] at b1
      exact le_trans b1 (mul_le_mul_of_nonneg_right b3 (zpow_pos (by norm_num) _).le)
    have hqe' : |rv (P rl) - ((2 : ℝ) ^ rv rl - 1)| ≤ uu F / 4 := by
      rw [p2]
      have : (2 : ℝ) ^ (-(F.f : ℤ) - 3) = uu F / 4 := by
        unfold uu; rw [show -(F.f : ℤ) - 3 = (-(F.f : ℤ) - 1) + (-2) by ring, r2add]; norm_num; ring
      rw [← this]; exact hqe
    obtain ⟨s1, s2⟩ := exp2_sum hF t1 p1 hy hTT W1 W2 W0 hD hqe' (by ring) hTmax t2
    refine ⟨_, _, r4, isReal_rv.2 ⟨s1, rfl⟩, ?_⟩
    have : (2 : ℝ) ^ (1 - (F.f : ℤ)) = 4 * uu F := by
      unfold uu; rw [show 1 - (F.f : ℤ) = 2 + (-(F.f : ℤ) - 1) by ring, r2add]; norm_num
    rw [this]
    exact s2
  rw [exp2_path hF P cv ha, if_neg (by linarith)]
  by_cases hsub : numOf a < F.emin
  · rw [if_pos hsub, if_pos qlo]
    refine main _ 1 (fun i i0 i8 _ => ?_)
    obtain ⟨c1, c2, c3, c4, _⟩ := exp2Tab_val hF i0 i8
    have hn3 : n < F.emin := Int.floor_lt.2 hsub
    obtain ⟨d1, _, d3⟩ := scaleSub_val hF c1 c2 c3 hn1 hn3
    refine ⟨d1, Or.inr ⟨rfl, ?_, ?_⟩⟩
    · rw [← Real.rpow_intCast]
      refine Real.rpow_le_rpow_of_exponent_le (by norm_num) ?_
      rw [← hxq]; exact_mod_cast hsub.le
    · have a1 := abs_add_le (rv (scaleSub F n (cst F ((2 : ℝ) ^ ((i : ℝ) / 8)))) - rv (cst F ((2 : ℝ) ^ ((i : ℝ) / 8))) * (2 : ℝ) ^ n)
        ((rv (cst F ((2 : ℝ) ^ ((i : ℝ) / 8))) - (2 : ℝ) ^ ((i : ℝ) / 8)) * (2 : ℝ) ^ n)
      rw [abs_mul _ ((2 : ℝ) ^ n), abs_of_pos (r2 n)] at a1
      have a2 := mul_le_mul_of_nonneg_right c4 (r2 n).le
      have a3 : rv (scaleSub F n (cst F ((2 : ℝ) ^ ((i : ℝ) / 8)))) - (2 : ℝ) ^ n * (2 : ℝ) ^ ((i : ℝ) / 8) =
        rv (scaleSub F n (cst F ((2 : ℝ) ^ ((i : ℝ) / 8)))) - rv (cst F ((2 : ℝ) ^ ((i : ℝ) / 8))) * (2 : ℝ) ^ n +
        (rv (cst F ((2 : ℝ) ^ ((i : ℝ) / 8))) - (2 : ℝ) ^ ((i : ℝ) / 8)) * (2 : ℝ) ^ n := by ring
      rw [a3]
      linarith
  · rw [if_neg hsub]
    refine main _ 0 (fun i i0 i8 i7 => ?_)
    obtain ⟨c1, c2, c3, c4, c5, _⟩ := exp2Tab_val hF i0 i8
    have hn3 : F.emin ≤ n := Int.le_floor.2 (not_lt.1 hsub)
    obtain ⟨d1, d2⟩ := scaleStd_val hF c1 c2 c3 hn3 hn2 (fun h => c5 (i7 h))
    refine ⟨d1, Or.inl ⟨rfl, ?_⟩⟩
    have e : rv (scaleStd F n (cst F ((2 : ℝ) ^ ((i : ℝ) / 8)))) = rv (cst F ((2 : ℝ) ^ ((i : ℝ) / 8))) * (2 : ℝ) ^ n := by
      unfold rv; rw [d2]; push_cast; rfl
    rw [e, mul_comm ((2 : ℝ) ^ n), ← sub_mul, abs_mul, abs_of_pos (r2 n), ← mul_assoc]
    exact mul_le_mul_of_nonneg_right c4 (r2 n).le

/-- the correctly rounded polynomial part -/
noncomputable def bestP2 (F : Fmt) (a : Val) : Val := cst F ((2 : ℝ) ^ rv a - 1)

theorem bestP2_ok {F : Fmt} (hF : Wide F) :
    ∀ a r, IsReal F a r → |r| ≤ 1 / 16 → ∃ q, IsReal F (bestP2 F a) q ∧ |q - ((2 : ℝ) ^ r - 1)| ≤ (2 : ℝ) ^ (-(F.f : ℤ) - 3) := by
  intro a r hr h
  obtain ⟨ha, rfl⟩ := isReal_rv.1 hr
  have he := hF.e2
  have hm := hF.m
  have hf := hF.f
  have hem : F.emin = 1 - F.emax := rfl
  obtain ⟨b1, b2⟩ := two_rpow_bounds h
  have hb : |(2 : ℝ) ^ rv a - 1| ≤ (2 : ℝ) ^ ((-5 : ℤ) + 1) := by
    rw [abs_le]; norm_num; constructor <;> linarith
  have h3 := ru_abs_le (F := F) (by omega) hb
  obtain ⟨c1, c2⟩ := cst_fin he (le_trans h3 (le_trans (Float.zle (by omega)) (omega_ge he)))
  refine ⟨_, isReal_rv.2 ⟨c1, rfl⟩, ?_⟩
  have h4 := ru_err_le (F := F) (by omega) hb
  show |(numOf (cst F _) : ℝ) - _| ≤ _
  rw [c2]
  exact le_trans h4 (r2le (by omega))

/-- A correctly rounded polynomial part meets the hypotheses in binary32 and binary64. -/
example (cv : Val → ℤ) : ∀ a x, IsReal ⟨8, 23⟩ a x → ((Fmt.emin ⟨8, 23⟩ : ℤ) : ℝ) - (23 : ℕ) < x → x < ((Fmt.emax ⟨8, 23⟩ : ℤ) : ℝ) + 15 / 16 →
    ∃ b y, exp2Model ⟨8, 23⟩ (bestP2 ⟨8, 23⟩) cv a = some b ∧ IsReal ⟨8, 23⟩ b y ∧
      |y - (2 : ℝ) ^ x| ≤ (2 : ℝ) ^ (1 - ((23 : ℕ) : ℤ)) * max ((2 : ℝ) ^ x) ((2 : ℝ) ^ Fmt.emin ⟨8, 23⟩) :=
  C88_exp2_error_partial ⟨8, 23⟩ (by norm_num) (by norm_num) (by norm_num [Fmt.emax]) _ cv (bestP2_ok ⟨by norm_num, by norm_num, by norm_num [Fmt.emax]⟩)

example (cv : Val → ℤ) : ∀ a x, IsReal ⟨11, 52⟩ a x → ((Fmt.emin ⟨11, 52⟩ : ℤ) : ℝ) - (52 : ℕ) < x → x < ((Fmt.emax ⟨11, 52⟩ : ℤ) : ℝ) + 15 / 16 →
    ∃ b y, exp2Model ⟨11, 52⟩ (bestP2 ⟨11, 52⟩) cv a = some b ∧ IsReal ⟨11, 52⟩ b y ∧
      |y - (2 : ℝ) ^ x| ≤ (2 : ℝ) ^ (1 - ((52 : ℕ) : ℤ)) * max ((2 : ℝ) ^ x) ((2 : ℝ) ^ Fmt.emin ⟨11, 52⟩) :=
  C88_exp2_error_partial ⟨11, 52⟩ (by norm_num) (by norm_num) (by norm_num [Fmt.emax]) _ cv (bestP2_ok ⟨by norm_num, by norm_num, by norm_num [Fmt.emax]⟩)

/-- C88.  Where the result does not depend on the polynomial: above the range the infinity, below it zero. -/
theorem C88_exp2_special (F : Fmt) (h1 : 10 ≤ F.f) (h2 : F.e ≤ F.f) (h3 : (F.f : ℤ) + 1 ≤ F.emax) (P : Val → Val) (cv : Val → ℤ) :
    exp2Model F P cv .plusInf = some .plusInf ∧ exp2Model F P cv .minusInf = some .plusZero ∧
    (∀ a x, IsReal F a x → (F.emax : ℝ) + 1 ≤ x → exp2Model F P cv a = some .plusInf) ∧
    (∀ a x, IsReal F a x → x < (F.emin : ℝ) - F.f → exp2Model F P cv a = some .plusZero) := by
  have hF : Wide F := ⟨h1, h2, h3⟩
  have hem : F.emin = 1 - F.emax := rfl
  obtain ⟨⟨a1, a2⟩, ⟨b1, b2⟩, ⟨c1, c2⟩⟩ := exp2_consts hF
  have e1 : cst F ((F.emax : ℝ) + 1) = .num (F.emax + 1) := by
    rw [fin_num_ne a1 (by rw [a2]; exact_mod_cast (by omega : F.emax + 1 ≠ 0)), a2]
  have e2 : cst F (F.emin : ℝ) = .num F.emin := by
    rw [fin_num_ne b1 (by rw [b2]; exact_mod_cast (by omega : F.emin ≠ 0)), b2]
  have e3 : cst F ((F.emin : ℝ) - F.f) = .num (F.emin - F.f) := by
    rw [fin_num_ne c1 (by rw [c2]; exact_mod_cast (by omega : F.emin - F.f ≠ 0)), c2]
  refine ⟨?_, ?_, ?_, ?_⟩
  · unfold exp2Model; rw [e1, e2, e3]; simp [fge, cLe]
  · unfold exp2Model; rw [e1, e2, e3]; simp [fge, fgt, flt, cLe]
  · intro a x hx h
    obtain ⟨ha, rfl⟩ := isReal_rv.1 hx
    rw [exp2_path hF P cv ha, if_pos]
    unfold rv at h; exact_mod_cast h
  · intro a x hx h
    obtain ⟨ha, rfl⟩ := isReal_rv.1 hx
    have hq : numOf a < (F.emin : ℚ) - F.f := by unfold rv at h; exact_mod_cast h
    have k1 : (F.emin : ℚ) = 1 - F.emax := by exact_mod_cast hem
    have k2 : (F.f : ℚ) + 1 ≤ F.emax := by exact_mod_cast h3
    have k3 : (0 : ℚ) ≤ F.f := by positivity
    rw [exp2_path hF P cv ha, if_neg (by linarith), if_pos (by linarith), if_neg (by linarith)]

/-- C88.  A NaN gives a NaN whenever the conversion of a NaN to an integer gives at most `8` (it gives the least integer on x86 and zero on Arm). -/
theorem C88_exp2_nan (F : Fmt) (P : Val → Val) (cv : Val → ℤ) (h : cv .qNaN ≤ 8) (a : Val) (ha : a = .qNaN ∨ a = .sNaN) (hP : P .qNaN = .qNaN) :
    exp2Model F P cv a = some .qNaN := by
  have hn : isNaN a = true := by rcases ha with rfl | rfl <;> rfl
  have hc : ∀ b, cLe a b = false ∧ cLe b a = false := by
    intro b; rcases ha with rfl | rfl <;> cases b <;> simp [cLe]
  have f0 : ffloor a = .qNaN := by unfold ffloor; rw [hn]; rfl
  have f1 : fsub F a .qNaN = .qNaN := by unfold fsub fadd; rw [hn]; simp
  unfold exp2Model fge flt fgt
  simp only [(hc _).2, (hc _).1, Bool.false_and, Bool.or_self, Bool.false_eq_true, if_false]
  unfold exp2Core
  simp only [f0, f1]
  have g1 : fmul F .qNaN (.num 8) = .qNaN := by simp [fmul, isNaN]
  have g2 : fnearest .qNaN = .qNaN := by simp [fnearest, isNaN]
  have g3 : fmul F .qNaN (.num (1 / 8)) = .qNaN := by simp [fmul, isNaN]
  have g4 : fsub F .qNaN .qNaN = .qNaN := by simp [fsub, fadd, isNaN]
  rw [g1, g2, g3, g4, hP]
  have i1 : exp2Idx F cv .qNaN = max (cv .qNaN) 0 := by
    unfold exp2Idx convC; simp [isInfOrNaN, isNaN]; omega
  unfold exp2Tab
  rw [i1, if_pos ⟨by omega, by omega⟩]
  simp [fmul, fadd, isNaN]

/-- The hypotheses hold on x86, with a polynomial that propagates the NaNs. -/
example : exp2Model ⟨8, 23⟩ id (fun _ => -2147483648) .sNaN = some .qNaN := C88_exp2_nan _ _ _ (by norm_num) _ (Or.inr rfl) rfl

/-- C88, wrong.  The clamp of the index is one past the end of the table: where the conversion of a NaN saturates to the greatest integer (RISC-V), `exp2(NaN)` reads the table out
of its bounds. -/
theorem C88_exp2_table_wrong (F : Fmt) (P : Val → Val) (cv : Val → ℤ) (h : 9 ≤ cv .qNaN) : exp2Model F P cv .qNaN = none := by
  have hc : ∀ b, cLe .qNaN b = false ∧ cLe b .qNaN = false := by intro b; cases b <;> simp [cLe]
  unfold exp2Model fge flt fgt
  simp only [(hc _).2, (hc _).1, Bool.false_and, Bool.or_self, Bool.false_eq_true, if_false]
  unfold exp2Core
  have f0 : ffloor .qNaN = .qNaN := rfl
  have f1 : fsub F .qNaN .qNaN = .qNaN := by simp [fsub, fadd, isNaN]
  have g1 : fmul F .qNaN (.num 8) = .qNaN := by simp [fmul, isNaN]
  have g2 : fnearest .qNaN = .qNaN := by simp [fnearest, isNaN]
  simp only [f0, f1, g1, g2]
  have i1 : exp2Idx F cv .qNaN = 9 := by
    unfold exp2Idx convC; simp [isInfOrNaN, isNaN]; omega
  unfold exp2Tab
  rw [i1, if_neg (by omega)]
  rfl

example : exp2Model ⟨8, 23⟩ id (fun _ => 2147483647) .qNaN = none := C88_exp2_table_wrong _ _ _ (by norm_num)

/-- C88, wrong.  `2` to the least subnormal exponent is the least subnormal number; the generated function returns zero. -/
theorem C88_exp2_least_wrong (F : Fmt) (h1 : 10 ≤ F.f) (h2 : F.e ≤ F.f) (h3 : (F.f : ℤ) + 1 ≤ F.emax) (P : Val → Val) (cv : Val → ℤ) :
    ∃ a b x, IsReal F a x ∧ IsReal F b ((2 : ℝ) ^ x) ∧ (2 : ℝ) ^ x ≠ 0 ∧ exp2Model F P cv a = some .plusZero := by
  have hF : Wide F := ⟨h1, h2, h3⟩
  have he := hF.e2
  have hem : F.emin = 1 - F.emax := rfl
  obtain ⟨_, _, ⟨c1, c2⟩⟩ := exp2_consts hF
  have hx : rv (cst F ((F.emin : ℝ) - F.f)) = ((F.emin - F.f : ℤ) : ℝ) := by unfold rv; rw [c2]; push_cast; rfl
  have hfin : Fin' F (.num ((2 : ℚ) ^ (F.emin - (F.f : ℤ)))) :=
    fin_num he (unb_pow le_rfl) (abs_le_omega_of he (by rw [abs_of_pos (Float.zp _)]; exact Float.zle (by omega))) (Float.zp _).ne'
  refine ⟨cst F ((F.emin : ℝ) - F.f), .num ((2 : ℚ) ^ (F.emin - (F.f : ℤ))), _, isReal_rv.2 ⟨c1, rfl⟩, ?_, ?_, ?_⟩
  · refine isReal_rv.2 ⟨hfin, ?_⟩
    rw [hx, Real.rpow_intCast]; unfold rv; simp only [numOf]; push_cast; rfl
  · exact (Real.rpow_pos_of_pos (by norm_num) _).ne'
  · have k1 : (F.emin : ℚ) = 1 - F.emax := by exact_mod_cast hem
    have k2 : (F.f : ℚ) + 1 ≤ F.emax := by exact_mod_cast h3
    have k3 : (10 : ℚ) ≤ F.f := by exact_mod_cast h1
    rw [exp2_path hF P cv c1, c2, if_neg (by linarith), if_pos (by linarith), if_neg (by linarith)]

/-- C88.  Integer powers of two are exact, the subnormal ones included but for the least one, if the polynomial part is null at zero (it has no constant coefficient). -/
theorem C88_exp2_integer (F : Fmt) (h1 : 10 ≤ F.f) (h2 : F.e ≤ F.f) (h3 : (F.f : ℤ) + 1 ≤ F.emax) (P : Val → Val) (cv : Val → ℤ)
    (hP : ∀ a, IsReal F a 0 → IsReal F (P a) 0) (n : ℤ) (n1 : F.emin - F.f < n) (n2 : n ≤ F.emax) :
    ∀ a, IsReal F a n → ∃ b, exp2Model F P cv a = some b ∧ IsReal F b ((2 : ℝ) ^ n) := by
  intro a hx
  have hF : Wide F := ⟨h1, h2, h3⟩
  have he := hF.e2
  have hem : F.emin = 1 - F.emax := rfl
  obtain ⟨ha, hxv⟩ := isReal_rv.1 hx
  have hq : numOf a = n := by unfold rv at hxv; exact_mod_cast hxv
  have hfl : ⌊numOf a⌋ = n := by rw [hq]; simp
  have qlo : (F.emin : ℚ) - F.f < numOf a := by rw [hq]; exact_mod_cast n1
  have qhi : numOf a < F.emax + 1 := by rw [hq]; exact_mod_cast (by omega : n < F.emax + 1)
  have hfin : Fin' F (.num ((2 : ℚ) ^ n)) :=
    fin_num he (unb_pow n1.le) (abs_le_omega_of he (by rw [abs_of_pos (Float.zp _)]; exact Float.zle n2)) (Float.zp _).ne'
  have main : ∀ scale : ℤ → Val → Val, (Fin' F (scale n (cst F ((2 : ℝ) ^ (((0 : ℤ) : ℝ) / 8)))) ∧ numOf (scale n (cst F ((2 : ℝ) ^ (((0 : ℤ) : ℝ) / 8)))) = (2 : ℚ) ^ n) →
      ∃ b, exp2Core F P cv scale a = some b ∧ IsReal F b ((2 : ℝ) ^ n) := by
    intro scale ⟨s1, s2⟩
    obtain ⟨w, i, rl, hw, w0, w1, hi, i0, i8, r1, r2, r3, r4⟩ := exp2_reduce hF P cv scale ha qlo.le qhi
    have hw0 : w = 0 := by
      rw [hw, hfl, hq, sub_self]
      have := ru_exact (unb_zero F)
      exact this
    have hi0 : i = 0 := by
      rw [hw0] at r3
      have h5 : |(i : ℚ)| ≤ 1 / 2 := by
        rw [zero_sub, abs_neg, abs_div] at r3
        norm_num at r3 ⊢
        linarith
      have : |(i : ℚ)| < 1 := by linarith
      have : |i| < 1 := by exact_mod_cast this
      exact Int.abs_lt_one_iff.1 this
    subst hi0
    rw [hfl] at r4
    have hrl : IsReal F rl 0 := isReal_rv.2 ⟨r1, by unfold rv; rw [r2, hw0]; simp⟩
    obtain ⟨p1, p2⟩ := isReal_rv.1 (hP rl hrl)
    have p3 : numOf (P rl) = 0 := by unfold rv at p2; exact_mod_cast p2
    have r0 : roundUnb F .RN ((0 : ℚ) : ℝ) = 0 := ru_exact (unb_zero F)
    have ω0 : (0 : ℚ) ≤ Float.omega F := le_trans (Float.zp _).le (omega_ge he)
    obtain ⟨q1, q2⟩ := fmul_fin he s1 p1 (by rw [p3, mul_zero, r0]; simpa using ω0)
    rw [p3, mul_zero, r0] at q2
    have r2n : roundUnb F .RN (((2 : ℚ) ^ n : ℚ) : ℝ) = (2 : ℚ) ^ n := ru_exact (unb_pow n1.le)
    obtain ⟨t1, t2⟩ := fadd_fin he q1 s1 (by rw [q2, s2, zero_add, r2n]; exact (fin_unb he hfin).2)
    rw [q2, s2, zero_add, r2n] at t2
    refine ⟨_, r4, isReal_rv.2 ⟨t1, ?_⟩⟩
    unfold rv; rw [t2]; push_cast; rfl
  obtain ⟨c1, c2, c3, c4, c5, c6, _⟩ := exp2Tab_val hF (i := 0) le_rfl (by norm_num)
  rw [exp2_path hF P cv ha, if_neg (by linarith)]
  by_cases hsub : numOf a < F.emin
  · rw [if_pos hsub, if_pos qlo]
    apply main
    have hn3 : n < F.emin := by rw [hq] at hsub; exact_mod_cast hsub
    obtain ⟨d1, d2, _⟩ := scaleSub_val hF c1 c2 c3 n1.le hn3
    refine ⟨d1, ?_⟩
    rw [d2, c6 rfl, one_mul, ru_exact (unb_pow n1.le)]
  · rw [if_neg hsub]
    apply main
    have hn3 : F.emin ≤ n := by rw [hq] at hsub; exact_mod_cast not_lt.1 hsub
    obtain ⟨d1, d2⟩ := scaleStd_val hF c1 c2 c3 hn3 n2 (fun _ => c5 (by norm_num))
    exact ⟨d1, by rw [d2, c6 rfl, one_mul]⟩

/-- The identity meets the hypothesis. -/
example (cv : Val → ℤ) (a : Val) (ha : IsReal ⟨8, 23⟩ a ((-140 : ℤ) : ℝ)) : ∃ b, exp2Model ⟨8, 23⟩ id cv a = some b ∧ IsReal ⟨8, 23⟩ b ((2 : ℝ) ^ (-140 : ℤ)) :=
  C88_exp2_integer ⟨8, 23⟩ (by norm_num) (by norm_num) (by norm_num [Fmt.emax]) id cv (fun _ h => h) (-140) (by norm_num [Fmt.emin, Fmt.emax]) (by norm_num [Fmt.emax]) a ha

/-- C88, wrong.  On the last sixteenth below the overflow bound the scaled entry of the table, `2 * 2^emax`, overflows: with any polynomial part that is negative for a negative
argument (as `2^r - 1` is) the generated function returns a NaN for EVERY input, where `2^x` is in the range of the format. -/
theorem C88_exp2_top_wrong (F : Fmt) (h1 : 10 ≤ F.f) (h2 : F.e ≤ F.f) (h3 : (F.f : ℤ) + 1 ≤ F.emax) (P : Val → Val) (cv : Val → ℤ)
    (hP : ∀ a r, IsReal F a r → -(1 / 16) ≤ r → r < 0 → ∃ q, IsReal F (P a) q ∧ q < 0) :
    ∀ a x, IsReal F a x → (F.emax : ℝ) + 15 / 16 ≤ x → x < F.emax + 1 → exp2Model F P cv a = some .qNaN ∧ (2 : ℝ) ^ x < (2 : ℝ) ^ (F.emax + 1) := by
  intro a x hx hlo hhi
  have hF : Wide F := ⟨h1, h2, h3⟩
  have he := hF.e2
  have hem : F.emin = 1 - F.emax := rfl
  obtain ⟨ha, hxv⟩ := isReal_rv.1 hx
  have hxq : ((numOf a : ℚ) : ℝ) = x := hxv
  have qlo : (F.emax : ℚ) + 15 / 16 ≤ numOf a := by
    have : ((F.emax + 15 / 16 : ℚ) : ℝ) ≤ ((numOf a : ℚ) : ℝ) := by rw [hxq]; push_cast; exact hlo
    exact_mod_cast this
  have qhi : numOf a < F.emax + 1 := by
    have : ((numOf a : ℚ) : ℝ) < ((F.emax + 1 : ℚ) : ℝ) := by rw [hxq]; push_cast; exact hhi
    exact_mod_cast this
  have k1 : (F.emin : ℚ) = 1 - F.emax := by exact_mod_cast hem
  have k2 : (F.f : ℚ) + 1 ≤ F.emax := by exact_mod_cast h3
  have k3 : (10 : ℚ) ≤ F.f := by exact_mod_cast h1
  have hfl : ⌊numOf a⌋ = F.emax := by rw [Int.floor_eq_iff]; constructor <;> linarith
  constructor
  swap
  · rw [← Real.rpow_intCast]
    exact Real.rpow_lt_rpow_of_exponent_lt (by norm_num) (by push_cast; exact hhi)
  rw [exp2_path hF P cv ha, if_neg (by linarith), if_neg (by linarith)]
  obtain ⟨w, i, rl, hw, w0, w1, hi, i0, i8, r1, r2, r3, r4⟩ := exp2_reduce hF P cv (scaleStd F) ha (by linarith) (by linarith)
  have hex : w = numOf a - F.emax := by
    rw [hw, ru_exact, hfl]; exact fract_unb (fin_unb he ha).1 (by linarith)
  have w15 : 15 / 16 ≤ w := by rw [hex]; linarith
  have wl : w < 1 := by rw [hex]; linarith
  have hi8 : i = 8 := by
    have hwR : (15 / 2 : ℝ) ≤ ((w * 8 : ℚ) : ℝ) := by
      have : ((15 / 2 : ℚ) : ℝ) ≤ ((w * 8 : ℚ) : ℝ) := by exact_mod_cast (by linarith : (15 / 2 : ℚ) ≤ w * 8)
      push_cast at this ⊢; exact this
    have hwR2 : ((w * 8 : ℚ) : ℝ) < 8 := by exact_mod_cast (by linarith : w * 8 < 8)
    have hfl7 : ⌊((w * 8 : ℚ) : ℝ)⌋ = 7 := by rw [Int.floor_eq_iff]; constructor <;> push_cast at * <;> linarith
    rw [hi]
    unfold toInt
    simp only [hfl7]
    rw [if_neg (by push_cast at *; linarith)]
    split_ifs <;> simp_all
  subst hi8
  rw [hfl] at r4
  obtain ⟨c1, c2, c3, c4, c5, c6, c7⟩ := exp2Tab_val hF (i := 8) (by norm_num) le_rfl
  have hc : cst F ((2 : ℝ) ^ (((8 : ℤ) : ℝ) / 8)) = .num 2 := by
    rw [fin_num_ne c1 (by rw [c7 rfl]; norm_num), c7 rfl]
  have hsc : scaleStd F F.emax (.num 2) = .plusInf := by
    unfold scaleStd
    rw [insExp_eq he (by omega) le_rfl, fmul_pos_num F (by norm_num) (Float.zp _).le]
    apply rnd_overflow he
    push_cast
    rw [r2add, zpow_one]; linarith
  rw [hc, hsc] at r4
  obtain ⟨q, hq, hq0⟩ := hP rl (rv rl) (isReal_rv.2 ⟨r1, rfl⟩) (by
      unfold rv; rw [r2]
      have : ((-(1 / 16) : ℚ) : ℝ) ≤ ((w - ((8 : ℤ) : ℚ) / 8 : ℚ) : ℝ) := by exact_mod_cast (abs_le.1 r3).1
      push_cast at this ⊢; exact this) (by
      unfold rv; rw [r2]
      have : ((w - ((8 : ℤ) : ℚ) / 8 : ℚ) : ℝ) < ((0 : ℚ) : ℝ) := by
        have : w - ((8 : ℤ) : ℚ) / 8 < 0 := by push_cast; linarith
        exact_mod_cast this
      push_cast at this ⊢; exact this)
  obtain ⟨p1, p2⟩ := isReal_rv.1 hq
  have p3 : numOf (P rl) < 0 := by rw [← p2] at hq0; unfold rv at hq0; exact_mod_cast hq0
  have p4 : P rl = .num (numOf (P rl)) := fin_num_ne p1 p3.ne
  rw [r4, p4]
  have : sgn (.num (numOf (P rl))) = true := by simp [sgn, Special.neg, p3]
  simp [fmul, fadd, isNaN, isInf, isZero, infS, this, p3.ne, show sgn .plusInf = false from rfl, show sgn .minusInf = true from rfl]

/-- A polynomial part that is negative for the negative arguments meets the hypothesis of `C88_exp2_top_wrong`: here the argument itself, the approximation of degree one without its
coefficient. -/
example (cv : Val → ℤ) : ∀ a x, IsReal ⟨8, 23⟩ a x → ((Fmt.emax ⟨8, 23⟩ : ℤ) : ℝ) + 15 / 16 ≤ x → x < ((Fmt.emax ⟨8, 23⟩ : ℤ) : ℝ) + 1 →
    exp2Model ⟨8, 23⟩ id cv a = some .qNaN ∧ (2 : ℝ) ^ x < (2 : ℝ) ^ ((Fmt.emax ⟨8, 23⟩ : ℤ) + 1) :=
  C88_exp2_top_wrong ⟨8, 23⟩ (by norm_num) (by norm_num) (by norm_num [Fmt.emax]) id cv (fun a r h _ h0 => ⟨r, h, h0⟩)

end Verif.Elem
