import Verif.Check.Lemmas

/-! # C70: the generated self-test accepts a result iff it meets the accuracy goal -/

namespace Verif.Check

open Verif.Float (Fmt Val)

/-! ## Uniqueness of the nearest number -/

theorem nearest_unique {F : Fmt} (hf : 1 ≤ F.f) {x : ℝ} {v : ℚ} (h : NearestEven F x v) : v = roundUnb F .RN x := by
  by_contra hne
  have h0 := rn_nearest hf x
  set v0 := roundUnb F .RN x
  have heq : |x - v| = |x - v0| := le_antisymm (h.2.1 v0 h0.1) (h0.2.1 v h.1)
  have e1 := h.2.2 v0 h0.1 (Ne.symm hne) heq.symm
  have e0 := h0.2.2 v h.1 hne heq
  have hmid : (v : ℝ) + v0 = 2 * x := by
    rcases abs_eq_abs.1 heq with h' | h'
    · exfalso; apply hne; have : (v : ℝ) = v0 := by linarith
      exact_mod_cast this
    · linarith
  -- a number strictly between two numbers with even significands
  have key : ∀ a b : ℚ, EvenSignificand F a → EvenSignificand F b → a < b → ∃ w, Unbounded F w ∧ a < w ∧ w < b := by
    rintro a b ⟨m1, E1, hm1, hE1, -, ⟨k1, hk1⟩, rfl⟩ ⟨m2, E2, hm2, hE2, -, ⟨k2, hk2⟩, rfl⟩ hlt
    rcases le_total E1 E2 with hE | hE
    · obtain ⟨n, hn⟩ := grid_coarse k2 (show E1 - F.f ≤ E2 - F.f by omega)
      have hb : (m2 : ℚ) * (2 : ℚ) ^ (E2 - F.f) = (2 * n : ℤ) * (2 : ℚ) ^ (E1 - F.f) := by
        rw [hk2]; push_cast; rw [add_mul, hn]; ring
      rw [hb] at hlt ⊢
      rw [mul_lt_mul_iff_of_pos_right (Float.zp _)] at hlt
      have hlt' : m1 < 2 * n := by exact_mod_cast hlt
      refine ⟨(m1 + 1 : ℤ) * (2 : ℚ) ^ (E1 - F.f), unb_of ?_ (by omega), ?_, ?_⟩
      · rw [abs_lt] at hm1; rw [abs_le]; constructor <;> omega
      · exact mul_lt_mul_of_pos_right (by push_cast; linarith) (Float.zp _)
      · refine mul_lt_mul_of_pos_right ?_ (Float.zp _)
        have : m1 + 1 < 2 * n := by omega
        exact_mod_cast this
    · obtain ⟨n, hn⟩ := grid_coarse k1 (show E2 - F.f ≤ E1 - F.f by omega)
      have hb : (m1 : ℚ) * (2 : ℚ) ^ (E1 - F.f) = (2 * n : ℤ) * (2 : ℚ) ^ (E2 - F.f) := by
        rw [hk1]; push_cast; rw [add_mul, hn]; ring
      rw [hb] at hlt ⊢
      rw [mul_lt_mul_iff_of_pos_right (Float.zp _)] at hlt
      have hlt' : 2 * n < m2 := by exact_mod_cast hlt
      refine ⟨(m2 - 1 : ℤ) * (2 : ℚ) ^ (E2 - F.f), unb_of ?_ (by omega), ?_, ?_⟩
      · rw [abs_lt] at hm2; rw [abs_le]; constructor <;> omega
      · refine mul_lt_mul_of_pos_right ?_ (Float.zp _)
        have : 2 * n < m2 - 1 := by omega
        exact_mod_cast this
      · exact mul_lt_mul_of_pos_right (by push_cast; linarith) (Float.zp _)
  rcases lt_or_gt_of_ne hne with hlt | hlt
  · obtain ⟨w, hw, h1, h2⟩ := key v v0 e1 e0 hlt
    have h1' : (v : ℝ) < w := by exact_mod_cast h1
    have h2' : (w : ℝ) < v0 := by exact_mod_cast h2
    have := h.2.1 w hw
    rw [abs_of_nonneg (show 0 ≤ x - (v : ℝ) by linarith)] at this
    rcases abs_cases (x - (w : ℝ)) with ⟨e, -⟩ | ⟨e, -⟩ <;> rw [e] at this <;> linarith
  · obtain ⟨w, hw, h1, h2⟩ := key v0 v e0 e1 hlt
    have h1' : (v0 : ℝ) < w := by exact_mod_cast h1
    have h2' : (w : ℝ) < v := by exact_mod_cast h2
    have := h.2.1 w hw
    rw [abs_of_nonpos (show x - (v : ℝ) ≤ 0 by linarith)] at this
    rcases abs_cases (x - (w : ℝ)) with ⟨e, -⟩ | ⟨e, -⟩ <;> rw [e] at this <;> linarith

theorem rn_of_unb {F : Fmt} {v : ℚ} (hv : Unbounded F v) : roundUnb F .RN v = v := by
  have h := rn_min (x := (v : ℝ)) hv
  rw [sub_self, abs_zero] at h
  have : (v : ℝ) - roundUnb F .RN v = 0 := abs_eq_zero.1 (le_antisymm h (abs_nonneg _))
  have h2 : ((roundUnb F .RN v : ℚ) : ℝ) = v := by linarith
  exact_mod_cast h2

theorem cell_finite {F : Fmt} (he : 2 ≤ F.e) {v : ℚ} (hv : F.Finite v) : cell F (.num v) = if v = 0 then .plusZero else .num v := by
  obtain ⟨h1, h2⟩ := (finite_iff he).1 hv
  unfold cell
  by_cases h0 : v = 0
  · simp [h0]
  · simp [h0, sround, rn_of_unb h1, h2]

/-- rounding to nearest keeps the sign -/
theorem rn_sign {F : Fmt} {x : ℝ} : (0 < roundUnb F .RN x → 0 < x) ∧ (roundUnb F .RN x < 0 → x < 0) := by
  have h := rn_min (x := x) (unb_zero F)
  rw [Rat.cast_zero, sub_zero] at h
  constructor
  · intro h0
    by_contra hc
    have h0' : (0 : ℝ) < roundUnb F .RN x := by exact_mod_cast h0
    rw [abs_of_nonpos (show x ≤ 0 by linarith), abs_of_neg (by linarith)] at h
    linarith
  · intro h0
    by_contra hc
    have h0' : (roundUnb F .RN x : ℝ) < 0 := by exact_mod_cast h0
    rw [abs_of_nonneg (show 0 ≤ x by linarith), abs_of_pos (by linarith)] at h
    linarith

/-! ## Comparisons -/

theorem cLe_iff (a b : Val) : cLe a b = true ↔ ∃ p q, value a = some p ∧ value b = some q ∧ p ≤ q := by
  have z : ∀ v : ℚ, (((v : ℝ) : EReal) ≤ 0 ↔ v ≤ 0) ∧ ((0 : EReal) ≤ ((v : ℝ) : EReal) ↔ 0 ≤ v) := by
    intro v
    rw [← EReal.coe_zero, EReal.coe_le_coe_iff, EReal.coe_le_coe_iff]
    constructor
    · exact_mod_cast Iff.rfl
    · exact_mod_cast Iff.rfl
  cases a <;> cases b <;> simp [cLe, value, numOf, z]
  all_goals exact decide_eq_true_iff

theorem cNe_self (a : Val) : cNe a a = true ↔ value a = none := by
  cases a <;> simp [cNe, cEq, cLe, value, numOf]

/-- the test of a correctly rounded result against a stored number or infinity -/
theorem crFail_iff {F : Fmt} {r e : Val} (hr : F.Datum r) (he : F.Datum e) (hn : value e ≠ none) : crFail r e = false ↔ r = e := by
  cases r <;> cases e <;> simp [crFail, cNe, cEq, cLe, numOf, value, Fmt.Datum] at hr he hn ⊢
  all_goals first
    | (rename_i v; intro h; have := hr.2; have := he.2; grind)
    | grind

/-! ## Correct rounding -/

/-- what the table holds for a correctly rounded result -/
theorem cr_cell {F : Fmt} (he : 2 ≤ F.e) (x : ℝ) :
    cell F (sround F .RN x) = if |roundUnb F .RN x| ≤ Float.omega F then
        (if roundUnb F .RN x = 0 then .plusZero else .num (roundUnb F .RN x))
      else if 0 < roundUnb F .RN x then .plusInf else .minusInf := by
  by_cases h : |roundUnb F .RN x| ≤ Float.omega F
  · have hf : F.Finite (roundUnb F .RN x) := (finite_iff he).2 ⟨roundUnb_unb F _ x, h⟩
    have : sround F .RN x = .num (roundUnb F .RN x) := by simp [sround, h]
    rw [this, cell_finite he hf, if_pos h]
  · rw [if_neg h]
    simp only [sround, h, if_false]
    split_ifs <;> rfl

theorem cr_cell_datum {F : Fmt} (he : 2 ≤ F.e) (x : ℝ) : F.Datum (cell F (sround F .RN x)) ∧ value (cell F (sround F .RN x)) ≠ none := by
  rw [cr_cell he]
  split_ifs with h1 h2 <;> simp [Fmt.Datum, value]
  exact ⟨(finite_iff he).2 ⟨roundUnb_unb F _ x, h1⟩, h2⟩

theorem roundsTo_iff {F : Fmt} (he : 2 ≤ F.e) (hf : 1 ≤ F.f) (x : ℝ) (r : Val) :
    RoundsTo F x r ↔ r = if roundUnb F .RN x = 0 then (if x < 0 then .minusZero else .plusZero) else cell F (sround F .RN x) := by
  have hfin0 : F.Finite 0 := ⟨0, F.emin, by simp, le_refl _, Float.emin_le_emax F he, by simp⟩
  constructor
  · rintro ⟨v, hv, h⟩
    rw [nearest_unique hf hv] at h
    rw [cr_cell he]
    have hi : F.Finite (roundUnb F .RN x) ↔ |roundUnb F .RN x| ≤ Float.omega F := by
      rw [finite_iff he]; exact and_iff_right (roundUnb_unb F _ x)
    rcases h with ⟨h1, h2, rfl⟩ | ⟨h1, rfl⟩ | ⟨h1, rfl⟩
    · simp [hi.1 h1, h2]
    · simp [h1]
    · have h0 : roundUnb F .RN x ≠ 0 := by intro h0; rw [h0] at h1; exact h1 hfin0
      rw [if_neg h0, if_neg (fun h => h1 (hi.2 h))]
      have hs := rn_sign (F := F) (x := x)
      rcases lt_or_gt_of_ne h0 with h | h
      · rw [if_pos (hs.2 h), if_neg (not_lt.2 h.le)]
      · rw [if_neg (not_lt.2 (hs.1 h).le), if_pos h]
  · intro h
    refine ⟨_, rn_nearest hf x, ?_⟩
    rw [cr_cell he] at h
    have hi : F.Finite (roundUnb F .RN x) ↔ |roundUnb F .RN x| ≤ Float.omega F := by
      rw [finite_iff he]; exact and_iff_right (roundUnb_unb F _ x)
    by_cases h0 : roundUnb F .RN x = 0
    · right; left; rw [if_pos h0] at h; exact ⟨h0, h⟩
    · rw [if_neg h0] at h
      by_cases h1 : F.Finite (roundUnb F .RN x)
      · left; rw [if_pos (hi.1 h1), if_neg h0] at h; exact ⟨h1, h0, h⟩
      · right; right
        refine ⟨h1, ?_⟩
        rw [if_neg (fun h => h1 (hi.2 h))] at h
        rw [h]
        have hs := rn_sign (F := F) (x := x)
        rcases lt_or_gt_of_ne h0 with h | h
        · rw [if_pos (hs.2 h), if_neg (not_lt.2 h.le)]
        · rw [if_neg (not_lt.2 (hs.1 h).le), if_pos h]

/-- **C70** (correct rounding) A result is accepted iff it is the correctly rounded value of the function, with its zero sign and its
infinities, unless this value is the negative zero. Missing: the negative zero, see `C70_cr_negative_zero_wrong`. -/
theorem C70_cr_partial {F : Fmt} (he : 2 ≤ F.e) (hf : 1 ≤ F.f) (x : ℝ) {r : Val} (hr : F.Datum r) (hz : ¬ RoundsTo F x .minusZero) :
    accepts F .correctlyRounded (.real x) r = true ↔ RoundsTo F x r := by
  have hd := cr_cell_datum he x
  simp only [accepts, checkValues, Bool.not_eq_true', crFail_iff hr hd.1 hd.2]
  rw [roundsTo_iff he hf] at hz ⊢
  by_cases h0 : roundUnb F .RN x = 0
  · have hx : ¬ x < 0 := by intro hx; exact hz (by simp [h0, hx])
    rw [if_pos h0, if_neg hx, cr_cell he]
    have hom : |(0 : ℚ)| ≤ Float.omega F :=
      (Float.C02_omega_is_greatest F he).2 0 ⟨0, F.emin, by simp, le_refl _, Float.emin_le_emax F he, by simp⟩
    rw [abs_zero] at hom
    simp [h0, hom]
  · rw [if_neg h0]

/-- C70 is false when the correctly rounded result is the negative zero: it is rejected, the positive zero is accepted. -/
theorem C70_cr_negative_zero_wrong {F : Fmt} (he : 2 ≤ F.e) (hf : 1 ≤ F.f) (x : ℝ) {r : Val} (hr : F.Datum r)
    (hz : RoundsTo F x .minusZero) : accepts F .correctlyRounded (.real x) r = true ↔ r = .plusZero := by
  have hd := cr_cell_datum he x
  simp only [accepts, checkValues, Bool.not_eq_true', crFail_iff hr hd.1 hd.2]
  rw [roundsTo_iff he hf] at hz
  have h0 : roundUnb F .RN x = 0 := by
    by_contra h0
    rw [if_neg h0, cr_cell he] at hz
    split_ifs at hz
  have hom : |(0 : ℚ)| ≤ Float.omega F :=
    (Float.C02_omega_is_greatest F he).2 0 ⟨0, F.emin, by simp, le_refl _, Float.emin_le_emax F he, by simp⟩
  rw [cr_cell he]
  rw [abs_zero] at hom
  simp [h0, hom]

/-- **C70** (correct rounding, special values) When the function has a special value, this value is the only one accepted; any NaN is
accepted for a NaN. -/
theorem C70_cr_special {F : Fmt} {s r : Val} (hr : F.Datum r) (hs : ∀ v, s ≠ .num v) :
    accepts F .correctlyRounded (.special s) r = true ↔ (value s = none ∧ value r = none) ∨ (value s ≠ none ∧ r = s) := by
  have hc : cell F s = s := by cases s <;> simp [cell] at hs ⊢
  have hsd : F.Datum s := by cases s <;> simp [Fmt.Datum] at hs ⊢
  simp only [accepts, checkValues, Bool.not_eq_true', hc]
  by_cases hn : value s = none
  · simp only [hn, true_and, ne_eq, not_true_eq_false, false_and, or_false]
    have h1 := cNe_self r
    cases s <;> simp [value] at hn <;> simp [crFail, h1, cNe, cEq, cLe] <;> cases r <;> simp [cLe, value, numOf]
  · simp only [hn, false_and, ne_eq, not_false_eq_true, true_and, false_or]
    exact crFail_iff hr hsd hn

/-! ## Faithful rounding -/

theorem lo_spec {F : Fmt} (he : 2 ≤ F.e) (x : ℝ) :
    F.Datum (cell F (sround F .RD x)) ∧ ∃ p, value (cell F (sround F .RD x)) = some p ∧ p ≤ (x : EReal) ∧ ∀ w q, F.Datum w → value w = some q → q ≤ (x : EReal) → q ≤ p := by
  have hom := Float.C02_omega_is_greatest F he
  have hfin : ∀ v : ℚ, F.Finite v → value (cell F (.num v)) = some ((v : ℝ) : EReal) := by
    intro v hv
    rw [cell_finite he hv]
    split_ifs with h <;> simp [value, h]
  have hdat : ∀ v : ℚ, F.Finite v → F.Datum (cell F (.num v)) := by
    intro v hv
    rw [cell_finite he hv]
    split_ifs with h
    · trivial
    · exact ⟨hv, h⟩
  have num : ∀ w : ℚ, F.Finite w → (w : ℝ) ≤ x → (w : ℝ) ≤ roundUnb F .RD x := fun w hw h => le_rd ((finite_iff he).1 hw).1 h
  have f0 : F.Finite 0 := ⟨0, F.emin, by simp, le_refl _, Float.emin_le_emax F he, by simp⟩
  -- the finite data below `x`
  have all : ∀ (p : EReal), (∀ w : ℚ, F.Finite w → (w : ℝ) ≤ x → ((w : ℝ) : EReal) ≤ p) →
      ∀ w q, F.Datum w → value w = some q → q ≤ (x : EReal) → q ≤ p := by
    intro p hp w q hd hw hq
    cases w <;> simp only [value, Option.some.injEq, reduceCtorEq] at hw <;> subst hw
    · simp at hq
    · exact bot_le
    · have h := hp 0 f0 (by simpa using hq)
      simpa using h
    · have h := hp 0 f0 (by simpa using hq)
      simpa using h
    · exact hp _ hd.1 (by exact_mod_cast hq)
  by_cases h : |roundUnb F .RD x| ≤ Float.omega F
  · have hf : F.Finite (roundUnb F .RD x) := (finite_iff he).2 ⟨roundUnb_unb F _ x, h⟩
    have : sround F .RD x = .num (roundUnb F .RD x) := by simp [sround, h]
    rw [this, hfin _ hf]
    exact ⟨hdat _ hf, _, rfl, by exact_mod_cast rd_le F x, all _ fun w hw hx => by exact_mod_cast num w hw hx⟩
  · by_cases hp : 0 < roundUnb F .RD x
    · have : sround F .RD x = .num (Float.omega F) := by simp [sround, h, hp]
      rw [this, hfin _ hom.1]
      rw [abs_of_pos hp, not_le] at h
      have h1 : ((Float.omega F : ℚ) : ℝ) < roundUnb F .RD x := by exact_mod_cast h
      refine ⟨hdat _ hom.1, _, rfl, by exact_mod_cast (h1.trans_le (rd_le F x)).le, all _ fun w hw _ => ?_⟩
      have h2 := (le_abs_self w).trans (hom.2 w hw)
      exact_mod_cast h2
    · have : sround F .RD x = .minusInf := by simp [sround, h, hp]
      rw [this]
      refine ⟨trivial, ⊥, rfl, bot_le, all _ fun w hw hx => ?_⟩
      exfalso
      have h1 := num w hw hx
      have h2 : w ≤ roundUnb F .RD x := by exact_mod_cast h1
      rw [not_le, abs_of_nonpos (not_lt.1 hp)] at h
      have h3 := hom.2 w hw
      have h4 := neg_abs_le w
      linarith

theorem hi_spec {F : Fmt} (he : 2 ≤ F.e) (x : ℝ) :
    F.Datum (cell F (sround F .RU x)) ∧ ∃ p, value (cell F (sround F .RU x)) = some p ∧ (x : EReal) ≤ p ∧ ∀ w q, F.Datum w → value w = some q → (x : EReal) ≤ q → p ≤ q := by
  have hom := Float.C02_omega_is_greatest F he
  have hfin : ∀ v : ℚ, F.Finite v → value (cell F (.num v)) = some ((v : ℝ) : EReal) := by
    intro v hv
    rw [cell_finite he hv]
    split_ifs with h <;> simp [value, h]
  have hdat : ∀ v : ℚ, F.Finite v → F.Datum (cell F (.num v)) := by
    intro v hv
    rw [cell_finite he hv]
    split_ifs with h
    · trivial
    · exact ⟨hv, h⟩
  have num : ∀ w : ℚ, F.Finite w → x ≤ (w : ℝ) → (roundUnb F .RU x : ℝ) ≤ w := fun w hw h => ru_le ((finite_iff he).1 hw).1 h
  have f0 : F.Finite 0 := ⟨0, F.emin, by simp, le_refl _, Float.emin_le_emax F he, by simp⟩
  have all : ∀ (p : EReal), (∀ w : ℚ, F.Finite w → x ≤ (w : ℝ) → p ≤ ((w : ℝ) : EReal)) →
      ∀ w q, F.Datum w → value w = some q → (x : EReal) ≤ q → p ≤ q := by
    intro p hp w q hd hw hq
    cases w <;> simp only [value, Option.some.injEq, reduceCtorEq] at hw <;> subst hw
    · exact le_top
    · simp at hq
    · have h := hp 0 f0 (by simpa using hq)
      simpa using h
    · have h := hp 0 f0 (by simpa using hq)
      simpa using h
    · exact hp _ hd.1 (by exact_mod_cast hq)
  by_cases h : |roundUnb F .RU x| ≤ Float.omega F
  · have hf : F.Finite (roundUnb F .RU x) := (finite_iff he).2 ⟨roundUnb_unb F _ x, h⟩
    have : sround F .RU x = .num (roundUnb F .RU x) := by simp [sround, h]
    rw [this, hfin _ hf]
    exact ⟨hdat _ hf, _, rfl, by exact_mod_cast le_ru F x, all _ fun w hw hx => by exact_mod_cast num w hw hx⟩
  · by_cases hp : 0 < roundUnb F .RU x
    · have : sround F .RU x = .plusInf := by simp [sround, h, hp]
      rw [this]
      refine ⟨trivial, ⊤, rfl, le_top, all _ fun w hw hx => ?_⟩
      exfalso
      have h1 := num w hw hx
      have h2 : roundUnb F .RU x ≤ w := by exact_mod_cast h1
      rw [not_le, abs_of_pos hp] at h
      have h3 := hom.2 w hw
      have h4 := le_abs_self w
      linarith
    · have : sround F .RU x = .num (-Float.omega F) := by simp [sround, h, hp]
      rw [this, hfin _ (Float.finite_neg hom.1)]
      rw [abs_of_nonpos (not_lt.1 hp), not_le] at h
      have h1 : ((roundUnb F .RU x : ℚ) : ℝ) < ((-Float.omega F : ℚ) : ℝ) := by exact_mod_cast (by linarith : roundUnb F .RU x < -Float.omega F)
      refine ⟨hdat _ (Float.finite_neg hom.1), _, rfl, by exact_mod_cast ((le_ru F x).trans h1.le), all _ fun w hw _ => ?_⟩
      have h2 := hom.2 w hw
      have h4 := neg_abs_le w
      have h5 : -Float.omega F ≤ w := by linarith
      exact_mod_cast h5

/-- the test against two bounds that are not NaNs -/
theorem two_iff {r lo hi : Val} {p q : EReal} (hl : value lo = some p) (hh : value hi = some q) :
    twoFail r lo hi = false ↔ ∃ v, value r = some v ∧ p ≤ v ∧ v ≤ q := by
  have h1 : cNe lo lo = false := by rw [Bool.eq_false_iff, ne_eq, cNe_self]; simp [hl]
  have h2 : cNe hi hi = false := by rw [Bool.eq_false_iff, ne_eq, cNe_self]; simp [hh]
  simp only [twoFail, h1, h2, Bool.or_self, Bool.false_and, Bool.or_false, Bool.not_eq_false', Bool.and_eq_true, cLe_iff, hl, hh]
  constructor
  · rintro ⟨⟨a, b, ha, hb, hab⟩, ⟨c, d, hc, hd, hcd⟩⟩
    simp only [Option.some.injEq] at ha hd
    rw [hb, Option.some.injEq] at hc
    subst ha hc hd
    exact ⟨b, hb, hab, hcd⟩
  · rintro ⟨v, hv, ha, hb⟩
    exact ⟨⟨p, v, rfl, hv, ha⟩, ⟨v, q, hv, rfl, hb⟩⟩

/-- **C70** (faithful rounding) A result is accepted iff it is the greatest datum below the exact value or the least datum above,
including infinities when the exact value is out of the range. -/
theorem C70_faithful {F : Fmt} (he : 2 ≤ F.e) (x : ℝ) {r : Val} (hr : F.Datum r) :
    accepts F .faithful (.real x) r = true ↔ Faithful F x r := by
  obtain ⟨hpd, p, hp, hpx, hpm⟩ := lo_spec he x
  obtain ⟨hqd, q, hq, hqx, hqm⟩ := hi_spec he x
  simp only [accepts, checkValues, Bool.not_eq_true', two_iff hp hq, Faithful]
  constructor
  · rintro ⟨v, hv, h1, h2⟩
    refine ⟨v, hv, ?_⟩
    rcases le_total v (x : EReal) with h | h
    · left
      have : v = p := le_antisymm (hpm r v hr hv h) h1
      subst this
      exact ⟨h, hpm⟩
    · right
      have : v = q := le_antisymm h2 (hqm r v hr hv h)
      subst this
      exact ⟨h, hqm⟩
  · rintro ⟨v, hv, ⟨h1, h2⟩ | ⟨h1, h2⟩⟩
    · exact ⟨v, hv, h2 _ p hpd hp hpx, h1.trans hqx⟩
    · exact ⟨v, hv, hpx.trans h1, h2 _ q hqd hq hqx⟩

/-- **C70** (interval checks, special values) With the three other goals, the data equal to a special value are accepted (both zeros for
a zero), and any NaN for a NaN. -/
theorem C70_interval_special {F : Fmt} {s r : Val} (hs : ∀ v, s ≠ .num v) {g : Goal} (hg : g ≠ .correctlyRounded) :
    accepts F g (.special s) r = true ↔ value r = value s := by
  have hc : cell F s = s := by cases s <;> simp [cell] at hs ⊢
  have hv : accepts F g (.special s) r = !twoFail r s s := by
    cases g <;> simp [accepts, checkValues, hc] at hg ⊢
  rw [hv]
  cases h : value s with
  | some p =>
    rw [Bool.not_eq_true', two_iff h h]
    constructor
    · rintro ⟨v, hv, h1, h2⟩; rw [hv, le_antisymm h1 h2]
    · intro hr; exact ⟨p, hr, le_refl _, le_refl _⟩
  | none =>
    have h1 : cNe s s = true := (cNe_self s).2 h
    have h2 : cLe s r = false := by
      rw [Bool.eq_false_iff, ne_eq, cLe_iff]; rintro ⟨p, q, hp, -, -⟩; rw [h] at hp; exact absurd hp (by simp)
    simp [twoFail, h1, h2, cNe_self]

/-! ## Absolute and relative goals -/

theorem nearest_iff {F : Fmt} (hf : 1 ≤ F.f) {x : ℝ} {v : ℚ} : NearestEven F x v ↔ v = roundUnb F .RN x :=
  ⟨nearest_unique hf, fun h => h ▸ rn_nearest hf x⟩

/-- rounding to nearest does not cross a number of the format -/
theorem rn_cross {F : Fmt} {y : ℝ} {w : ℚ} (hw : Unbounded F w) :
    (y ≤ w → (roundUnb F .RN y : ℝ) ≤ w) ∧ ((w : ℝ) ≤ y → (w : ℝ) ≤ roundUnb F .RN y) := by
  have h := rn_min (x := y) hw
  constructor
  · intro hy
    by_contra hc
    push Not at hc
    rw [abs_of_nonpos (show y - (w : ℝ) ≤ 0 by linarith), abs_of_neg (show y - (roundUnb F .RN y : ℝ) < 0 by linarith)] at h
    linarith
  · intro hy
    by_contra hc
    push Not at hc
    rw [abs_of_nonneg (show 0 ≤ y - (w : ℝ) by linarith), abs_of_pos (show 0 < y - (roundUnb F .RN y : ℝ) by linarith)] at h
    linarith

theorem cell_num {F : Fmt} (he : 2 ≤ F.e) {y : ℚ} (hy : |y| ≤ Float.omega F) :
    value (cell F (.num y)) = some (((roundUnb F .RN (y : ℝ) : ℚ) : ℝ) : EReal) := by
  have hom := (finite_iff he).1 (Float.C02_omega_is_greatest F he).1
  have hz : |roundUnb F .RN (y : ℝ)| ≤ Float.omega F := by
    have h1 := (rn_cross (y := (y : ℝ)) hom.1).1 (by exact_mod_cast (abs_le.1 hy).2)
    have h2 := (rn_cross (y := (y : ℝ)) (unb_neg hom.1)).2 (by exact_mod_cast (abs_le.1 hy).1)
    rw [abs_le]
    exact ⟨by exact_mod_cast h2, by exact_mod_cast h1⟩
  unfold cell
  by_cases h0 : y = 0
  · simp [h0, value, roundUnb]
  · have h0' : (y : ℝ) ≠ 0 := by exact_mod_cast h0
    by_cases h1 : roundUnb F .RN (y : ℝ) = 0
    · have : sround F .RN (y : ℝ) = .num 0 := by
        unfold sround; simp only [h1] at hz ⊢; simp only [hz, if_true]
      simp [h0, this, value, h1]
    · have : sround F .RN (y : ℝ) = .num (roundUnb F .RN (y : ℝ)) := by unfold sround; simp only [hz, if_true]
      simp [h0, this, value, h1]

/-- the upper bound of the interval in the table -/
theorem hi_cell {F : Fmt} (he : 2 ≤ F.e) {c t : ℚ} (hc : F.Finite c) (ht : 0 ≤ t) :
    ∃ h, value (cell F (Float.saturate F (c + t))) = some h ∧
      (∀ v : ℚ, F.Finite v → (((v : ℝ) : EReal) ≤ h ↔ v ≤ c + t ∨ v = roundUnb F .RN ((c + t : ℚ) : ℝ))) ∧
      (h = ⊤ ↔ Float.omega F < c + t) ∧ h ≠ ⊥ := by
  have hom := Float.C02_omega_is_greatest F he
  have hcb := abs_le.1 (hom.2 c hc)
  unfold Float.saturate
  by_cases h : Float.omega F < |c + t|
  · have hpos : Float.omega F < c + t := by
      rcases abs_cases (c + t) with ⟨e, -⟩ | ⟨e, -⟩ <;> rw [e] at h <;> linarith
    have h0 : 0 < c + t := by linarith [(abs_nonneg _).trans (hom.2 c hc)]
    rw [if_pos h, if_pos h0]
    refine ⟨⊤, rfl, fun v hv => ⟨fun _ => Or.inl ?_, fun _ => le_top⟩, ⟨fun _ => hpos, fun _ => rfl⟩, top_ne_bot⟩
    linarith [(le_abs_self v).trans (hom.2 v hv)]
  · rw [if_neg h]
    rw [not_lt] at h
    refine ⟨_, cell_num he h, fun v hv => ?_, ⟨fun hh => absurd hh (EReal.coe_ne_top _), fun hh => ?_⟩, EReal.coe_ne_bot _⟩
    · have hu := ((finite_iff he).1 hv).1
      rw [EReal.coe_le_coe_iff]
      constructor
      · intro hle
        by_contra hcon
        push Not at hcon
        have h1 := (rn_cross (y := ((c + t : ℚ) : ℝ)) hu).1 (by exact_mod_cast hcon.1.le)
        exact hcon.2 (by exact_mod_cast le_antisymm hle h1)
      · rintro (hle | rfl)
        · exact (rn_cross hu).2 (by exact_mod_cast hle)
        · exact le_refl _
    · exact absurd hh (not_lt.2 ((le_abs_self _).trans h))

/-- the lower bound of the interval in the table -/
theorem lo_cell {F : Fmt} (he : 2 ≤ F.e) {c t : ℚ} (hc : F.Finite c) (ht : 0 ≤ t) :
    ∃ l, value (cell F (Float.saturate F (c - t))) = some l ∧
      (∀ v : ℚ, F.Finite v → (l ≤ ((v : ℝ) : EReal) ↔ c - t ≤ v ∨ v = roundUnb F .RN ((c - t : ℚ) : ℝ))) ∧
      (l = ⊥ ↔ c - t < -Float.omega F) ∧ l ≠ ⊤ := by
  have hom := Float.C02_omega_is_greatest F he
  have hcb := abs_le.1 (hom.2 c hc)
  unfold Float.saturate
  by_cases h : Float.omega F < |c - t|
  · have hneg : c - t < -Float.omega F := by
      rcases abs_cases (c - t) with ⟨e, -⟩ | ⟨e, -⟩ <;> rw [e] at h <;> linarith
    have h0 : ¬ 0 < c - t := by linarith [(abs_nonneg _).trans (hom.2 c hc)]
    rw [if_pos h, if_neg h0]
    refine ⟨⊥, rfl, fun v hv => ⟨fun _ => Or.inl ?_, fun _ => bot_le⟩, ⟨fun _ => hneg, fun _ => rfl⟩, bot_ne_top⟩
    linarith [(neg_abs_le v), (hom.2 v hv)]
  · rw [if_neg h]
    rw [not_lt] at h
    refine ⟨_, cell_num he h, fun v hv => ?_, ⟨fun hh => absurd hh (EReal.coe_ne_bot _), fun hh => ?_⟩, EReal.coe_ne_top _⟩
    · have hu := ((finite_iff he).1 hv).1
      rw [EReal.coe_le_coe_iff]
      constructor
      · intro hle
        by_contra hcon
        push Not at hcon
        have h1 := (rn_cross (y := ((c - t : ℚ) : ℝ)) hu).2 (by exact_mod_cast hcon.1.le)
        exact hcon.2 (by exact_mod_cast le_antisymm h1 hle)
      · rintro (hle | rfl)
        · exact (rn_cross hu).1 (by exact_mod_cast hle)
        · exact le_refl _
    · exact absurd hh (not_lt.2 (by linarith [neg_abs_le (c - t)]))

/-- the bounds of an absolute or relative goal around a finite value -/
theorem degraded_bounds {F : Fmt} (he : 2 ≤ F.e) (hf : 1 ≤ F.f) {x : ℝ} {c : ℚ} (hx : NearestEven F x c) (hc : F.Finite c) {g : Goal}
    (hg : (∃ a, g = .absolute a) ∨ ∃ a, g = .relative a) (r : Val) :
    accepts F g (.real x) r = !twoFail r (cell F (Float.saturate F (c - tolerance g c))) (cell F (Float.saturate F (c + tolerance g c))) := by
  rw [nearest_iff hf] at hx
  have h : sround F .RN x = .num c := by
    unfold sround; simp only [← hx, (Float.C02_omega_is_greatest F he).2 c hc, if_true]
  rcases hg with ⟨a, rfl⟩ | ⟨a, rfl⟩ <;> simp [accepts, checkValues, h]

theorem tolerance_nonneg (g : Goal) (c : ℚ) : 0 ≤ tolerance g c := by
  cases g
  · exact le_refl _
  · exact le_refl _
  · exact abs_nonneg _
  · exact abs_nonneg _

theorem degraded_iff {F : Fmt} (he : 2 ≤ F.e) (hf : 1 ≤ F.f) {x : ℝ} {c : ℚ} (hx : NearestEven F x c) (hc : F.Finite c) {g : Goal}
    (hg : (∃ a, g = .absolute a) ∨ ∃ a, g = .relative a) {r : Val} {v : ℚ} (hv : F.Finite v) (hr : value r = some ((v : ℝ) : EReal)) :
    accepts F g (.real x) r = true ↔ |v - c| ≤ tolerance g c ∨ NearestEven F ((c + tolerance g c : ℚ) : ℝ) v ∨
      NearestEven F ((c - tolerance g c : ℚ) : ℝ) v := by
  have ht := tolerance_nonneg g c
  rw [degraded_bounds he hf hx hc hg, Bool.not_eq_true']
  generalize tolerance g c = t at ht
  obtain ⟨h, hh, hhi, -⟩ := hi_cell he hc ht
  obtain ⟨l, hl, hlo, -⟩ := lo_cell he hc ht
  rw [two_iff hl hh, nearest_iff hf, nearest_iff hf]
  have e : (∃ w, value r = some w ∧ l ≤ w ∧ w ≤ h) ↔ l ≤ ((v : ℝ) : EReal) ∧ ((v : ℝ) : EReal) ≤ h := by
    constructor
    · rintro ⟨w, hw, h1, h2⟩
      rw [hr, Option.some.injEq] at hw
      exact hw ▸ ⟨h1, h2⟩
    · intro h; exact ⟨_, hr, h⟩
  rw [e, hlo v hv, hhi v hv, abs_le]
  have hu := ((finite_iff he).1 hc).1
  have b1 : c ≤ roundUnb F .RN ((c + t : ℚ) : ℝ) := by
    exact_mod_cast (rn_cross (y := ((c + t : ℚ) : ℝ)) hu).2 (by exact_mod_cast (by linarith : c ≤ c + t))
  have b2 : roundUnb F .RN ((c - t : ℚ) : ℝ) ≤ c := by
    exact_mod_cast (rn_cross (y := ((c - t : ℚ) : ℝ)) hu).1 (by exact_mod_cast (by linarith : c - t ≤ c))
  constructor
  · rintro ⟨h1, h2⟩
    rcases h2 with h2 | h2
    · rcases h1 with h1 | h1
      · exact Or.inl ⟨by linarith, by linarith⟩
      · exact Or.inr (Or.inr h1)
    · exact Or.inr (Or.inl h2)
  · rintro (⟨h1, h2⟩ | h | h)
    · exact ⟨Or.inl (by linarith), Or.inl (by linarith)⟩
    · exact ⟨Or.inl (by rw [h]; linarith), Or.inr h⟩
    · exact ⟨Or.inr h, Or.inl (by rw [h]; linarith)⟩

/-- **C70** (absolute goal) For a function whose correctly rounded value `c` is finite, a finite result is accepted iff it is within the
goal of `c`, or is the rounding of one end of this interval. The property asks for the distance to the exact value: see
`C70_absolute_reject_wrong` and `C70_absolute_accept_wrong`. -/
theorem C70_absolute_partial {F : Fmt} (he : 2 ≤ F.e) (hf : 1 ≤ F.f) {x : ℝ} {c : ℚ} (hx : NearestEven F x c) (hc : F.Finite c) (g : ℚ)
    {r : Val} {v : ℚ} (hv : F.Finite v) (hr : value r = some ((v : ℝ) : EReal)) :
    accepts F (.absolute g) (.real x) r = true ↔
      |v - c| ≤ |g| ∨ NearestEven F ((c + |g| : ℚ) : ℝ) v ∨ NearestEven F ((c - |g| : ℚ) : ℝ) v :=
  degraded_iff he hf hx hc (Or.inl ⟨g, rfl⟩) hv hr

/-- **C70** (relative goal) The same with the goal times `|c|`. -/
theorem C70_relative_partial {F : Fmt} (he : 2 ≤ F.e) (hf : 1 ≤ F.f) {x : ℝ} {c : ℚ} (hx : NearestEven F x c) (hc : F.Finite c) (g : ℚ)
    {r : Val} {v : ℚ} (hv : F.Finite v) (hr : value r = some ((v : ℝ) : EReal)) :
    accepts F (.relative g) (.real x) r = true ↔
      |v - c| ≤ |g * c| ∨ NearestEven F ((c + |g * c| : ℚ) : ℝ) v ∨ NearestEven F ((c - |g * c| : ℚ) : ℝ) v :=
  degraded_iff he hf hx hc (Or.inr ⟨g, rfl⟩) hv hr

/-- C70 is false near the end of the range: with an absolute goal, an infinite result is accepted for a finite function value as soon as
the value plus the goal exceeds the greatest number, whatever the goal. -/
theorem C70_absolute_infinite_wrong {F : Fmt} (he : 2 ≤ F.e) (hf : 1 ≤ F.f) {x : ℝ} {c : ℚ} (hx : NearestEven F x c) (hc : F.Finite c)
    (g : ℚ) : (accepts F (.absolute g) (.real x) .plusInf = true ↔ ∀ v, F.Finite v → v < c + |g|) ∧
      (accepts F (.absolute g) (.real x) .minusInf = true ↔ ∀ v, F.Finite v → c - |g| < v) := by
  have hom := Float.C02_omega_is_greatest F he
  have hb := degraded_bounds he hf hx hc (Or.inl ⟨g, rfl⟩)
  have ht : tolerance (.absolute g) c = |g| := rfl
  simp only [ht] at hb
  obtain ⟨h, hh, -, hht, hhb⟩ := hi_cell he hc (abs_nonneg g)
  obtain ⟨l, hl, -, hlb, hlt⟩ := lo_cell he hc (abs_nonneg g)
  rw [hb, hb, Bool.not_eq_true', Bool.not_eq_true', two_iff hl hh, two_iff hl hh]
  constructor
  · have : (∀ v, F.Finite v → v < c + |g|) ↔ Float.omega F < c + |g| :=
      ⟨fun h => h _ hom.1, fun h v hv => lt_of_le_of_lt ((le_abs_self v).trans (hom.2 v hv)) h⟩
    rw [this, ← hht]
    simp [value]
  · have : (∀ v, F.Finite v → c - |g| < v) ↔ c - |g| < -Float.omega F :=
      ⟨fun h => h _ (Float.finite_neg hom.1), fun h v hv => lt_of_lt_of_le h (by linarith [neg_abs_le v, hom.2 v hv])⟩
    rw [this, ← hlb]
    simp [value]

/-- **C70** (absolute and relative goals, overflow) When the correctly rounded value is an infinity, it is the only result accepted. -/
theorem C70_overflow {F : Fmt} (he : 2 ≤ F.e) (hf : 1 ≤ F.f) {x : ℝ} {c : ℚ} (hx : NearestEven F x c) (hc : ¬ F.Finite c) {g : Goal}
    (hg : (∃ a, g = .absolute a) ∨ ∃ a, g = .relative a) {r : Val} (hr : F.Datum r) :
    accepts F g (.real x) r = true ↔ RoundsTo F x r := by
  rw [nearest_iff hf] at hx
  have hn : ¬ |roundUnb F .RN x| ≤ Float.omega F := by
    rw [← hx]; intro h; exact hc ((finite_iff he).2 ⟨hx ▸ roundUnb_unb F _ x, h⟩)
  have h0 : roundUnb F .RN x ≠ 0 := by
    intro h0; rw [h0, abs_zero] at hn
    exact hn ((abs_nonneg _).trans ((Float.C02_omega_is_greatest F he).2 _ (Float.C02_omega_is_greatest F he).1))
  rw [roundsTo_iff he hf, if_neg h0, cr_cell he, if_neg hn]
  have hs : sround F .RN x = if 0 < roundUnb F .RN x then .plusInf else .minusInf := by unfold sround; simp only [hn, if_false]
  have hacc : accepts F g (.real x) r = !twoFail r (if 0 < roundUnb F .RN x then .plusInf else .minusInf)
      (if 0 < roundUnb F .RN x then .plusInf else .minusInf) := by
    rcases hg with ⟨a, rfl⟩ | ⟨a, rfl⟩ <;> simp only [accepts, checkValues, hs] <;> split_ifs <;> simp [cell]
  rw [hacc, Bool.not_eq_true']
  split_ifs
  · rw [two_iff (p := ⊤) (q := ⊤) rfl rfl]
    cases r <;> simp [value]
  · rw [two_iff (p := ⊥) (q := ⊥) rfl rfl]
    cases r <;> simp [value]

/-- **C70** (NaN) A NaN is never accepted where the function has a real value. -/
theorem C70_nan {F : Fmt} (he : 2 ≤ F.e) (hf : 1 ≤ F.f) (g : Goal) (x : ℝ) {r : Val} (hr : value r = none) :
    accepts F g (.real x) r = false := by
  have no : ∀ {lo hi : Val} {p q : EReal}, value lo = some p → value hi = some q → (!twoFail r lo hi) = false := by
    intro lo hi p q hl hh
    rw [Bool.eq_false_iff, ne_eq, Bool.not_eq_true', two_iff hl hh, hr]
    simp
  by_cases hg : (∃ a, g = .absolute a) ∨ ∃ a, g = .relative a
  · by_cases hc : F.Finite (roundUnb F .RN x)
    · rw [degraded_bounds he hf (rn_nearest hf x) hc hg]
      obtain ⟨h, hh, -⟩ := hi_cell he hc (tolerance_nonneg g _)
      obtain ⟨l, hl, -⟩ := lo_cell he hc (tolerance_nonneg g _)
      exact no hl hh
    · have hrd : F.Datum r := by cases r <;> simp [value, Fmt.Datum] at hr ⊢
      rw [Bool.eq_false_iff, ne_eq, C70_overflow he hf (rn_nearest hf x) hc hg hrd, roundsTo_iff he hf]
      intro h
      rw [h] at hr
      have hd := cr_cell_datum he x
      split_ifs at hr <;> simp [value] at hr
      exact hd.2 hr
  · cases g with
    | absolute a => exact absurd (Or.inl ⟨a, rfl⟩) hg
    | relative a => exact absurd (Or.inr ⟨a, rfl⟩) hg
    | faithful =>
      obtain ⟨-, p, hp, -⟩ := lo_spec he x
      obtain ⟨-, q, hq, -⟩ := hi_spec he x
      exact no hp hq
    | correctlyRounded =>
      have hrd : F.Datum r := by cases r <;> simp [value, Fmt.Datum] at hr ⊢
      have hd := cr_cell_datum he x
      simp only [accepts, checkValues]
      rw [Bool.eq_false_iff, ne_eq, Bool.not_eq_true', crFail_iff hrd hd.1 hd.2]
      intro h; rw [h] at hr; exact hd.2 hr

/-! ## Witnesses -/

theorem toInt_eq {y : ℝ} {n : ℤ} (h : |y - n| < 1 / 2) : toInt .RN y = n := by
  by_contra hne
  have h0 := toInt_near y
  have h1 : (1 : ℝ) ≤ |(n : ℝ) - toInt .RN y| := by
    have : (1 : ℤ) ≤ |n - toInt .RN y| := Int.one_le_abs (sub_ne_zero.2 (Ne.symm hne))
    exact_mod_cast this
  have h2 : |(n : ℝ) - toInt .RN y| ≤ |y - n| + |y - toInt .RN y| := by
    have := abs_sub_le (n : ℝ) y (toInt .RN y)
    rwa [abs_sub_comm (n : ℝ) y] at this
  linarith

theorem log_of {x : ℝ} {k : ℤ} (h1 : (2 : ℝ) ^ k ≤ |x|) (h2 : |x| < (2 : ℝ) ^ (k + 1)) : Int.log 2 |x| = k := by
  have hp : 0 < |x| := (rp k).trans_le h1
  apply le_antisymm
  · have := (Int.lt_zpow_iff_log_lt (b := 2) (x := k + 1) (by norm_num) hp).1 (by simpa using h2)
    omega
  · exact (Int.zpow_le_iff_le_log (b := 2) (by norm_num) hp).1 (by simpa using h1)

theorem rn_eq {F : Fmt} {x : ℝ} {k n : ℤ} (h1 : (2 : ℝ) ^ k ≤ |x|) (h2 : |x| < (2 : ℝ) ^ (k + 1))
    (hn : |x / (2 : ℝ) ^ (max k F.emin - F.f) - n| < 1 / 2) : roundUnb F .RN x = n * (2 : ℚ) ^ (max k F.emin - F.f) := by
  have hx : x ≠ 0 := by
    rintro rfl
    rw [abs_zero] at h1
    linarith [rp k]
  have hl : lastPlace F x = max k F.emin - F.f := by unfold lastPlace; rw [log_of h1 h2]
  simp only [roundUnb, hx, if_false, hl, toInt_eq hn]

/-- binary32 -/
abbrev b32 : Fmt := ⟨8, 23⟩

theorem b32_emin : b32.emin = -126 := by norm_num [Fmt.emin, Fmt.emax]

theorem b32_emax : b32.emax = 127 := by norm_num [Fmt.emax]

/-- the correctly rounded value of 1 + 2^-25 is 1 -/
example : accepts b32 .correctlyRounded (.real (1 + 1 / 2 ^ 25)) (.num 1) = true := by
  have hr : roundUnb b32 .RN (1 + 1 / 2 ^ 25) = 1 := by
    rw [rn_eq (k := 0) (n := 2 ^ 23) (by norm_num [abs_of_pos]) (by norm_num [abs_of_pos])]
    · rw [b32_emin]; norm_num
    · rw [b32_emin]; norm_num [abs_lt]
  have hd : b32.Datum (.num 1) := ⟨⟨2 ^ 23, 0, by norm_num, by rw [b32_emin]; norm_num, by rw [b32_emax]; norm_num, by norm_num⟩, by norm_num⟩
  have hom := (Float.C02_omega_is_greatest b32 (by norm_num)).2 1 hd.1
  have hR : RoundsTo b32 (1 + 1 / 2 ^ 25) (.num 1) := by
    rw [roundsTo_iff (by norm_num) (by norm_num), hr, if_neg (by norm_num), cr_cell (by norm_num), hr, if_pos hom, if_neg (by norm_num)]
  refine (C70_cr_partial (by norm_num) (by norm_num) _ hd ?_).2 hR
  rw [roundsTo_iff (by norm_num) (by norm_num), hr, if_neg (by norm_num), cr_cell (by norm_num), hr, if_pos hom, if_neg (by norm_num)]
  simp

/-- the correctly rounded value of -2^-151 is the negative zero -/
example : RoundsTo b32 (-(2 : ℝ) ^ (-151 : ℤ)) .minusZero := by
  have hp := rp (-151)
  have hr : roundUnb b32 .RN (-(2 : ℝ) ^ (-151 : ℤ)) = 0 := by
    rw [rn_eq (k := -151) (n := 0) (by rw [abs_neg, abs_of_pos hp]) (by rw [abs_neg, abs_of_pos hp]; norm_num)]
    · simp
    · rw [b32_emin]; norm_num
  rw [roundsTo_iff (by norm_num) (by norm_num), if_pos hr, if_pos (by linarith)]

/-- C70 is false for absolute goals: a result further than the goal from the exact value is accepted. The function value is 1, the goal
0.6 ulp, the result 1 + 1 ulp. -/
theorem C70_absolute_accept_wrong : ∃ (F : Fmt) (x : ℝ) (g v : ℚ), F.Finite v ∧ F.Datum (.num v) ∧
    accepts F (.absolute g) (.real x) (.num v) = true ∧ |g| < |(v : ℝ) - x| := by
  have h1 : b32.Finite 1 := ⟨2 ^ 23, 0, by norm_num, by rw [b32_emin]; norm_num, by rw [b32_emax]; norm_num, by norm_num⟩
  have h2 : b32.Finite (1 + 1 / 2 ^ 23) := ⟨2 ^ 23 + 1, 0, by norm_num, by rw [b32_emin]; norm_num, by rw [b32_emax]; norm_num, by norm_num⟩
  have hc : NearestEven b32 ((1 : ℚ) : ℝ) 1 := by
    rw [nearest_iff (by norm_num)]; exact (rn_of_unb ((finite_iff (by norm_num)).1 h1).1).symm
  refine ⟨b32, ((1 : ℚ) : ℝ), 3 / 5 / 2 ^ 23, 1 + 1 / 2 ^ 23, h2, ⟨h2, by norm_num⟩, ?_, by norm_num [abs_of_pos]⟩
  rw [C70_absolute_partial (by norm_num) (by norm_num) hc h1 _ h2 rfl]
  right; left
  rw [nearest_iff (by norm_num), rn_eq (k := 0) (n := 2 ^ 23 + 1) (by norm_num [abs_of_pos]) (by norm_num [abs_of_pos])]
  · rw [b32_emin]; norm_num
  · rw [b32_emin]; norm_num [abs_lt, abs_of_pos]

/-- C70 is false for absolute goals: a result within the goal of the exact value is rejected. The function value is 2^23 + 1.6, the goal
2^23 + 1.25, the result 0.5. -/
theorem C70_absolute_reject_wrong : ∃ (F : Fmt) (x : ℝ) (g v : ℚ), F.Finite v ∧ F.Datum (.num v) ∧
    accepts F (.absolute g) (.real x) (.num v) = false ∧ |(v : ℝ) - x| ≤ |g| := by
  have h1 : b32.Finite (2 ^ 23 + 2) := ⟨2 ^ 23 + 2, 23, by norm_num, by rw [b32_emin]; norm_num, by rw [b32_emax]; norm_num, by norm_num⟩
  have h2 : b32.Finite (1 / 2) := ⟨2 ^ 23, -1, by norm_num, by rw [b32_emin]; norm_num, by rw [b32_emax]; norm_num, by norm_num⟩
  have hc : NearestEven b32 (2 ^ 23 + 8 / 5) (2 ^ 23 + 2) := by
    rw [nearest_iff (by norm_num), rn_eq (k := 23) (n := 2 ^ 23 + 2) (by norm_num [abs_of_pos]) (by norm_num [abs_of_pos])]
    · rw [b32_emin]; norm_num
    · rw [b32_emin]; norm_num [abs_lt]
  refine ⟨b32, 2 ^ 23 + 8 / 5, 2 ^ 23 + 5 / 4, 1 / 2, h2, ⟨h2, by norm_num⟩, ?_, by norm_num [abs_of_neg, abs_of_pos]⟩
  rw [Bool.eq_false_iff, ne_eq, C70_absolute_partial (by norm_num) (by norm_num) hc h1 _ h2 rfl, nearest_iff (by norm_num), nearest_iff (by norm_num)]
  have e1 : roundUnb b32 .RN (((2 ^ 23 + 2 - |2 ^ 23 + 5 / 4| : ℚ)) : ℝ) = 3 / 4 := by
    rw [rn_eq (k := -1) (n := 3 * 2 ^ 22) (by norm_num [abs_of_pos]) (by norm_num [abs_of_pos])]
    · rw [b32_emin]; norm_num
    · rw [b32_emin]; norm_num [abs_of_pos]
  have e2 : roundUnb b32 .RN (((2 ^ 23 + 2 + |2 ^ 23 + 5 / 4| : ℚ)) : ℝ) = 2 ^ 24 + 4 := by
    rw [rn_eq (k := 24) (n := 2 ^ 23 + 2) (by norm_num [abs_of_pos]) (by norm_num [abs_of_pos])]
    · rw [b32_emin]; norm_num
    · rw [b32_emin]; norm_num [abs_lt, abs_of_pos]
  rw [e1, e2]
  norm_num [abs_of_pos, abs_of_neg]

/-- the greatest number of binary32 with an absolute goal of 2^-149: the infinity is accepted -/
example : accepts b32 (.absolute (2 ^ (-149 : ℤ))) (.real ((Float.omega b32 : ℚ) : ℝ)) .plusInf = true := by
  have hom := Float.C02_omega_is_greatest b32 (by norm_num)
  have hc : NearestEven b32 ((Float.omega b32 : ℚ) : ℝ) (Float.omega b32) := by
    rw [nearest_iff (by norm_num)]; exact (rn_of_unb ((finite_iff (by norm_num)).1 hom.1).1).symm
  refine ((C70_absolute_infinite_wrong (by norm_num) (by norm_num) hc hom.1 _).1).2 fun v hv => ?_
  have := (le_abs_self v).trans (hom.2 v hv)
  have hp : (0 : ℚ) < |2 ^ (-149 : ℤ)| := abs_pos.2 (Float.zp _).ne'
  linarith

end Verif.Check
