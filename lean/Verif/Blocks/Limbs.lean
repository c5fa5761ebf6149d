import Verif.Blocks.Bounds
import Verif.Blocks.LimbModel
import Verif.Blocks.LimbSpec

/-! C48: comparisons, min, max, abs; C49: constants. -/

namespace Verif.Blocks

theorem nearest_mono {p : ℕ} {q : WithBot ℤ} {rnd : ℚ → ℚ} (hr : Nearest p q rnd) :
    Monotone rnd := by
  intro x y hxy
  rcases hxy.lt_or_eq with h | rfl
  swap
  · exact le_refl _
  by_contra hc
  push Not at hc
  have h1 := (hr x).2 _ (hr y).1
  have h2 := (hr y).2 _ (hr x).1
  generalize rnd x = a at *
  generalize rnd y = b at *
  rcases le_total x b with c1 | c1
  · rw [abs_of_nonpos (by linarith : x - a ≤ 0), abs_of_nonpos (by linarith : x - b ≤ 0)] at h1
    linarith
  · rcases le_total y a with c2 | c2
    · rw [abs_of_nonneg (by linarith : 0 ≤ x - b)] at h1
      rw [abs_of_nonneg (by linarith : 0 ≤ y - b), abs_of_nonpos (by linarith : y - a ≤ 0)] at h2
      rcases le_total x a with c3 | c3
      · rw [abs_of_nonpos (by linarith : x - a ≤ 0)] at h1
        linarith
      · linarith
    · rw [abs_of_nonneg (by linarith : 0 ≤ y - b), abs_of_nonneg (by linarith : 0 ≤ y - a)] at h2
      linarith

/-- normalized numbers are ordered by their first differing limb -/
theorem lt_of_head {rnd : ℚ → ℚ} (hm : Monotone rnd) {a b : ℚ} {s t : ℚ} (ha : a = rnd (a + s))
    (hb : b = rnd (b + t)) (h : a < b) : a + s < b + t := by
  by_contra hc
  push Not at hc
  have := hm hc
  rw [← ha, ← hb] at this
  linarith

theorem cmp_lex {c : Cmp} {a b s t : ℚ} (h1 : a < b → a + s < b + t) (h2 : b < a → b + t < a + s)
    {d : Bool} (hd : d = c.eval s t) (hc : c ≠ .eq) (hc' : c ≠ .ne) :
    (c.strict.eval a b || (Cmp.eq.eval a b && d)) = c.eval (a + s) (b + t) := by
  subst hd
  rcases lt_trichotomy a b with h | h | h
  · have h3 := h1 h
    cases c <;> simp_all [Cmp.eval, Cmp.strict, h.ne, h.le, h.not_gt, h3.le, h3.not_ge, h.not_ge, h3.not_gt]
  · subst h
    cases c <;> simp_all [Cmp.eval, Cmp.strict]
  · have h3 := h2 h
    cases c <;> simp_all [Cmp.eval, Cmp.strict, h.ne', h.le, h.not_gt, h3.le, h3.not_ge, h.not_ge, h3.not_gt]

theorem eq_lex {a b s t : ℚ} (h1 : a < b → a + s < b + t) (h2 : b < a → b + t < a + s) :
    a + s = b + t ↔ a = b ∧ s = t := by
  constructor
  · intro h
    have : a = b := by
      rcases lt_trichotomy a b with c | c | c
      · exact absurd (h1 c) (by rw [h]; exact lt_irrefl _)
      · exact c
      · exact absurd (h2 c) (by rw [h]; exact lt_irrefl _)
    exact ⟨this, by linarith⟩
  · rintro ⟨rfl, rfl⟩; rfl

/-- **C48**, two limbs: all six comparisons agree with the represented values. -/
theorem C48_cmp2 {rnd : ℚ → ℚ} (hm : Monotone rnd) (c : Cmp) {lh ll rh rl : ℚ}
    (hl : Normalized rnd [lh, ll]) (hr : Normalized rnd [rh, rl]) :
    cmp2 c (lh, ll) (rh, rl) = c.eval (lh + ll) (rh + rl) := by
  obtain ⟨a1, -⟩ := hl
  obtain ⟨b1, -⟩ := hr
  rw [List.sum_singleton] at a1 b1
  have h1 := lt_of_head hm a1 b1
  have h2 := lt_of_head hm b1 a1
  have he := eq_lex h1 h2
  cases c
  · simp only [cmp2, Cmp.eval, he, Bool.decide_and]
  · simp only [cmp2, Cmp.eval, ne_eq, he, not_and_or, Bool.decide_or]
  all_goals exact cmp_lex h1 h2 rfl (by decide) (by decide)

theorem cmp3_core {rnd : ℚ → ℚ} (c : Cmp) {l r : ℚ × ℚ × ℚ}
    (h1 : l.1 < r.1 → l.1 + (l.2.1 + l.2.2) < r.1 + (r.2.1 + r.2.2))
    (h2 : r.1 < l.1 → r.1 + (r.2.1 + r.2.2) < l.1 + (l.2.1 + l.2.2))
    (h3 : l.2.1 < r.2.1 → l.2.1 + l.2.2 < r.2.1 + r.2.2)
    (h4 : r.2.1 < l.2.1 → r.2.1 + r.2.2 < l.2.1 + l.2.2) :
    cmp3 rnd c true true l r = c.eval (l.1 + (l.2.1 + l.2.2)) (r.1 + (r.2.1 + r.2.2)) := by
  have he := eq_lex h1 h2
  have he2 := eq_lex h3 h4
  unfold cmp3 renorm
  simp only [if_true]
  cases c
  · simp only [Cmp.eval, he, he2, Bool.decide_and]
  · simp only [Cmp.eval, ne_eq, he, he2, not_and_or, Bool.decide_or]
  all_goals
    exact cmp_lex h1 h2 (cmp_lex h3 h4 rfl (by decide) (by decide)) (by decide) (by decide)

theorem norm3_facts {rnd : ℚ → ℚ} (hm : Monotone rnd) {l r : ℚ × ℚ × ℚ}
    (hl : Normalized rnd [l.1, l.2.1, l.2.2]) (hr : Normalized rnd [r.1, r.2.1, r.2.2]) :
    (l.1 < r.1 → l.1 + (l.2.1 + l.2.2) < r.1 + (r.2.1 + r.2.2)) ∧
    (l.2.1 < r.2.1 → l.2.1 + l.2.2 < r.2.1 + r.2.2) := by
  obtain ⟨a1, a2, -⟩ := hl
  obtain ⟨b1, b2, -⟩ := hr
  simp only [List.sum_cons, List.sum_nil, add_zero] at a1 a2 b1 b2
  exact ⟨lt_of_head hm a1 b1, lt_of_head hm a2 b2⟩

/-- **C48**, three limbs, both operands normalized constants (no renormalization is inserted). -/
theorem C48_cmp3_const_partial {rnd : ℚ → ℚ} (hm : Monotone rnd) (c : Cmp) {l r : ℚ × ℚ × ℚ}
    (hl : Normalized rnd [l.1, l.2.1, l.2.2]) (hr : Normalized rnd [r.1, r.2.1, r.2.2]) :
    cmp3 rnd c true true l r = c.eval (l.1 + (l.2.1 + l.2.2)) (r.1 + (r.2.1 + r.2.2)) :=
  cmp3_core c (norm3_facts hm hl hr).1 (norm3_facts hm hr hl).1 (norm3_facts hm hl hr).2
    (norm3_facts hm hr hl).2

/-- what `Normalize_33` does to a normalized number: the head becomes the rounding of the two
upper limbs -/
theorem renorm_normalized {p : ℕ} (hp : 3 ≤ p) {q : WithBot ℤ} {rnd : ℚ → ℚ}
    (hr : Nearest p q rnd) {x : ℚ × ℚ × ℚ} (h1 : Rep p q x.1) (h2 : Rep p q x.2.1)
    (h3 : Rep p q x.2.2) (hn : Normalized rnd [x.1, x.2.1, x.2.2]) :
    (normalize33 rnd x.1 x.2.1 x.2.2).1 = rnd (x.1 + x.2.1) := by
  obtain ⟨-, a2, -⟩ := hn
  simp only [List.sum_cons, List.sum_nil, add_zero] at a2
  have t := (C46_twosum hp hr h2 h3).1
  show (twoSum rnd x.1 (twoSum rnd x.2.1 x.2.2).1).1 = _
  rw [t, ← a2]; rfl

theorem NI_mono {p : ℕ} {r : ℤ → ℤ} (hr : NI p r) : Monotone r := by
  intro x y hxy
  rcases hxy.lt_or_eq with h | rfl
  swap
  · exact le_refl _
  by_contra hc
  push Not at hc
  have h1 := (hr x).2 _ (hr y).1
  have h2 := (hr y).2 _ (hr x).1
  generalize r x = a at *
  generalize r y = b at *
  rw [Int.abs_eq_natAbs, Int.abs_eq_natAbs] at h1 h2
  omega

theorem half_up {p : ℕ} {r : ℤ → ℤ} (hr : NI p r) {t : ℤ} {j : ℕ} (h : 2 * t ≤ 2 ^ j) :
    2 * r t ≤ 2 ^ j := by
  have h0 : FI p (0:ℤ) := ⟨0, 0, by simp, by simp⟩
  rcases j with _ | j
  · have := NI_mono hr (show t ≤ 0 by omega)
    rw [exact hr h0] at this
    omega
  · rw [pow_succ] at h ⊢
    have := NI_mono hr (show t ≤ 2 ^ j by omega)
    rw [exact hr (FI_pow p j)] at this
    omega

theorem half_down {p : ℕ} {r : ℤ → ℤ} (hr : NI p r) {t : ℤ} {j : ℕ} (h : -(2 ^ j) ≤ 2 * t) :
    -(2 ^ j) ≤ 2 * r t := by
  have h0 : FI p (0:ℤ) := ⟨0, 0, by simp, by simp⟩
  rcases j with _ | j
  · have := NI_mono hr (show 0 ≤ t by omega)
    rw [exact hr h0] at this
    omega
  · rw [pow_succ] at h ⊢
    have := NI_mono hr (show -(2 ^ j) ≤ t by omega)
    rw [exact hr (FI_neg (FI_pow p j))] at this
    omega

/-- adding or removing a unit in the last place stays in the format -/
theorem step {p k : ℕ} {n : ℤ} (h1 : (2:ℤ) ^ k ∣ n) (h2 : |n| < 2 ^ (p + k)) :
    FI p (n + 2 ^ k) ∧ FI p (n - 2 ^ k) ∧ |n| ≤ 2 ^ (p + k) - 2 ^ k := by
  have h3 : |n| ≤ 2 ^ (p + k) - 2 ^ k := by
    obtain ⟨m, rfl⟩ := h1
    have hk : (0:ℤ) < 2 ^ k := by positivity
    rw [abs_mul, abs_of_pos hk] at h2 ⊢
    rw [pow_add, mul_comm ((2:ℤ) ^ p)] at h2 ⊢
    have : |m| < 2 ^ p := lt_of_mul_lt_mul_left h2 hk.le
    have := mul_le_mul_of_nonneg_left (show |m| ≤ 2 ^ p - 1 by omega) hk.le
    linarith
  have hk : (0:ℤ) < 2 ^ k := by positivity
  refine ⟨FI_of_dvd (dvd_add h1 dvd_rfl) ?_, FI_of_dvd (dvd_sub h1 dvd_rfl) ?_, h3⟩
  · have := abs_add_le n (2 ^ k)
    rw [abs_of_pos hk] at this
    linarith
  · have := abs_sub n (2 ^ k)
    rw [abs_of_pos hk] at this
    linarith

theorem upper_core {p : ℕ} (hp : 2 ≤ p) {r : ℤ → ℤ} (hr : NI p r) {x y t u : ℤ} (hx : FI p x)
    (hy : FI p y) (hxy : x < y)
    (ht : ∀ z, FI p z → x < z → 2 * t ≤ z - x) (hu : ∀ w, FI p w → w < y → w - y ≤ 2 * u) :
    x + r t ≤ y + r u := by
  have hp1 : 1 ≤ p := by omega
  obtain ⟨k, a1, a2, a3⟩ := canon hp1 hx
  obtain ⟨l, b1, b2, b3⟩ := canon hp1 hy
  obtain ⟨s1, -, s3⟩ := step a1 a2
  obtain ⟨-, s5, s6⟩ := step b1 b2
  have hk : (0:ℤ) < 2 ^ k := by positivity
  have hl : (0:ℤ) < 2 ^ l := by positivity
  have U := half_up hr (j := k) (by have := ht _ s1 (by linarith); linarith)
  have D := half_down hr (j := l) (by have := hu _ s5 (by linarith); linarith)
  by_cases hbig : 2 ^ k ≤ y - x ∧ 2 ^ l ≤ y - x
  · omega
  have hP : (4:ℤ) ≤ 2 ^ p := by
    calc (4:ℤ) = 2 ^ 2 := by norm_num
      _ ≤ 2 ^ p := pow_le_pow_right₀ (by norm_num) hp
  rcases Nat.lt_trichotomy k l with hkl | hkl | hkl
  · -- the upper operand has the larger scale
    have hd : 2 ^ k ≤ y - x := Int.le_of_dvd (by linarith)
      (dvd_sub ((pow_dvd_pow 2 hkl.le).trans b1) a1)
    have hdl : y - x < 2 ^ l := by
      by_contra hc
      exact hbig ⟨hd, by linarith⟩
    rcases b3 with b3 | b3
    · omega
    obtain ⟨j, rfl⟩ : ∃ j, l = k + 1 + j := ⟨l - k - 1, by omega⟩
    have hj : (1:ℤ) ≤ 2 ^ j := one_le_pow₀ (by norm_num)
    have e1 : (2:ℤ) ^ (p + (k + 1 + j)) = 2 * (2 ^ p * (2 ^ k * 2 ^ j)) := by
      rw [pow_add, pow_add, pow_succ]; ring
    have e2 : (2:ℤ) ^ (p + k) = 2 ^ p * 2 ^ k := pow_add _ _ _
    have e3 : (2:ℤ) ^ (k + 1 + j) = 2 * (2 ^ k * 2 ^ j) := by rw [pow_add, pow_succ]; ring
    rw [e1] at b3
    rw [e2] at s3
    rw [e3] at hdl
    set K := (2:ℤ) ^ k
    set J := (2:ℤ) ^ j
    set P := (2:ℤ) ^ p
    have hKJ : K ≤ K * J := by nlinarith
    have hPKJ : P * K ≤ P * (K * J) := mul_le_mul_of_nonneg_left hKJ (by linarith)
    have hypos : 0 < y := by
      by_contra hc
      rw [abs_of_nonpos (by linarith : y ≤ 0)] at b3
      rw [abs_of_nonpos (by linarith : x ≤ 0)] at s3
      linarith
    rw [abs_of_pos hypos] at b3
    have hx' := le_abs_self x
    have hj0 : j = 0 := by
      by_contra hc
      obtain ⟨i, rfl⟩ : ∃ i, j = i + 1 := ⟨j - 1, by omega⟩
      have e4 : J = 2 * 2 ^ i := by show (2:ℤ) ^ (i + 1) = _; rw [pow_succ]; ring
      have hi : (1:ℤ) ≤ 2 ^ i := one_le_pow₀ (by norm_num)
      have g1 : K ≤ K * 2 ^ i := by nlinarith
      rw [e4] at b3 hdl
      have g2 : P * K ≤ P * (K * 2 ^ i) := mul_le_mul_of_nonneg_left g1 (by linarith)
      have g3 : 4 * (K * 2 ^ i) ≤ P * (K * 2 ^ i) :=
        mul_le_mul_of_nonneg_right hP (by positivity)
      have g4 : P * (K * (2 * 2 ^ i)) = 2 * (P * (K * 2 ^ i)) := by ring
      linarith
    have hJ : J = 1 := by show (2:ℤ) ^ j = 1; rw [hj0]; norm_num
    rw [hJ, mul_one] at hdl
    have hde : y - x = K := by
      obtain ⟨c, hc⟩ := dvd_sub ((pow_dvd_pow 2 hkl.le).trans b1) a1
      change y - x = K * c at hc
      have hc1 : c < 2 := lt_of_mul_lt_mul_left (by linarith : K * c < K * 2) hk.le
      have hc2 : 0 < c := lt_of_mul_lt_mul_left (by linarith : K * 0 < K * c) hk.le
      have : c = 1 := by omega
      rw [hc, this, mul_one]
    have D' := half_down hr (t := u) (j := k) (by
      have := hu _ hx hxy
      change -K ≤ _
      linarith)
    change -K ≤ _ at D'
    linarith
  · subst hkl
    have hd : 2 ^ k ≤ y - x := Int.le_of_dvd (by linarith) (dvd_sub b1 a1)
    exact absurd ⟨hd, hd⟩ hbig
  · have hd : 2 ^ l ≤ y - x := Int.le_of_dvd (by linarith)
      (dvd_sub b1 ((pow_dvd_pow 2 hkl.le).trans a1))
    have hdl : y - x < 2 ^ k := by
      by_contra hc
      exact hbig ⟨by linarith, hd⟩
    rcases a3 with a3 | a3
    · omega
    obtain ⟨j, rfl⟩ : ∃ j, k = l + 1 + j := ⟨k - l - 1, by omega⟩
    have hj : (1:ℤ) ≤ 2 ^ j := one_le_pow₀ (by norm_num)
    have e1 : (2:ℤ) ^ (p + (l + 1 + j)) = 2 * (2 ^ p * (2 ^ l * 2 ^ j)) := by
      rw [pow_add, pow_add, pow_succ]; ring
    have e2 : (2:ℤ) ^ (p + l) = 2 ^ p * 2 ^ l := pow_add _ _ _
    have e3 : (2:ℤ) ^ (l + 1 + j) = 2 * (2 ^ l * 2 ^ j) := by rw [pow_add, pow_succ]; ring
    rw [e1] at a3
    rw [e2] at s6
    rw [e3] at hdl
    set K := (2:ℤ) ^ l
    set J := (2:ℤ) ^ j
    set P := (2:ℤ) ^ p
    have hKJ : K ≤ K * J := by nlinarith
    have hPKJ : P * K ≤ P * (K * J) := mul_le_mul_of_nonneg_left hKJ (by linarith)
    have hxneg : x < 0 := by
      by_contra hc
      rw [abs_of_nonneg (by linarith : 0 ≤ x)] at a3
      rw [abs_of_nonneg (by linarith : 0 ≤ y)] at s6
      linarith
    rw [abs_of_neg hxneg] at a3
    have hy' := neg_abs_le y
    have hj0 : j = 0 := by
      by_contra hc
      obtain ⟨i, rfl⟩ : ∃ i, j = i + 1 := ⟨j - 1, by omega⟩
      have e4 : J = 2 * 2 ^ i := by show (2:ℤ) ^ (i + 1) = _; rw [pow_succ]; ring
      have hi : (1:ℤ) ≤ 2 ^ i := one_le_pow₀ (by norm_num)
      have g1 : K ≤ K * 2 ^ i := by nlinarith
      rw [e4] at a3 hdl
      have g2 : P * K ≤ P * (K * 2 ^ i) := mul_le_mul_of_nonneg_left g1 (by linarith)
      have g3 : 4 * (K * 2 ^ i) ≤ P * (K * 2 ^ i) :=
        mul_le_mul_of_nonneg_right hP (by positivity)
      have g4 : P * (K * (2 * 2 ^ i)) = 2 * (P * (K * 2 ^ i)) := by ring
      linarith
    have hJ : J = 1 := by show (2:ℤ) ^ j = 1; rw [hj0]; norm_num
    rw [hJ, mul_one] at hdl
    have hde : y - x = K := by
      obtain ⟨c, hc⟩ := dvd_sub b1 ((pow_dvd_pow 2 hkl.le).trans a1)
      change y - x = K * c at hc
      have hc1 : c < 2 := lt_of_mul_lt_mul_left (by linarith : K * c < K * 2) hl.le
      have hc2 : 0 < c := lt_of_mul_lt_mul_left (by linarith : K * 0 < K * c) hl.le
      have : c = 1 := by omega
      rw [hc, this, mul_one]
    have U' := half_up hr (t := t) (j := l) (by
      have := ht _ hy hxy
      change _ ≤ K
      linarith)
    change _ ≤ K at U'
    linarith

theorem near_up {s a z : ℚ} (h : |s - a| ≤ |s - z|) (hz : a < z) : 2 * (s - a) ≤ z - a := by
  by_contra hc
  push Not at hc
  rw [abs_of_pos (by linarith : 0 < s - a)] at h
  rcases le_total 0 (s - z) with g | g
  · rw [abs_of_nonneg g] at h; linarith
  · rw [abs_of_nonpos g] at h; linarith

theorem near_down {s a z : ℚ} (h : |s - a| ≤ |s - z|) (hz : z < a) : z - a ≤ 2 * (s - a) := by
  by_contra hc
  push Not at hc
  rw [abs_of_neg (by linarith : s - a < 0)] at h
  rcases le_total 0 (s - z) with g | g
  · rw [abs_of_nonneg g] at h; linarith
  · rw [abs_of_nonpos g] at h; linarith

/-- all the limbs of two numbers share a unit -/
theorem six_units {p : ℕ} {q : WithBot ℤ} {a b c d : ℚ} (ha : Rep p q a) (hb : Rep p q b)
    (hc : Rep p q c) (hd : Rep p q d) {e f : ℚ} (he : Rep p q e) (hf : Rep p q f) :
    ∃ (e0 : ℤ) (i j k l m n : ℤ), q ≤ (e0 : WithBot ℤ) ∧
      (FI p i ∧ FI p j ∧ FI p k ∧ FI p l ∧ FI p m ∧ FI p n) ∧
      a = (i : ℚ) * (2:ℚ) ^ e0 ∧ b = (j : ℚ) * (2:ℚ) ^ e0 ∧ c = (k : ℚ) * (2:ℚ) ^ e0 ∧
      d = (l : ℚ) * (2:ℚ) ^ e0 ∧ e = (m : ℚ) * (2:ℚ) ^ e0 ∧ f = (n : ℚ) * (2:ℚ) ^ e0 := by
  have down : ∀ {x : ℚ}, Rep p q x → ∃ e1 : ℤ, q ≤ (e1 : WithBot ℤ) ∧ ∀ e0 ≤ e1,
      ∃ i : ℤ, FI p i ∧ x = (i : ℚ) * (2:ℚ) ^ e0 := by
    rintro x ⟨m, e, hm, he, rfl⟩
    exact ⟨e, he, fun e0 h => FI_of_Rep hm h⟩
  obtain ⟨e1, q1, h1⟩ := down ha
  obtain ⟨e2, q2, h2⟩ := down hb
  obtain ⟨e3, q3, h3⟩ := down hc
  obtain ⟨e4, q4, h4⟩ := down hd
  obtain ⟨e5, q5, h5⟩ := down he
  obtain ⟨e6, q6, h6⟩ := down hf
  have hmin : ∃ e0 : ℤ, q ≤ (e0 : WithBot ℤ) ∧ e0 ≤ e1 ∧ e0 ≤ e2 ∧ e0 ≤ e3 ∧ e0 ≤ e4 ∧ e0 ≤ e5 ∧
      e0 ≤ e6 := by
    have pick : ∀ a b : ℤ, q ≤ (a : WithBot ℤ) → q ≤ (b : WithBot ℤ) →
        ∃ c : ℤ, q ≤ (c : WithBot ℤ) ∧ c ≤ a ∧ c ≤ b := by
      intro a b ha hb
      rcases le_total a b with h | h
      · exact ⟨a, ha, le_refl _, h⟩
      · exact ⟨b, hb, h, le_refl _⟩
    obtain ⟨f1, g1, _, _⟩ := pick e1 e2 q1 q2
    obtain ⟨f2, g2, _, _⟩ := pick f1 e3 g1 q3
    obtain ⟨f3, g3, _, _⟩ := pick f2 e4 g2 q4
    obtain ⟨f4, g4, _, _⟩ := pick f3 e5 g3 q5
    obtain ⟨f5, g5, _, _⟩ := pick f4 e6 g4 q6
    exact ⟨f5, g5, by omega, by omega, by omega, by omega, by omega, by omega⟩
  obtain ⟨e0, hq, g1, g2, g3, g4, g5, g6⟩ := hmin
  obtain ⟨i, i1, i2⟩ := h1 e0 g1
  obtain ⟨j, j1, j2⟩ := h2 e0 g2
  obtain ⟨k, k1, k2⟩ := h3 e0 g3
  obtain ⟨l, l1, l2⟩ := h4 e0 g4
  obtain ⟨m, m1, m2⟩ := h5 e0 g5
  obtain ⟨n, n1, n2⟩ := h6 e0 g6
  exact ⟨e0, i, j, k, l, m, n, hq, ⟨i1, j1, k1, l1, m1, n1⟩, i2, j2, k2, l2, m2, n2⟩

/-- if the value of `y` exceeds the value of `x` then so does the sum of its two upper limbs -/
theorem upper_mono {p : ℕ} (hp : 3 ≤ p) {q : WithBot ℤ} {rnd : ℚ → ℚ} (hr : Nearest p q rnd)
    {x1 x2 x3 y1 y2 y3 : ℚ} (rx1 : Rep p q x1) (rx2 : Rep p q x2) (rx3 : Rep p q x3)
    (ry1 : Rep p q y1) (ry2 : Rep p q y2) (ry3 : Rep p q y3)
    (hx : Normalized rnd [x1, x2, x3]) (hy : Normalized rnd [y1, y2, y3])
    (h : x1 + (x2 + x3) ≤ y1 + (y2 + y3)) : x1 + x2 ≤ y1 + y2 := by
  have hm := nearest_mono hr
  obtain ⟨a1, a2, -⟩ := hx
  obtain ⟨b1, b2, -⟩ := hy
  simp only [List.sum_cons, List.sum_nil, add_zero] at a1 a2 b1 b2
  have h1 : x1 ≤ y1 := by rw [a1, b1]; exact hm h
  rcases h1.lt_or_eq with h2 | h2
  · have hp1 : 1 ≤ p := by omega
    have nx := (hr (x1 + (x2 + x3))).2
    have ny := (hr (y1 + (y2 + y3))).2
    rw [← a1] at nx
    rw [← b1] at ny
    obtain ⟨e0, i, j, k, l, m, n, hq, ⟨f1, f2, f3, f4, f5, f6⟩, rfl, rfl, rfl, rfl, rfl, rfl⟩ :=
      six_units rx1 rx2 rx3 ry1 ry2 ry3
    obtain ⟨r, hr', hrr⟩ := lift hp1 hr hq
    have hpos := zpow2_pos e0
    have cmpz : ∀ a b : ℤ, (a:ℚ) * 2 ^ e0 ≤ b * 2 ^ e0 → a ≤ b := by
      intro a b h
      exact_mod_cast le_of_mul_le_mul_right h hpos
    have hil : i < l := by
      have := lt_of_mul_lt_mul_right h2 hpos.le
      exact_mod_cast this
    have ej : j = r (j + k) := by
      have : (j:ℚ) * 2 ^ e0 = (r (j + k) : ℚ) * 2 ^ e0 := by
        rw [← hrr]; rw [a2]; congr 1
        push_cast; ring
      exact_mod_cast mul_right_cancel₀ hpos.ne' this
    have em : m = r (m + n) := by
      have : (m:ℚ) * 2 ^ e0 = (r (m + n) : ℚ) * 2 ^ e0 := by
        rw [← hrr]; rw [b2]; congr 1
        push_cast; ring
      exact_mod_cast mul_right_cancel₀ hpos.ne' this
    have core := upper_core (p := p) (by omega) hr' (t := j + k) (u := m + n) f1 f4 hil
      (by
        intro z hz hiz
        have h3 := near_up (nx _ (Rep_of_FI hp1 hq hz)) (by
          refine mul_lt_mul_of_pos_right ?_ hpos
          exact_mod_cast hiz)
        refine cmpz _ _ ?_
        push_cast
        linarith)
      (by
        intro w hw hwl
        have h3 := near_down (ny _ (Rep_of_FI hp1 hq hw)) (by
          refine mul_lt_mul_of_pos_right ?_ hpos
          exact_mod_cast hwl)
        refine cmpz _ _ ?_
        push_cast
        linarith)
    rw [← ej, ← em] at core
    rw [← add_mul, ← add_mul]
    refine mul_le_mul_of_nonneg_right ?_ hpos.le
    exact_mod_cast core
  · have h3 : x2 ≤ y2 := by
      rw [a2, b2]; exact hm (by linarith)
    linarith

/-- what `Normalize_33` returns on a normalized number: each limb rounds what the limbs above left -/
theorem renorm_limbs {p : ℕ} (hp : 3 ≤ p) {q : WithBot ℤ} {rnd : ℚ → ℚ}
    (hr : Nearest p q rnd) {x : ℚ × ℚ × ℚ} (h1 : Rep p q x.1) (h2 : Rep p q x.2.1)
    (h3 : Rep p q x.2.2) (hn : Normalized rnd [x.1, x.2.1, x.2.2]) :
    let r := normalize33 rnd x.1 x.2.1 x.2.2
    r.1 = rnd (x.1 + x.2.1) ∧ r.2.1 = rnd (r.2.1 + r.2.2) ∧
      r.1 + (r.2.1 + r.2.2) = x.1 + (x.2.1 + x.2.2) := by
  intro r
  obtain ⟨s, -, -, -, m⟩ := C64_normalize33 hp hr h1 h2 h3
  exact ⟨renorm_normalized hp hr h1 h2 h3 hn, m.symm, by linarith⟩

/-- **C48**, three limbs, neither operand a constant: on normalized operands all six comparisons
agree with the represented values, although the inserted `Normalize_33` need not return normalized
numbers. -/
theorem C48_cmp3_variables_partial {p : ℕ} (hp : 3 ≤ p) {q : WithBot ℤ} {rnd : ℚ → ℚ}
    (hr : Nearest p q rnd) (c : Cmp) {l r : ℚ × ℚ × ℚ}
    (l1 : Rep p q l.1) (l2 : Rep p q l.2.1) (l3 : Rep p q l.2.2)
    (r1 : Rep p q r.1) (r2 : Rep p q r.2.1) (r3 : Rep p q r.2.2)
    (nl : Normalized rnd [l.1, l.2.1, l.2.2]) (nr : Normalized rnd [r.1, r.2.1, r.2.2]) :
    cmp3 rnd c false false l r = c.eval (l.1 + (l.2.1 + l.2.2)) (r.1 + (r.2.1 + r.2.2)) := by
  have hm := nearest_mono hr
  obtain ⟨a1, a2, a3⟩ := renorm_limbs hp hr l1 l2 l3 nl
  obtain ⟨b1, b2, b3⟩ := renorm_limbs hp hr r1 r2 r3 nr
  have hc := cmp3_core (rnd := rnd) c (l := normalize33 rnd l.1 l.2.1 l.2.2)
    (r := normalize33 rnd r.1 r.2.1 r.2.2) ?_ ?_ (lt_of_head hm a2 b2) (lt_of_head hm b2 a2)
  · rw [a3, b3] at hc
    rw [← hc]
    rfl
  · intro h
    rw [a3, b3]
    by_contra hh
    push Not at hh
    have := hm (upper_mono hp hr r1 r2 r3 l1 l2 l3 nr nl hh)
    rw [← a1, ← b1] at this
    linarith
  · intro h
    rw [a3, b3]
    by_contra hh
    push Not at hh
    have := hm (upper_mono hp hr l1 l2 l3 r1 r2 r3 nl nr hh)
    rw [← a1, ← b1] at this
    linarith

/-- limbs of a normalized triple whose two upper limbs lie on a rounding tie -/
def tieTriple : ℚ × ℚ × ℚ := (1 + 2 ^ (-52 : ℤ), 2 ^ (-53 : ℤ), -2 ^ (-120 : ℤ))

theorem rep_of {p : ℕ} (m e : ℤ) {x : ℚ} (h : |m| < 2 ^ p) (hx : x = (m : ℚ) * (2:ℚ) ^ e) :
    Rep p ⊥ x := ⟨m, e, h, bot_le, hx⟩

theorem tieTriple_rep : Rep 53 ⊥ tieTriple.1 ∧ Rep 53 ⊥ tieTriple.2.1 ∧ Rep 53 ⊥ tieTriple.2.2 :=
  ⟨rep_of (2 ^ 52 + 1) (-52) (by norm_num) (by norm_num [tieTriple]),
   rep_of 1 (-53) (by norm_num) (by norm_num [tieTriple]),
   rep_of (-1) (-120) (by norm_num) (by norm_num [tieTriple])⟩

theorem tieTriple_normalized :
    Normalized (roundNearest 53 ⊥) [tieTriple.1, tieTriple.2.1, tieTriple.2.2] :=
  ⟨by decide +kernel, by decide +kernel, by decide +kernel, trivial⟩

/-- non-vacuity of `C48_cmp3_variables_partial`: binary64 limbs -/
example : cmp3 (roundNearest 53 ⊥) .le false false tieTriple tieTriple =
    Cmp.le.eval (tieTriple.1 + (tieTriple.2.1 + tieTriple.2.2))
      (tieTriple.1 + (tieTriple.2.1 + tieTriple.2.2)) :=
  C48_cmp3_variables_partial (by norm_num) (roundNearest_nearest (by norm_num) ⊥) _
    tieTriple_rep.1 tieTriple_rep.2.1 tieTriple_rep.2.2
    tieTriple_rep.1 tieTriple_rep.2.1 tieTriple_rep.2.2 tieTriple_normalized tieTriple_normalized

/-- **C48 is violated** when one operand is a constant and the other is not: a normalized
three-limb variable that holds the very limbs of a normalized constant compares different from it,
since only the variable goes through `Normalize_33`, which moves its head to the other side of the
tie. The head of the example rounds the same way under ties-to-even. -/
theorem C48_cmp3_mixed_wrong :
    ∃ (p : ℕ) (rnd : ℚ → ℚ) (x : ℚ × ℚ × ℚ), Nearest p ⊥ rnd ∧
      Rep p ⊥ x.1 ∧ Rep p ⊥ x.2.1 ∧ Rep p ⊥ x.2.2 ∧ Normalized rnd [x.1, x.2.1, x.2.2] ∧
      cmp3 rnd .eq true false x x = false ∧ cmp3 rnd .lt true false x x = true :=
  ⟨53, roundNearest 53 ⊥, tieTriple, roundNearest_nearest (by norm_num) ⊥, tieTriple_rep.1,
    tieTriple_rep.2.1, tieTriple_rep.2.2, tieTriple_normalized, by decide +kernel,
    by decide +kernel⟩

/-! ### Minimum and maximum -/

/-- lexicographic comparison of the limbs -/
def lexGt : List ℚ → List ℚ → Prop
  | a :: as, b :: bs => a > b ∨ (a = b ∧ lexGt as bs)
  | _, _ => False

theorem predLoop_eq (gt eq : Bool) (l r : List ℚ) :
    predLoop gt eq l r = true ↔ gt = true ∨ (eq = true ∧ lexGt l r) := by
  induction l generalizing gt eq r with
  | nil => simp [predLoop, lexGt]
  | cons a as ih =>
    cases r with
    | nil => simp [predLoop, lexGt]
    | cons b bs =>
      rw [predLoop, ih]
      simp only [Bool.or_eq_true, Bool.and_eq_true, Cmp.eval, decide_eq_true_eq, lexGt]
      tauto

theorem predGt_eq (l r : List ℚ) : predGt l r = true ↔ lexGt l r := by
  cases l with
  | nil => simp [predGt, lexGt]
  | cons a as =>
    cases r with
    | nil => simp [predGt, lexGt]
    | cons b bs =>
      rw [predGt, predLoop_eq]
      simp only [Cmp.eval, decide_eq_true_eq, lexGt]

theorem lexGt_sum {rnd : ℚ → ℚ} (hm : Monotone rnd) (l r : List ℚ) (hlen : l.length = r.length)
    (hl : Normalized rnd l) (hr : Normalized rnd r) : lexGt l r ↔ l.sum > r.sum := by
  induction l generalizing r with
  | nil =>
    cases r with
    | nil => simp [lexGt]
    | cons b bs => simp at hlen
  | cons a as ih =>
    cases r with
    | nil => simp at hlen
    | cons b bs =>
      obtain ⟨h1, h2⟩ := hl
      obtain ⟨g1, g2⟩ := hr
      have ih' := ih bs (by simpa using hlen) h2 g2
      have u := lt_of_head hm h1 g1
      have v := lt_of_head hm g1 h1
      simp only [lexGt, List.sum_cons]
      rw [ih']
      constructor
      · rintro (h | ⟨rfl, h⟩)
        · exact v h
        · linarith
      · intro h
        rcases lt_trichotomy a b with c | c | c
        · exact absurd (u c) (by linarith)
        · exact Or.inr ⟨c, by subst c; linarith⟩
        · exact Or.inl c

theorem zipWith_fst {l r : List ℚ} (h : l.length = r.length) :
    List.zipWith (fun a _ => a) l r = l := by
  induction l generalizing r with
  | nil => simp
  | cons a as ih =>
    cases r with
    | nil => simp at h
    | cons b bs => simp [ih (by simpa using h)]

theorem zipWith_snd {l r : List ℚ} (h : l.length = r.length) :
    List.zipWith (fun _ b => b) l r = r := by
  induction l generalizing r with
  | nil => cases r with
    | nil => rfl
    | cons b bs => simp at h
  | cons a as ih =>
    cases r with
    | nil => simp at h
    | cons b bs => simp [ih (by simpa using h)]

/-- **C48**, max: for any number of limbs the result is one of the operands (hence normalized) and
its value is the maximum of the two values. -/
theorem C48_max {rnd : ℚ → ℚ} (hm : Monotone rnd) {l r : List ℚ} (hlen : l.length = r.length)
    (hl : Normalized rnd l) (hr : Normalized rnd r) :
    (expandMax l r = l ∨ expandMax l r = r) ∧ (expandMax l r).sum = max l.sum r.sum := by
  have hs := lexGt_sum hm l r hlen hl hr
  by_cases h : predGt l r = true
  · have e : expandMax l r = l := by simp only [expandMax, h, if_true]; exact zipWith_fst hlen
    rw [e]
    exact ⟨Or.inl rfl, (max_eq_left (hs.1 ((predGt_eq l r).1 h)).le).symm⟩
  · have e : expandMax l r = r := by
      simp only [expandMax, h]; exact zipWith_snd hlen
    rw [e]
    refine ⟨Or.inr rfl, (max_eq_right ?_).symm⟩
    have := mt hs.2 (mt (predGt_eq l r).2 h)
    exact not_lt.1 this

/-- **C48**, min. -/
theorem C48_min {rnd : ℚ → ℚ} (hm : Monotone rnd) {l r : List ℚ} (hlen : l.length = r.length)
    (hl : Normalized rnd l) (hr : Normalized rnd r) :
    (expandMin l r = l ∨ expandMin l r = r) ∧ (expandMin l r).sum = min l.sum r.sum := by
  have hs := lexGt_sum hm l r hlen hl hr
  by_cases h : predGt l r = true
  · have e : expandMin l r = r := by simp only [expandMin, h, if_true]; exact zipWith_snd hlen
    rw [e]
    exact ⟨Or.inr rfl, (min_eq_right (hs.1 ((predGt_eq l r).1 h)).le).symm⟩
  · have e : expandMin l r = l := by
      simp only [expandMin, h]; exact zipWith_fst hlen
    rw [e]
    refine ⟨Or.inl rfl, (min_eq_left ?_).symm⟩
    have := mt hs.2 (mt (predGt_eq l r).2 h)
    exact not_lt.1 this

/-! ### Absolute value and negation -/

theorem zero_head {rnd : ℚ → ℚ} {l : List ℚ} (hl : Normalized rnd l) (h0 : rnd l.sum = 0) :
    ∀ b ∈ l, b = 0 := by
  induction l with
  | nil => intro b hb; simp at hb
  | cons a as ih =>
    obtain ⟨h1, h2⟩ := hl
    rw [List.sum_cons] at h0
    rw [h0] at h1
    subst h1
    rw [zero_add] at h0
    intro b hb
    rcases List.mem_cons.1 hb with rfl | hb
    · rfl
    · exact ih h2 h0 b hb

theorem sum_neg (l : List ℚ) : (l.map fun a => -a).sum = -l.sum := by
  induction l with
  | nil => simp
  | cons a as ih => simp [ih]; ring

/-- **C48**, negation: exact on every limb list. -/
theorem C48_neg (l : List ℚ) : (expandNeg l).sum = -l.sum := sum_neg l

/-- **C48**, absolute value: for any number of limbs the result is the operand or its negation, and
its value is the absolute value. -/
theorem C48_abs {rnd : ℚ → ℚ} (hm : Monotone rnd) (h0 : rnd 0 = 0) {l : List ℚ}
    (hl : Normalized rnd l) :
    (expandAbs l = l ∨ expandAbs l = expandNeg l) ∧ (expandAbs l).sum = |l.sum| := by
  cases l with
  | nil => simp [expandAbs]
  | cons a as =>
    have hl' := hl
    obtain ⟨h1, h2⟩ := hl
    rcases lt_trichotomy a 0 with h | h | h
    · have e : expandAbs (a :: as) = expandNeg (a :: as) := by
        simp [expandAbs, expandNeg, Cmp.eval, not_le.2 h, abs_of_neg h]
      rw [e]
      refine ⟨Or.inr rfl, ?_⟩
      rw [C48_neg, List.sum_cons, abs_of_nonpos]
      by_contra hc
      have := hm (not_le.1 hc).le
      rw [← h1, h0] at this
      linarith
    · have hz := zero_head hl' (by rw [List.sum_cons, ← h1, h])
      have e : expandAbs (a :: as) = a :: as := by
        simp [expandAbs, Cmp.eval, h]
      rw [e]
      refine ⟨Or.inl rfl, ?_⟩
      rw [List.sum_eq_zero hz, abs_zero]
    · have e : expandAbs (a :: as) = a :: as := by
        simp [expandAbs, Cmp.eval, h.le, abs_of_pos h]
      rw [e]
      refine ⟨Or.inl rfl, ?_⟩
      rw [List.sum_cons, abs_of_nonneg]
      by_contra hc
      have := hm (not_le.1 hc).le
      rw [← h1, h0] at this
      linarith

/-- non-vacuity: a normalized negative two-limb number -/
example : Normalized (roundNearest 53 ⊥) [-1, 2 ^ (-60 : ℤ)] ∧
    expandAbs [-1, 2 ^ (-60 : ℤ)] = [1, -2 ^ (-60 : ℤ)] ∧
    expandMax [-1, 2 ^ (-60 : ℤ)] [-1, -2 ^ (-60 : ℤ)] = [-1, 2 ^ (-60 : ℤ)] :=
  ⟨⟨by decide +kernel, by decide +kernel, trivial⟩, by decide +kernel, by decide +kernel⟩

/-! ### C49: constants and conversions between limb counts -/

/-- **C49**: whatever the formats of the limbs, the limbs of a constant and the final residue sum to
its value, and there is one limb per format, each the rounding in its own format of what the limbs
above it left. -/
theorem C49_constant_sum (fs : List (ℚ → ℚ)) (v : ℚ) :
    (expandCst fs v).1.sum + (expandCst fs v).2 = v ∧
      (expandCst fs v).1.length = fs.length ∧
      ∀ i (h : i < fs.length), (expandCst fs v).1[i]? =
        some (fs[i] (v - ((expandCst fs v).1.take i).sum)) := by
  induction fs generalizing v with
  | nil => simp [expandCst]
  | cons f fs ih =>
    obtain ⟨h1, h2, h3⟩ := ih (v - f v)
    refine ⟨?_, ?_, ?_⟩
    · simp only [expandCst, List.sum_cons]; linarith
    · simp [expandCst, h2]
    · intro i hi
      cases i with
      | zero => simp [expandCst]
      | succ i =>
        have := h3 i (by simpa using hi)
        simp only [expandCst, List.getElem?_cons_succ, List.take_succ_cons, List.sum_cons,
          List.getElem_cons_succ]
        rw [this]
        rw [sub_sub]

/-- **C49**: with `n` limbs of precision `p` and unbounded exponents the residue is at most
`2^(-p*n)` times the constant. -/
theorem C49_constant_residue {p : ℕ} (hp : 1 ≤ p) {rnd : ℚ → ℚ} (hr : Nearest p ⊥ rnd) (n : ℕ)
    (v : ℚ) :
    |v - (expandCst (List.replicate n rnd) v).1.sum| ≤ ((2:ℚ) ^ (-(p : ℤ))) ^ n * |v| ∧
      ∀ a ∈ (expandCst (List.replicate n rnd) v).1, Rep p ⊥ a := by
  induction n generalizing v with
  | zero => simp [expandCst]
  | succ n ih =>
    obtain ⟨h1, h2⟩ := ih (v - rnd v)
    rw [List.replicate_succ]
    simp only [expandCst, List.sum_cons, List.mem_cons, forall_eq_or_imp]
    refine ⟨?_, (hr v).1, h2⟩
    have h3 : |v - rnd v| ≤ (2:ℚ) ^ (-(p:ℤ)) * |v| := (rnd_rel hp hr v).1
    have hpos : (0:ℚ) ≤ ((2:ℚ) ^ (-(p:ℤ))) ^ n := by positivity
    rw [← sub_sub]
    calc _ ≤ _ := h1
      _ ≤ ((2:ℚ) ^ (-(p:ℤ))) ^ n * ((2:ℚ) ^ (-(p:ℤ)) * |v|) := mul_le_mul_of_nonneg_left h3 hpos
      _ = _ := by rw [pow_succ]; ring

/-- two three-bit limbs of 1/3 and the residue they leave -/
example : (expandCst (List.replicate 2 (roundNearest 3 ⊥)) (1/3)).1 = [5/16, 5/256] ∧
    (expandCst (List.replicate 2 (roundNearest 3 ⊥)) (1/3)).2 = 1/768 :=
  ⟨by decide +kernel, by decide +kernel⟩

/-- The two limbs of a constant need not be normalized: next to a rounding tie the second rounding
drops the only bit that told the first one which way to go. Comparisons, which assume normalized
limbs, then separate the constant from the normalized number of the same value. -/
theorem C49_constant_not_normalized :
    ∃ (p : ℕ) (rnd : ℚ → ℚ) (v h l : ℚ), Nearest p ⊥ rnd ∧ 3 ≤ p ∧
      (expandCst [rnd, rnd] v).1 = [h, l] ∧ ¬ Normalized rnd [h, l] ∧
      ∃ x : ℚ × ℚ, Normalized rnd [x.1, x.2] ∧ x.1 + x.2 = h + l ∧
        cmp2 .eq (h, l) x = false :=
  ⟨53, roundNearest 53 ⊥, 1 + 2 ^ (-53 : ℤ) - 2 ^ (-200 : ℤ), 1, 2 ^ (-53 : ℤ),
    roundNearest_nearest (by norm_num) ⊥, by norm_num, by decide +kernel,
    fun h => absurd h.1 (by decide +kernel),
    (1 + 2 ^ (-52 : ℤ), -2 ^ (-53 : ℤ)), ⟨by decide +kernel, by decide +kernel, trivial⟩,
    by decide +kernel, by decide +kernel⟩

/-- **C49**: converting to a format with more limbs keeps the value and the limbs. -/
theorem C49_widen (n : ℕ) (l : List ℚ) :
    (padLimbs n l).sum = l.sum ∧ l <+: padLimbs n l ∧
      (l.length ≤ n → (padLimbs n l).length = n) := by
  refine ⟨?_, List.prefix_append _ _, ?_⟩
  · simp [padLimbs]
  · intro h; simp [padLimbs]; omega

/-- **C49**: converting three limbs to two loses at most one rounding error of the second limb. -/
theorem C49_narrow {p : ℕ} (hp : 3 ≤ p) {rnd : ℚ → ℚ} (hr : Nearest p ⊥ rnd) {x : ℚ × ℚ × ℚ}
    (h1 : Rep p ⊥ x.1) (h2 : Rep p ⊥ x.2.1) (h3 : Rep p ⊥ x.2.2) :
    let r := narrow32 rnd x
    let v := x.1 + x.2.1 + x.2.2
    Rep p ⊥ r.1 ∧ Rep p ⊥ r.2 ∧ |v - (r.1 + r.2)| ≤ (2:ℚ) ^ (-(p : ℤ)) * |v - r.1| := by
  intro r v
  obtain ⟨s, c1, c2, c3, m⟩ := C64_normalize33 hp hr h1 h2 h3
  refine ⟨c1, c2, ?_⟩
  set n := normalize33 rnd x.1 x.2.1 x.2.2 with hn
  have e1 : v - r.1 = n.2.1 + n.2.2 := by
    show x.1 + x.2.1 + x.2.2 - n.1 = _
    linarith
  have e2 : v - (r.1 + r.2) = n.2.1 + n.2.2 - n.2.1 := by
    show x.1 + x.2.1 + x.2.2 - (n.1 + n.2.1) = _
    linarith
  have h4 := (rnd_rel (by omega : 1 ≤ p) hr (n.2.1 + n.2.2)).1
  rw [m] at h4
  rw [e1, e2]
  exact h4

example : narrow32 (roundNearest 53 ⊥) tieTriple = (1 + 2 ^ (-51 : ℤ), -2 ^ (-53 : ℤ)) := by
  decide +kernel

end Verif.Blocks
