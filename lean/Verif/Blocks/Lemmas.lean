import Verif.Blocks.Spec
import Mathlib.Tactic.Ring
import Mathlib.Tactic.Linarith
import Mathlib.Tactic.NormNum
import Mathlib.Tactic.Push
import Mathlib.Tactic.Positivity
import Mathlib.Tactic.FieldSimp
import Mathlib.Data.Int.Log

/-! Integer core: the numbers of a format are integers in units of its smallest exponent. -/

namespace Verif.Blocks

/-- format numbers in units of `2^q` -/
def FI (p : ℕ) (n : ℤ) : Prop := ∃ (m : ℤ) (k : ℕ), |m| ≤ 2 ^ p ∧ n = m * 2 ^ k

def NI (p : ℕ) (r : ℤ → ℤ) : Prop := ∀ n, FI p (r n) ∧ ∀ y, FI p y → |n - r n| ≤ |n - y|

theorem FI_neg {p : ℕ} {n : ℤ} (h : FI p n) : FI p (-n) := by
  obtain ⟨m, k, hm, rfl⟩ := h
  exact ⟨-m, k, by rwa [abs_neg], by ring⟩

theorem FI_of_dvd {p k : ℕ} {n : ℤ} (hd : (2:ℤ) ^ k ∣ n) (hn : |n| ≤ 2 ^ (p + k)) : FI p n := by
  obtain ⟨m, rfl⟩ := hd
  refine ⟨m, k, ?_, by ring⟩
  rw [abs_mul, abs_of_nonneg (by positivity : (0:ℤ) ≤ 2 ^ k), pow_add, mul_comm] at hn
  exact le_of_mul_le_mul_right hn (by positivity)

theorem FI_pow (p k : ℕ) : FI p (2 ^ k) := ⟨1, k, by
  rw [abs_one]; exact one_le_pow₀ (by norm_num), by ring⟩

theorem dvd_of_large {p k : ℕ} {n : ℤ} (h : FI p n) (hn : 2 ^ (p + k) ≤ |n|) :
    (2:ℤ) ^ k ∣ n := by
  obtain ⟨m, e, hm, rfl⟩ := h
  have h1 : |m * 2 ^ e| ≤ 2 ^ (p + e) := by
    rw [abs_mul, abs_of_nonneg (by positivity : (0:ℤ) ≤ 2 ^ e), pow_add]
    exact mul_le_mul_of_nonneg_right hm (by positivity)
  have h2 : p + k ≤ p + e := (pow_le_pow_iff_right₀ (by norm_num : (1:ℤ) < 2)).1 (hn.trans h1)
  exact Dvd.dvd.mul_left (pow_dvd_pow 2 (by omega)) m

/-- numbers of magnitude at least `2^(p-1+h)` are multiples of `2^h` -/
theorem dvd_norm {p k : ℕ} (hp : 1 ≤ p) {n : ℤ} (h : FI p n) (hn : 2 ^ (p + k) ≤ |n|) :
    (2:ℤ) ^ (k + 1) ∣ n := by
  obtain ⟨m, e, hm, rfl⟩ := h
  have h1 : |m * 2 ^ e| ≤ 2 ^ (p + e) := by
    rw [abs_mul, abs_of_nonneg (by positivity : (0:ℤ) ≤ 2 ^ e), pow_add]
    exact mul_le_mul_of_nonneg_right hm (by positivity)
  have h2 : p + k ≤ p + e := (pow_le_pow_iff_right₀ (by norm_num : (1:ℤ) < 2)).1 (hn.trans h1)
  rcases Nat.lt_or_ge k e with h3 | h3
  · exact Dvd.dvd.mul_left (pow_dvd_pow 2 (by omega)) m
  · have h4 : e = k := by omega
    subst h4
    rw [← dvd_abs, le_antisymm h1 hn]
    exact pow_dvd_pow 2 (by omega)

theorem exists_scale (p : ℕ) (n : ℤ) :
    ∃ k : ℕ, |n| < 2 ^ (p + k) ∧ (k = 0 ∨ 2 ^ (p + k) ≤ 2 * |n|) := by
  have hex : ∃ k : ℕ, |n| < 2 ^ (p + k) := by
    refine ⟨n.natAbs, ?_⟩
    rw [Int.abs_eq_natAbs]
    have : n.natAbs < 2 ^ (p + n.natAbs) :=
      Nat.lt_two_pow_self.trans_le (Nat.pow_le_pow_right (by norm_num) (by omega))
    exact_mod_cast this
  classical
  refine ⟨Nat.find hex, Nat.find_spec hex, ?_⟩
  rcases Nat.eq_zero_or_pos (Nat.find hex) with h | h
  · exact Or.inl h
  · right
    have h1 := Nat.find_min hex (m := Nat.find hex - 1) (by omega)
    push Not at h1
    have h2 : p + Nat.find hex = (p + (Nat.find hex - 1)) + 1 := by omega
    rw [h2, pow_succ]
    linarith

theorem canon {p : ℕ} (hp : 1 ≤ p) {n : ℤ} (h : FI p n) :
    ∃ k : ℕ, (2:ℤ) ^ k ∣ n ∧ |n| < 2 ^ (p + k) ∧ (k = 0 ∨ 2 ^ (p + k) ≤ 2 * |n|) := by
  obtain ⟨k, h1, h2⟩ := exists_scale p n
  refine ⟨k, ?_, h1, h2⟩
  rcases h2 with h2 | h2
  · subst h2; simp
  · rcases k with _ | k
    · simp
    · refine dvd_norm hp h ?_
      rw [← Nat.add_assoc, pow_succ] at h2
      linarith

theorem exact {p : ℕ} {r : ℤ → ℤ} (hr : NI p r) {n : ℤ} (h : FI p n) : r n = n := by
  have := (hr n).2 n h
  rw [sub_self, abs_zero] at this
  have h2 := abs_nonpos_iff.1 this
  omega

/-- what rounding does to a number outside the format -/
theorem inexact {p : ℕ} (hp : 1 ≤ p) {r : ℤ → ℤ} (hr : NI p r) {n : ℤ} (hne : r n ≠ n) :
    ∃ h : ℕ, 2 ^ (p + h) ≤ |n| ∧ |n| < 2 ^ (p + h + 1) ∧ (2:ℤ) ^ (h + 1) ∣ r n ∧
      |n - r n| ≤ 2 ^ h ∧ 2 ^ (p + h) ≤ |r n| := by
  obtain ⟨k, h1, h2⟩ := exists_scale p n
  rcases k with _ | k
  · exact absurd (exact hr (FI_of_dvd (k := 0) (by simp) h1.le)) hne
  · rcases h2 with h2 | h2
    · omega
    have h3 : 2 ^ (p + k) ≤ |n| := by
      rw [← Nat.add_assoc, pow_succ] at h2; linarith
    have hk : (0:ℤ) < 2 ^ k := by positivity
    have hK : (2:ℤ) ^ (k + 1) = 2 * 2 ^ k := by rw [pow_succ]; ring
    have hP : (2:ℤ) ^ (p + (k + 1)) = 2 ^ p * (2 * 2 ^ k) := by rw [pow_add, hK]
    have h4 : 2 ^ (p + k) ≤ |r n| := by
      by_contra hc
      push Not at hc
      rcases le_total 0 n with hn | hn
      · rw [abs_of_nonneg hn] at h3
        have := (hr n).2 _ (FI_pow p (p + k))
        rw [abs_of_nonneg (a := n - 2 ^ (p + k)) (by linarith)] at this
        have h5 := le_abs_self (n - r n)
        have h6 := le_abs_self (r n)
        linarith
      · rw [abs_of_nonpos hn] at h3
        have := (hr n).2 _ (FI_neg (FI_pow p (p + k)))
        rw [abs_of_nonpos (a := n - -2 ^ (p + k)) (by linarith)] at this
        have h5 := neg_abs_le (n - r n)
        have h6 := neg_abs_le (r n)
        linarith
    refine ⟨k, h3, by rw [Nat.add_assoc]; exact h1, dvd_norm hp (hr n).1 h4, ?_, h4⟩
    -- nearest multiple of 2^(k+1)
    have hdm := Int.mul_ediv_add_emod (n + 2 ^ k) (2 * 2 ^ k)
    have hm0 := Int.emod_nonneg (n + 2 ^ k) (b := 2 * 2 ^ k) (by positivity)
    have hm1 := Int.emod_lt_of_pos (n + 2 ^ k) (b := 2 * 2 ^ k) (by positivity)
    generalize (n + 2 ^ k) / (2 * 2 ^ k) = t at hdm
    generalize (n + 2 ^ k) % (2 * 2 ^ k) = u at hdm hm0 hm1
    rw [hP] at h1
    obtain ⟨hl, hu⟩ := abs_lt.1 h1
    have hpp : (0:ℤ) < 2 ^ p := by positivity
    have ht : |t| ≤ 2 ^ p := by
      rw [abs_le]
      constructor
      · by_contra hc
        push Not at hc
        have : 2 * 2 ^ k * t ≤ 2 * 2 ^ k * (-2 ^ p - 1) :=
          mul_le_mul_of_nonneg_left (by omega) (by positivity)
        nlinarith
      · by_contra hc
        push Not at hc
        have : 2 * 2 ^ k * (2 ^ p + 1) ≤ 2 * 2 ^ k * t :=
          mul_le_mul_of_nonneg_left (by omega) (by positivity)
        nlinarith
    have h5 := (hr n).2 (t * 2 ^ (k + 1)) ⟨t, k + 1, ht, rfl⟩
    refine h5.trans ?_
    rw [hK, abs_le]
    constructor <;> linarith


/-- the error of a rounded sum of two format numbers is a format number -/
theorem err_FI {p : ℕ} (hp : 1 ≤ p) {r : ℤ → ℤ} (hr : NI p r) {a b : ℤ} (ha : FI p a)
    (hb : FI p b) : FI p (a + b - r (a + b)) := by
  by_cases hne : r (a + b) = a + b
  · rw [hne, sub_self]; exact ⟨0, 0, by simp, by simp⟩
  obtain ⟨h, hlo, hhi, hd, herr, hr'⟩ := inexact hp hr hne
  have hea : |a + b - r (a + b)| ≤ |b| := by
    have := (hr (a + b)).2 a ha
    rwa [show a + b - a = b by ring] at this
  have heb : |a + b - r (a + b)| ≤ |a| := by
    have := (hr (a + b)).2 b hb
    rwa [show a + b - b = a by ring] at this
  have key : ∀ (k l : ℕ) (x y : ℤ), (2:ℤ) ^ k ∣ x → (2:ℤ) ^ l ∣ y → k ≤ l → |x| < 2 ^ (p + k) →
      x + y = a + b → |a + b - r (a + b)| ≤ |x| → FI p (a + b - r (a + b)) := by
    intro k l x y hx hy hkl hxl hxy hle
    have hs : (2:ℤ) ^ k ∣ a + b := hxy ▸ dvd_add hx ((pow_dvd_pow 2 hkl).trans hy)
    have hkh : k ≤ h + 1 := by
      by_contra hc
      apply hne
      refine exact hr (FI_of_dvd hs ?_)
      refine hhi.le.trans (pow_le_pow_right₀ (by norm_num) (by omega))
    exact FI_of_dvd (dvd_sub hs ((pow_dvd_pow 2 hkh).trans hd)) (hle.trans hxl.le)
  obtain ⟨k, ha1, ha2, -⟩ := canon hp ha
  obtain ⟨l, hb1, hb2, -⟩ := canon hp hb
  rcases le_total k l with hkl | hkl
  · exact key k l a b ha1 hb1 hkl ha2 rfl heb
  · exact key l k b a hb1 ha1 hkl hb2 (add_comm _ _) hea

/-- scales of an inexact sum of ordered operands -/
theorem sum_scale {p : ℕ} (hp : 1 ≤ p) {r : ℤ → ℤ} (hr : NI p r) {a b : ℤ} (ha : FI p a)
    (hb : FI p b) (hab : |b| ≤ |a|) (hne : r (a + b) ≠ a + b) :
    ∃ ka kb h : ℕ, (2:ℤ) ^ ka ∣ a ∧ |a| < 2 ^ (p + ka) ∧ (ka = 0 ∨ 2 ^ (p + ka) ≤ 2 * |a|) ∧
      (2:ℤ) ^ kb ∣ b ∧ |b| < 2 ^ (p + kb) ∧ kb ≤ ka ∧ kb ≤ h ∧ h ≤ ka ∧
      (2:ℤ) ^ (h + 1) ∣ r (a + b) ∧ |a + b - r (a + b)| ≤ 2 ^ h := by
  obtain ⟨h, hlo, hhi, hd, herr, hr'⟩ := inexact hp hr hne
  obtain ⟨ka, ha1, ha2, ha3⟩ := canon hp ha
  obtain ⟨kb, hb1, hb2, hb3⟩ := canon hp hb
  have hk : kb ≤ ka := by
    rcases hb3 with rfl | hb3
    · exact Nat.zero_le _
    · have : (2:ℤ) ^ (p + kb) < 2 ^ (p + ka + 1) := by
        rw [pow_succ]; linarith
      have := (pow_lt_pow_iff_right₀ (by norm_num : (1:ℤ) < 2)).1 this
      omega
  refine ⟨ka, kb, h, ha1, ha2, ha3, hb1, hb2, hk, ?_, ?_, hd, herr⟩
  · by_contra hc
    apply hne
    refine exact hr (FI_of_dvd (k := kb) (dvd_add ((pow_dvd_pow 2 hk).trans ha1) hb1) ?_)
    exact hhi.le.trans (pow_le_pow_right₀ (by norm_num) (by omega))
  · have h1 : |a + b| ≤ 2 * |a| := (abs_add_le a b).trans (by linarith)
    have : (2:ℤ) ^ (p + h) < 2 ^ (p + ka + 1) := by
      rw [pow_succ]; linarith
    have := (pow_lt_pow_iff_right₀ (by norm_num : (1:ℤ) < 2)).1 this
    omega

/-- Dekker: rounded sum minus the larger operand is exact -/
theorem fast_sub {p : ℕ} (hp : 1 ≤ p) {r : ℤ → ℤ} (hr : NI p r) {a b : ℤ} (ha : FI p a)
    (hb : FI p b) (hab : |b| ≤ |a|) : FI p (r (a + b) - a) := by
  by_cases hne : r (a + b) = a + b
  · rw [hne, add_sub_cancel_left]; exact hb
  obtain ⟨ka, kb, h, ha1, ha2, -, hb1, hb2, hk, hkh, hha, hd, herr⟩ :=
    sum_scale hp hr ha hb hab hne
  have hz : |r (a + b) - a| ≤ |b| + |a + b - r (a + b)| := by
    have := abs_add_le b (-(a + b - r (a + b)))
    rw [abs_neg] at this
    refine le_trans (le_of_eq ?_) this
    congr 1; ring
  rcases Nat.lt_or_ge h ka with h1 | h1
  · refine FI_of_dvd (k := h + 1) (dvd_sub hd ((pow_dvd_pow 2 h1).trans ha1)) ?_
    have e1 : (2:ℤ) ^ (p + kb) ≤ 2 ^ (p + h) := pow_le_pow_right₀ (by norm_num) (by omega)
    have e2 : (2:ℤ) ^ h ≤ 2 ^ (p + h) := pow_le_pow_right₀ (by norm_num) (by omega)
    rw [← Nat.add_assoc, pow_succ]
    linarith
  · have h2 : h = ka := by omega
    subst h2
    refine FI_of_dvd (k := h) (dvd_sub ((pow_dvd_pow 2 (by omega)).trans hd) ha1) ?_
    obtain ⟨m, rfl⟩ := ha1
    have hpos : (0:ℤ) < 2 ^ h := by positivity
    rw [abs_mul, abs_of_pos hpos] at hab ha2
    rw [pow_add, mul_comm ((2:ℤ) ^ p)] at ha2 ⊢
    have h3 : |m| < 2 ^ p := lt_of_mul_lt_mul_left ha2 hpos.le
    have h4 : 2 ^ h * |m| ≤ 2 ^ h * (2 ^ p - 1) := mul_le_mul_of_nonneg_left (by omega) hpos.le
    have : (2:ℤ) ^ h * (2 ^ p - 1) = 2 ^ h * 2 ^ p - 2 ^ h := by ring
    linarith

theorem fast_two_sum {p : ℕ} (hp : 1 ≤ p) {r : ℤ → ℤ} (hr : NI p r) {a b : ℤ} (ha : FI p a)
    (hb : FI p b) (hab : |b| ≤ |a|) :
    r (b - r (r (a + b) - a)) = a + b - r (a + b) := by
  rw [exact hr (fast_sub hp hr ha hb hab)]
  have : b - (r (a + b) - a) = a + b - r (a + b) := by ring
  rw [this]
  exact exact hr (err_FI hp hr ha hb)

theorem two_sum {p : ℕ} (hp : 3 ≤ p) {r : ℤ → ℤ} (hr : NI p r) {a b : ℤ} (ha : FI p a)
    (hb : FI p b) :
    let s := r (a + b)
    let a' := r (s - b)
    let b' := r (s - a')
    r (r (a - a') + r (b - b')) = a + b - s := by
  intro s a' b'
  have hp1 : 1 ≤ p := by omega
  have hs : FI p s := (hr _).1
  have hδ : FI p (a + b - s) := err_FI hp1 hr ha hb
  have h0 : FI p (0:ℤ) := ⟨0, 0, by simp, by simp⟩
  by_cases hex : FI p (s - b)
  · have h1 : a' = s - b := exact hr hex
    have h2 : b' = b := by
      show r (s - a') = b
      rw [h1, show s - (s - b) = b by ring]
      exact exact hr hb
    rw [h1, h2, sub_self, exact hr h0, add_zero, show a - (s - b) = a + b - s by ring,
      exact hr hδ, exact hr hδ]
  · have hab : |b| ≤ |a| := by
      by_contra hc
      push Not at hc
      apply hex
      have := fast_sub hp1 hr hb ha hc.le
      rwa [add_comm b a] at this
    have hne : s ≠ a + b := by
      intro h
      apply hex
      rw [h, add_sub_cancel_right]; exact ha
    obtain ⟨ka, kb, h, ha1, ha2, ha3, hb1, hb2, hk, hkh, hha, hd, herr⟩ :=
      sum_scale hp1 hr ha hb hab hne
    change (2:ℤ) ^ (h + 1) ∣ s at hd
    change |a + b - s| ≤ 2 ^ h at herr
    -- |b| ≤ |s|
    have hbs : |b| ≤ |s| := by
      by_contra hc
      push Not at hc
      apply hne
      refine exact hr (FI_of_dvd (k := kb) (dvd_add ((pow_dvd_pow 2 hk).trans ha1) hb1) ?_)
      refine le_trans ?_ hb2.le
      by_contra hc2
      push Not at hc2
      have e1 : FI p |b| := by
        rcases abs_choice b with h | h <;> rw [h]
        · exact hb
        · exact FI_neg hb
      rcases le_total 0 (a + b) with hn | hn
      · rw [abs_of_nonneg hn] at hc2
        have e2 := (hr (a + b)).2 _ e1
        rw [abs_of_nonneg (a := a + b - |b|) (by linarith)] at e2
        have e3 := le_abs_self (a + b - r (a + b))
        have e4 := le_abs_self s
        change |s| < |b| at hc
        have : s = r (a + b) := rfl
        linarith
      · rw [abs_of_nonpos hn] at hc2
        have e2 := (hr (a + b)).2 _ (FI_neg e1)
        rw [abs_of_nonpos (a := a + b - -|b|) (by linarith)] at e2
        have e3 := neg_abs_le (a + b - r (a + b))
        have e4 := neg_abs_le s
        have : s = r (a + b) := rfl
        linarith
    have hnb : |(-b)| ≤ |s| := by rwa [abs_neg]
    have hb' : FI p (s - a') := by
      have := FI_neg (fast_sub hp1 hr hs (FI_neg hb) hnb)
      rw [← sub_eq_add_neg, neg_sub] at this
      exact this
    have e1 : b' = s - a' := exact hr hb'
    have e2 : FI p (b - b') := by
      have := FI_neg (err_FI hp1 hr hs (FI_neg hb))
      rw [← sub_eq_add_neg] at this
      rw [e1]
      convert this using 1
      show b - (s - a') = -(s - b - a')
      ring
    have e3 : FI p (a - a') := by
      have f1 : |s - b - a'| ≤ |s - b - a| := (hr (s - b)).2 a ha
      have f2 : |s - b - a| = |a + b - s| := by
        rw [← abs_neg]; congr 1; ring
      have f3 : |a - a'| ≤ 2 * 2 ^ h := by
        have := abs_add_le (a + b - s) (s - b - a')
        rw [show a + b - s + (s - b - a') = a - a' by ring] at this
        linarith
      have f4 : (2:ℤ) ^ h ≤ 2 ^ ka := pow_le_pow_right₀ (by norm_num) hha
      have hpe : (2:ℤ) ^ 3 ≤ 2 ^ p := pow_le_pow_right₀ (by norm_num) hp
      rcases Nat.lt_or_ge ka 2 with hka | hka
      · refine FI_of_dvd (k := 0) (by simp) ?_
        have : (2:ℤ) ^ ka ≤ 2 ^ 1 := pow_le_pow_right₀ (by norm_num) (by omega)
        rw [Nat.add_zero]
        linarith
      · obtain ⟨j, rfl⟩ : ∃ j, ka = j + 2 := ⟨ka - 2, by omega⟩
        have hj : (0:ℤ) < 2 ^ j := by positivity
        have hJ : (2:ℤ) ^ (j + 2) = 4 * 2 ^ j := by rw [pow_add]; ring
        rcases ha3 with ha3 | ha3
        · omega
        have f5 : 2 ^ (p + j) ≤ |a'| := by
          have g1 : |a| ≤ |a'| + |a - a'| := by
            have := abs_add_le a' (a - a')
            rwa [add_sub_cancel] at this
          have g2 : (2:ℤ) ^ (p + (j + 2)) = 4 * 2 ^ (p + j) := by
            rw [← Nat.add_assoc, pow_add]; ring
          have g3 : (2:ℤ) ^ (p + j) = 2 ^ p * 2 ^ j := pow_add _ _ _
          have g4 : 8 * 2 ^ j ≤ (2:ℤ) ^ p * 2 ^ j :=
            mul_le_mul_of_nonneg_right (by linarith) hj.le
          rw [g2] at ha3
          linarith
        have f6 : (2:ℤ) ^ j ∣ a' := dvd_of_large (hr _).1 f5
        refine FI_of_dvd (k := j) (dvd_sub ((pow_dvd_pow 2 (by omega)).trans ha1) f6) ?_
        rw [pow_add]
        have g4 : 8 * 2 ^ j ≤ (2:ℤ) ^ p * 2 ^ j :=
          mul_le_mul_of_nonneg_right (by linarith) hj.le
        linarith
    rw [exact hr e2, exact hr e3, e1, show a - a' + (b - (s - a')) = a + b - s by ring]
    exact exact hr hδ

/-- relative error of a rounding in units -/
theorem rel {p : ℕ} (hp : 1 ≤ p) {r : ℤ → ℤ} (hr : NI p r) (n : ℤ) :
    2 ^ p * |n - r n| ≤ |n| ∧ 2 ^ p * |n - r n| ≤ |r n| := by
  by_cases hne : r n = n
  · rw [hne, sub_self, abs_zero, mul_zero]; exact ⟨abs_nonneg _, abs_nonneg _⟩
  · obtain ⟨h, h1, -, -, h4, h5⟩ := inexact hp hr hne
    have : 2 ^ p * |n - r n| ≤ 2 ^ (p + h) := by
      rw [pow_add]; exact mul_le_mul_of_nonneg_left h4 (by positivity)
    exact ⟨this.trans h1, this.trans h5⟩

/-- rounding does not cross a format number -/
theorem mono_abs {p : ℕ} {r : ℤ → ℤ} (hr : NI p r) {n t : ℤ} (ht : FI p t) (hn : |n| ≤ |t|) :
    |r n| ≤ |t| := by
  have ht' : FI p |t| := by
    rcases abs_choice t with h | h <;> rw [h]
    · exact ht
    · exact FI_neg ht
  by_contra hc
  push Not at hc
  obtain ⟨h1, h2⟩ := abs_le.1 hn
  rcases le_total 0 (r n) with h | h
  · rw [abs_of_nonneg h] at hc
    have := (hr n).2 _ ht'
    rw [abs_of_nonpos (by linarith : n - |t| ≤ 0), abs_of_nonpos (by linarith : n - r n ≤ 0)] at this
    linarith
  · rw [abs_of_nonpos h] at hc
    have := (hr n).2 _ (FI_neg ht')
    rw [abs_of_nonneg (by linarith : 0 ≤ n - -|t|), abs_of_nonneg (by linarith : 0 ≤ n - r n)]
      at this
    linarith

theorem abs_sub_le' (a b : ℤ) : |a| ≤ |a + b| + |b| := by
  have := abs_add_le (a + b) (-b)
  rw [abs_neg, add_neg_cancel_right] at this
  exact this

theorem core212_exact {p : ℕ} (hp : 1 ≤ p) {x yh yl : ℤ} (hx : FI p x) (hyh : FI p yh)
    (hl : 2 ^ p * |yl| ≤ |yh|) : |yl| ≤ |x + yh| ∨ x + yh = 0 := by
  by_cases h0 : x + yh = 0
  · exact Or.inr h0
  left
  have hpp : (0:ℤ) < 2 ^ p := by positivity
  obtain ⟨k, hk1, hk2, hk3⟩ := canon hp hyh
  obtain ⟨kx, hx1, hx2, -⟩ := canon hp hx
  have hyl : |yl| < 2 ^ k := by
    have h1 : (2:ℤ) ^ p * |yl| < 2 ^ p * 2 ^ k := by rw [← pow_add]; linarith
    exact lt_of_mul_lt_mul_left h1 hpp.le
  rcases Nat.lt_or_ge kx k with h | h
  · obtain ⟨j, rfl⟩ : ∃ j, k = j + 1 := ⟨k - 1, by omega⟩
    rcases hk3 with hk3 | hk3
    · omega
    have hj : (0:ℤ) < 2 ^ j := by positivity
    have hk3' : (2:ℤ) ^ p * 2 ^ j ≤ |yh| := by
      rw [← Nat.add_assoc, pow_succ, pow_add] at hk3; linarith
    have hxle : |x| ≤ 2 ^ j * (2 ^ p - 1) := by
      obtain ⟨m, rfl⟩ := hx1
      rw [abs_mul, abs_of_pos (by positivity : (0:ℤ) < 2 ^ kx)] at hx2 ⊢
      rw [pow_add, mul_comm ((2:ℤ) ^ p)] at hx2
      have : |m| < 2 ^ p := lt_of_mul_lt_mul_left hx2 (by positivity)
      have h1 : (2:ℤ) ^ kx ≤ 2 ^ j := pow_le_pow_right₀ (by norm_num) (by omega)
      exact mul_le_mul h1 (by omega) (abs_nonneg _) (by positivity)
    have hsub := abs_sub_le' yh x
    rw [add_comm yh x] at hsub
    have h1 : (1:ℤ) ≤ 2 ^ p := by omega
    have h2 : (2 ^ p - 1) * ((2:ℤ) ^ p * 2 ^ j) ≤ (2 ^ p - 1) * |yh| :=
      mul_le_mul_of_nonneg_left hk3' (by linarith)
    have h3 : 2 ^ p * |yh| ≤ 2 ^ p * (|x + yh| + |x|) := mul_le_mul_of_nonneg_left hsub hpp.le
    have h4 : 2 ^ p * |x| ≤ 2 ^ p * (2 ^ j * (2 ^ p - 1)) := mul_le_mul_of_nonneg_left hxle hpp.le
    have h5 : 2 ^ p * |yl| ≤ 2 ^ p * |x + yh| := by
      have e1 : (2 ^ p - 1) * ((2:ℤ) ^ p * 2 ^ j) = 2 ^ p * (2 ^ j * (2 ^ p - 1)) := by ring
      have e2 : ((2:ℤ) ^ p - 1) * |yh| = 2 ^ p * |yh| - |yh| := by ring
      have e3 : (2:ℤ) ^ p * (|x + yh| + |x|) = 2 ^ p * |x + yh| + 2 ^ p * |x| := by ring
      linarith
    exact le_of_mul_le_mul_left h5 hpp
  · have hd : (2:ℤ) ^ k ∣ |x + yh| := by
      rw [dvd_abs]; exact dvd_add ((pow_dvd_pow 2 h).trans hx1) hk1
    have := Int.le_of_dvd (abs_pos.2 h0) hd
    linarith

theorem core212 {p : ℕ} (hp : 3 ≤ p) {r : ℤ → ℤ} (hr : NI p r) {x yh yl : ℤ} (hx : FI p x)
    (hyh : FI p yh) (hyl : FI p yl) (hl : 2 ^ p * |yl| ≤ |yh|) :
    let t1 := r (x + yh)
    let w := (x + yh - t1) + yl
    (|r w| ≤ |t1| ∨ t1 = 0) ∧ 2 ^ p * (2 ^ p * |w - r w|) ≤ 8 * |x + yh + yl| := by
  intro t1 w
  have hp1 : 1 ≤ p := by omega
  have hpp : (2:ℤ) ^ 3 ≤ 2 ^ p := pow_le_pow_right₀ (by norm_num) hp
  by_cases hne : r (x + yh) = x + yh
  · have e1 : w = yl := by show x + yh - r (x + yh) + yl = yl; rw [hne]; ring
    rw [e1, exact hr hyl, sub_self, abs_zero]
    refine ⟨?_, by rw [mul_zero, mul_zero]; positivity⟩
    show _ ≤ |r (x + yh)| ∨ r (x + yh) = 0
    rw [hne]
    exact core212_exact hp1 hx hyh hl
  · have h2 := (rel hp1 hr (x + yh)).2
    have h3 : |yh| ≤ 2 * |t1| + |x + yh - t1| := by
      rcases le_total |yh| |x| with hc | hc
      · obtain ⟨h', g1, g2, g3, g4, g5⟩ := inexact hp1 hr hne
        have hyb : |yh| ≤ |t1| := by
          -- a sum of magnitude at most that of the smaller operand's scale is exact
          by_contra hcon
          push Not at hcon
          apply hne
          obtain ⟨k, c1, c2, c3⟩ := canon hp1 hyh
          obtain ⟨kx, d1, d2, d3⟩ := canon hp1 hx
          have hkk : k ≤ kx := by
            rcases c3 with rfl | c3
            · exact Nat.zero_le _
            · have : (2:ℤ) ^ (p + k) < 2 ^ (p + kx + 1) := by rw [pow_succ]; linarith
              have := (pow_lt_pow_iff_right₀ (by norm_num : (1:ℤ) < 2)).1 this
              omega
          have hkh' : ¬ k ≤ h' := by
            intro hh
            have : (2:ℤ) ^ (p + k) ≤ 2 ^ (p + h') := pow_le_pow_right₀ (by norm_num) (by omega)
            have : |yh| < |t1| := by
              show _ < |r (x + yh)|
              linarith
            linarith
          refine exact hr (FI_of_dvd (k := k) (dvd_add ((pow_dvd_pow 2 hkk).trans d1) c1) ?_)
          exact g2.le.trans (pow_le_pow_right₀ (by norm_num) (by omega))
        have := abs_nonneg (x + yh - t1)
        have := abs_nonneg t1
        linarith
      · have hne' : r (yh + x) ≠ yh + x := by rwa [add_comm yh x]
        obtain ⟨h', g1, g2, g3, g4, g5⟩ := inexact hp1 hr hne
        obtain ⟨ka, kb, h, a1, a2, a3, b1, b2, b3, b4, b5, -⟩ := sum_scale hp1 hr hyh hx hc hne'
        have hxt : |x| ≤ |t1| := by
          have hkh' : kb ≤ h' := by
            by_contra hcon
            apply hne
            refine exact hr (FI_of_dvd (k := kb) (dvd_add b1 ((pow_dvd_pow 2 b3).trans a1)) ?_)
            exact g2.le.trans (pow_le_pow_right₀ (by norm_num) (by omega))
          have : (2:ℤ) ^ (p + kb) ≤ 2 ^ (p + h') := pow_le_pow_right₀ (by norm_num) (by omega)
          show _ ≤ |r (x + yh)|
          linarith
        have e1 := abs_sub_le' yh x
        have e2 : |yh + x| ≤ |t1| + |x + yh - t1| := by
          have := abs_add_le t1 (x + yh - t1)
          rw [add_sub_cancel] at this
          rwa [add_comm yh x]
        linarith
    change 2 ^ p * |x + yh - t1| ≤ |t1| at h2
    have hA := abs_nonneg (x + yh - t1)
    have hw : 2 ^ p * |w| ≤ 4 * |t1| := by
      have := abs_add_le (x + yh - t1) yl
      have h5 : 2 ^ p * |w| ≤ 2 ^ p * (|x + yh - t1| + |yl|) :=
        mul_le_mul_of_nonneg_left this (by positivity)
      have h6 : |x + yh - t1| ≤ 2 ^ p * |x + yh - t1| := by nlinarith
      rw [mul_add] at h5
      linarith
    have hw2 : 2 * |w| ≤ |t1| := by
      have := abs_nonneg w
      have : 8 * |w| ≤ 2 ^ p * |w| := mul_le_mul_of_nonneg_right (by linarith) this
      linarith
    constructor
    · left
      exact mono_abs hr (hr _).1 (by have := abs_nonneg w; linarith)
    · have h7 := (rel hp1 hr w).1
      have h8 : 2 ^ p * (2 ^ p * |w - r w|) ≤ 2 ^ p * |w| :=
        mul_le_mul_of_nonneg_left h7 (by positivity)
      have h9 : |t1| ≤ |x + yh + yl| + |w| := by
        have := abs_sub_le' t1 w
        rwa [show t1 + w = x + yh + yl by show t1 + (x + yh - t1 + yl) = _; ring] at this
      linarith

theorem core222 {p : ℕ} (hp : 3 ≤ p) {r : ℤ → ℤ} (hr : NI p r) {xh xl yh yl : ℤ}
    (hsum : |xh + yh| = |xh| + |yh|)
    (hx : 2 ^ p * |xl| ≤ |xh|) (hy : 2 ^ p * |yl| ≤ |yh|) :
    let v1 := r (xh + yh)
    let v3 := r (xl + yl)
    let w := (xh + yh - v1) + v3
    |r w| ≤ |v1| ∧ 2 ^ p * (2 ^ p * |(v1 + r w) - (xh + xl + yh + yl)|)
      ≤ 6 * |xh + xl + yh + yl| := by
  intro v1 v3 w
  have hp1 : 1 ≤ p := by omega
  have hpp : (2:ℤ) ^ 3 ≤ 2 ^ p := pow_le_pow_right₀ (by norm_num) hp
  have hP0 : (0:ℤ) ≤ 2 ^ p := by positivity
  have k1 := (rel hp1 hr (xh + yh)).1
  have k3 := (rel hp1 hr (xl + yl)).1
  have kw := (rel hp1 hr w).1
  change 2 ^ p * |xh + yh - v1| ≤ _ at k1
  change 2 ^ p * |xl + yl - v3| ≤ _ at k3
  set S := |xh + yh| with hS
  set A := |xh + yh - v1|
  set E3 := |xl + yl - v3|
  set E4 := |w - r w|
  have hA0 : 0 ≤ A := abs_nonneg _
  have hE3 : 0 ≤ E3 := abs_nonneg _
  have hE4 : 0 ≤ E4 := abs_nonneg _
  have hL : 2 ^ p * |xl + yl| ≤ S := by
    have := mul_le_mul_of_nonneg_left (abs_add_le xl yl) hP0
    rw [mul_add] at this
    linarith
  have hL0 := abs_nonneg (xl + yl)
  have hv3 : |v3| ≤ |xl + yl| + E3 := by
    have := abs_add_le (xl + yl) (-(xl + yl - v3))
    rw [abs_neg, show xl + yl + -(xl + yl - v3) = v3 by ring] at this
    exact this
  have hw : |w| ≤ A + |v3| := abs_add_le _ _
  have hw0 := abs_nonneg w
  have c8 : ∀ z : ℤ, 0 ≤ z → 8 * z ≤ 2 ^ p * z := fun z hz =>
    mul_le_mul_of_nonneg_right (by linarith) hz
  have hwS : 2 ^ p * |w| ≤ 2 * S + |xl + yl| := by
    have := mul_le_mul_of_nonneg_left (hw.trans (by linarith : A + |v3| ≤ A + (|xl + yl| + E3))) hP0
    rw [mul_add, mul_add] at this
    linarith
  have d1 := c8 _ hA0
  have d2 := c8 _ hL0
  have d3 := c8 _ hw0
  have hv1 : S ≤ |v1| + A := by
    have := abs_add_le v1 (xh + yh - v1)
    rwa [add_sub_cancel] at this
  constructor
  · exact mono_abs hr (hr _).1 (by linarith)
  · have e0 : |(v1 + r w) - (xh + xl + yh + yl)| ≤ E3 + E4 := by
      have := abs_add_le (-(xl + yl - v3)) (-(w - r w))
      rw [abs_neg, abs_neg] at this
      refine le_trans (le_of_eq ?_) this
      congr 1
      show _ = -(xl + yl - v3) + -((xh + yh - v1) + v3 - r w)
      ring
    have e1 : 2 ^ p * (2 ^ p * |(v1 + r w) - (xh + xl + yh + yl)|)
        ≤ 2 ^ p * (2 ^ p * E3) + 2 ^ p * (2 ^ p * E4) := by
      rw [← mul_add, ← mul_add]
      exact mul_le_mul_of_nonneg_left (mul_le_mul_of_nonneg_left e0 hP0) hP0
    have e2 : 2 ^ p * (2 ^ p * E3) ≤ 2 ^ p * |xl + yl| := mul_le_mul_of_nonneg_left k3 hP0
    have e3 : 2 ^ p * (2 ^ p * E4) ≤ 2 ^ p * |w| := mul_le_mul_of_nonneg_left kw hP0
    have e4 : S ≤ |xh + xl + yh + yl| + |xl + yl| := by
      have := abs_sub_le' (xh + yh) (xl + yl)
      rwa [show xh + yh + (xl + yl) = xh + xl + yh + yl by ring] at this
    linarith

end Verif.Blocks
