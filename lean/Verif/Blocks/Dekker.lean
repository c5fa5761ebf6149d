import Verif.Blocks.Exact
import Verif.Blocks.Bounds

/-! # The products without FMA (`Split`, `Mul211(fma=False)`) and further two-limb blocks -/

namespace Verif.Blocks

/-! ## Integer core -/

/-- Below `2^(p+k)`, multiples of `2^k` are format numbers, so the error is at most half of it. -/
theorem near_grid {p k : ℕ} {r : ℤ → ℤ} (hr : NI p r) {n : ℤ} (hn : |n| ≤ 2 ^ (p + k)) :
    2 * |n - r n| ≤ 2 ^ k := by
  set K : ℤ := 2 ^ k with hK
  have hK0 : 0 < K := by positivity
  -- the multiple nearest to n
  set z := (n + K / 2) / K with hz
  have hdm := Int.mul_ediv_add_emod (n + K / 2) K
  have hm0 := Int.emod_nonneg (n + K / 2) hK0.ne'
  have hm1 := Int.emod_lt_of_pos (n + K / 2) hK0
  have hpow : (2:ℤ) ^ (p + k) = K * 2 ^ p := by rw [hK, pow_add]; ring
  have hhalf : 2 * (K / 2) ≤ K ∧ K ≤ 2 * (K / 2) + 1 := by omega
  have herr : 2 * |n - K * z| ≤ K := by
    rw [← hz] at hdm
    have hKz : K * z = n + K / 2 - (n + K / 2) % K := by linarith
    rw [hKz]
    have h2 : K = 1 ∨ K = 2 * (K / 2) := by
      rcases k with _ | k
      · left; rw [hK]; rfl
      · right
        have : K = 2 * 2 ^ k := by rw [hK, pow_succ]; ring
        omega
    rcases abs_cases (n - (n + K / 2 - (n + K / 2) % K)) with ⟨h, _⟩ | ⟨h, _⟩ <;> rw [h] <;> omega
  have hz1 : |K * z| ≤ 2 ^ (p + k) := by
    rw [hpow, abs_mul, abs_of_pos hK0]
    refine mul_le_mul_of_nonneg_left ?_ hK0.le
    rw [hpow] at hn
    by_contra hc
    have hc : 2 ^ p + 1 ≤ |z| := by omega
    have h1 : K * (2 ^ p + 1) ≤ K * |z| := mul_le_mul_of_nonneg_left hc hK0.le
    have h2 : K * |z| = |K * z| := by rw [abs_mul, abs_of_pos hK0]
    have h3 : |K * z| ≤ |n| + |n - K * z| := by
      have := abs_sub_abs_le_abs_sub (K * z) n
      rw [abs_sub_comm (K * z) n] at this
      linarith
    nlinarith
  have := (hr n).2 (K * z) (FI_of_dvd (k := k) (Dvd.intro _ rfl) hz1)
  omega

theorem grid_dvd {p k : ℕ} (hp : 1 ≤ p) {r : ℤ → ℤ} (hr : NI p r) {n : ℤ} (hn : 2 ^ (p + k) ≤ |n|) :
    (2:ℤ) ^ (k + 1) ∣ r n := by
  by_cases hne : r n = n
  · exact dvd_norm hp (hr n).1 (by rw [hne]; exact hn)
  · obtain ⟨h, h1, h2, h3, -, -⟩ := inexact hp hr hne
    have : k ≤ h := by
      by_contra hc
      have : (2:ℤ) ^ (p + h + 1) ≤ 2 ^ (p + k) := pow_le_pow_right₀ (by norm_num) (by omega)
      omega
    exact (pow_dvd_pow 2 (by omega)).trans h3

/-- Veltkamp's splitting of a full-size mantissa. -/
theorem split_core {p s : ℕ} (hs : 1 ≤ s) (hps : s + 1 ≤ p) {r : ℤ → ℤ} (hr : NI p r) {m : ℤ}
    (h1 : 2 ^ (p - 1) ≤ |m|) (h2 : |m| < 2 ^ p) :
    let t := r ((2 ^ s + 1) * m)
    let tmp := r (m - t)
    let ah := r (tmp + t)
    let al := r (m - ah)
    ah + al = m ∧ (2:ℤ) ^ s ∣ ah ∧ 2 * |al| ≤ 2 ^ s ∧ |ah| ≤ 2 ^ p := by
  intro t tmp ah al
  have hp1 : 1 ≤ p := by omega
  set S : ℤ := 2 ^ s with hS
  have hS0 : 0 < S := by positivity
  set Q : ℤ := 2 ^ (p - 1) with hQ
  have hQ0 : 0 < Q := by positivity
  have hQ2 : (2:ℤ) ^ p = 2 * Q := by rw [hQ, ← pow_succ']; congr 1; omega
  have hSQ : S ≤ Q := pow_le_pow_right₀ (by norm_num) (by omega)
  obtain ⟨s', rfl⟩ : ∃ s', s = s' + 1 := ⟨s - 1, by omega⟩
  have e1 : (2:ℤ) ^ (p + s') = S * Q := by
    rw [hS, hQ, ← pow_add]; congr 1; omega
  have e2 : (2:ℤ) ^ (p + (s' + 1)) = S * (2 * Q) := by
    rw [← hQ2, hS, ← pow_add]; congr 1; omega
  have e3 : (2:ℤ) ^ (p + (s' + 2)) = 2 * S * (2 * Q) := by
    rw [← hQ2, hS, show p + (s' + 2) = (s' + 1) + 1 + p by omega, pow_add, pow_succ]; ring
  have acm : |(S + 1) * m| = (S + 1) * |m| := by rw [abs_mul, abs_of_pos (by omega)]
  -- first rounding
  have d1 : S ∣ t := by
    have := grid_dvd (k := s') hp1 hr (n := (S + 1) * m) (by
      rw [e1, acm]
      nlinarith)
    exact this
  have b1 : |(S + 1) * m - t| ≤ S := by
    have := near_grid (k := s' + 2) hr (n := (S + 1) * m) (by
      rw [e3, acm]
      nlinarith)
    have h' : (2:ℤ) ^ (s' + 2) = 2 * S := by rw [hS, pow_succ]; ring
    rw [h'] at this
    show |(S + 1) * m - r ((S + 1) * m)| ≤ S
    omega
  have aSm : |S * m| = S * |m| := by rw [abs_mul, abs_of_pos hS0]
  have emt : m - t = (S + 1) * m - t - S * m := by ring
  -- second rounding
  have up : |m - t| ≤ S * (2 * Q) := by
    have : |m - t| ≤ |(S + 1) * m - t| + |S * m| := by rw [emt]; exact abs_sub _ _
    rw [aSm] at this
    have : S * (|m| + 1) ≤ S * (2 * Q) := mul_le_mul_of_nonneg_left (by omega) hS0.le
    nlinarith
  have low : S * Q ≤ |m - t| := by
    rcases eq_or_lt_of_le h1 with h | h
    · have hF : FI p ((S + 1) * m) := by
        refine FI_of_dvd (k := p - 1) ?_ ?_
        · refine Dvd.dvd.mul_left ?_ _
          rw [← hQ, h]
          exact (abs_dvd_self m)
        · rw [acm, ← h, pow_add, ← hQ, hQ2]
          nlinarith
      have : t = (S + 1) * m := exact hr hF
      rw [emt, this, sub_self, zero_sub, abs_neg, aSm, h]
    · have h3 : |S * m| ≤ |(S + 1) * m - t| + |m - t| := by
        have := abs_sub ((S + 1) * m - t) (m - t)
        rwa [show (S + 1) * m - t - (m - t) = S * m by ring] at this
      rw [aSm] at h3
      have : S * (Q + 1) ≤ S * |m| := mul_le_mul_of_nonneg_left (by omega) hS0.le
      nlinarith
  have d2 : S ∣ tmp := grid_dvd (k := s') hp1 hr (by rw [e1]; exact low)
  have b2 : 2 * |m - t - tmp| ≤ S := near_grid (k := s' + 1) hr (by rw [e2]; exact up)
  -- third rounding
  have d3 : S ∣ tmp + t := dvd_add d2 d1
  have hlt : |tmp + t| < 2 * Q + S := by
    have : |tmp + t| ≤ |m| + |m - t - tmp| := by
      have := abs_sub m (m - t - tmp)
      rwa [show m - (m - t - tmp) = tmp + t by ring] at this
    omega
  have hle : |tmp + t| ≤ 2 * Q := by
    obtain ⟨a, ha⟩ := d3
    have : ∃ c, 2 * Q = S * c := by
      refine ⟨2 ^ (p - (s' + 1)), ?_⟩
      rw [← hQ2, hS, ← pow_add]; congr 1; omega
    obtain ⟨c, hc⟩ := this
    rw [ha, hc, abs_mul, abs_of_pos hS0] at hlt ⊢
    refine mul_le_mul_of_nonneg_left ?_ hS0.le
    by_contra hcon
    have : c + 1 ≤ |a| := by omega
    nlinarith
  have hah : ah = tmp + t := exact hr (FI_of_dvd (k := s' + 1) d3 (by rw [e2]; nlinarith))
  have hal : al = m - ah := by
    refine exact hr (FI_of_dvd (k := 0) (by simp) ?_)
    have : |m - ah| = |m - t - tmp| := by rw [hah]; congr 1; ring
    rw [this, add_zero, hQ2]
    omega
  refine ⟨by omega, by rw [hah]; exact d3, ?_, by rw [hah, hQ2]; exact hle⟩
  rw [hal, hah, show m - (tmp + t) = m - t - tmp by ring]
  exact b2

/-- Dekker's product, once the operands are split. -/
theorem dekker_core {p s : ℕ} (hs2 : p ≤ 2 * s) (hs3 : 2 * s ≤ p + 1) (hps : s + 2 ≤ p) {r : ℤ → ℤ} (hr : NI p r)
    {m n xh xl yh yl : ℤ} (m1 : 2 ^ (p - 1) ≤ |m|) (m2 : |m| < 2 ^ p) (n1 : 2 ^ (p - 1) ≤ |n|) (n2 : |n| < 2 ^ p)
    (hx : xh + xl = m) (dx : (2:ℤ) ^ s ∣ xh) (bx : 2 * |xl| ≤ 2 ^ s) (cx : |xh| ≤ 2 ^ p)
    (hy : yh + yl = n) (dy : (2:ℤ) ^ s ∣ yh) (by' : 2 * |yl| ≤ 2 ^ s) (cy : |yh| ≤ 2 ^ p) :
    let zh := r (m * n)
    let r1 := r (xh * yh)
    let r2 := r (r1 - zh)
    let r3 := r (xh * yl)
    let r4 := r (xl * yh)
    let r5 := r (xl * yl)
    let r6 := r (r2 + r3)
    let r7 := r (r6 + r4)
    r (r7 + r5) = m * n - zh := by
  intro zh r1 r2 r3 r4 r5 r6 r7
  have hp1 : 1 ≤ p := by omega
  -- powers
  obtain ⟨h, rfl⟩ : ∃ h, s = h + 1 := ⟨s - 1, by omega⟩
  set H : ℤ := 2 ^ h with hH
  have hH0 : 0 < H := by positivity
  have eS : (2:ℤ) ^ (h + 1) = 2 * H := by rw [hH, pow_succ]; ring
  set Q : ℤ := 2 ^ (p - 1) with hQ
  have hQ0 : 0 < Q := by positivity
  have hQ2 : (2:ℤ) ^ p = 2 * Q := by rw [hQ, ← pow_succ']; congr 1; omega
  rw [eS] at dx dy bx by'
  rw [hQ2] at m2 n2 cx cy
  have bx' : |xl| ≤ H := by omega
  have by'' : |yl| ≤ H := by omega
  have hHQ : 4 * H ≤ Q := by
    have : (4:ℤ) * H = 2 ^ (h + 2) := by rw [hH, pow_add]; norm_num; ring
    rw [this]
    exact pow_le_pow_right₀ (by norm_num) (by omega)
  have hHH : H * H ≤ Q := by
    rw [hH, hQ, ← pow_add]; exact pow_le_pow_right₀ (by norm_num) (by omega)
  have hQH : 2 * Q ≤ 4 * (H * H) := by
    have : (4:ℤ) * (H * H) = 2 ^ (2 * (h + 1)) := by rw [hH, mul_add, pow_add, mul_comm 2 h, pow_mul]; norm_num; ring
    rw [this, ← hQ2]
    exact pow_le_pow_right₀ (by norm_num) (by omega)
  have aH : |xl * yl| ≤ H * H := by rw [abs_mul]; exact mul_le_mul bx' by'' (abs_nonneg _) hH0.le
  have amn : |m * n| = |m| * |n| := abs_mul _ _
  -- the head of the product
  have dz : Q ∣ zh := by
    have := grid_dvd (k := p - 2) hp1 hr (n := m * n) (by
      rw [amn]
      have : (2:ℤ) ^ (p + (p - 2)) = Q * Q := by rw [hQ, ← pow_add]; congr 1; omega
      rw [this]
      exact mul_le_mul m1 n1 hQ0.le (abs_nonneg _))
    rwa [show p - 2 + 1 = p - 1 by omega] at this
  have bz : |m * n - zh| ≤ Q := by
    have := near_grid (k := p) hr (n := m * n) (by
      rw [amn, pow_add, hQ2]
      exact mul_le_mul m2.le n2.le (abs_nonneg _) (by omega))
    rw [hQ2] at this
    show |m * n - r (m * n)| ≤ Q
    omega
  have dvH : 2 * H ∣ zh := by
    refine Dvd.dvd.trans ?_ dz
    rw [← eS, hQ]
    exact pow_dvd_pow 2 (by omega)
  -- exact roundings: a multiple of 2^k not above 2^(p+k)
  have ex0 : ∀ v : ℤ, |v| ≤ 2 * Q → r v = v := fun v hv =>
    exact hr (FI_of_dvd (k := 0) (by simp) (by rw [add_zero, hQ2]; exact hv))
  have exS : ∀ v : ℤ, 2 * H ∣ v → |v| ≤ 4 * (H * Q) → r v = v := fun v hd hv =>
    exact hr (FI_of_dvd (k := h + 1) (by rw [eS]; exact hd) (by rw [pow_add, hQ2, eS]; linarith))
  have hHQ0 : 0 < H * Q := mul_pos hH0 hQ0
  have hQHQ : Q ≤ H * Q := by nlinarith
  have bxy : |xl * yh| ≤ 2 * (H * Q) := by
    rw [abs_mul]
    have := mul_le_mul bx' cy (abs_nonneg _) hH0.le
    linarith
  have byx : |xh * yl| ≤ 2 * (H * Q) := by
    rw [abs_mul]
    have := mul_le_mul cx by'' (abs_nonneg _) (by omega)
    linarith
  have bxn : |xl * n| ≤ 2 * (H * Q) := by
    rw [abs_mul]
    have := mul_le_mul bx' n2.le (abs_nonneg _) hH0.le
    linarith
  have E1 : r1 = xh * yh := by
    refine exact hr (FI_of_dvd (k := 2 * (h + 1)) ?_ ?_)
    · rw [two_mul, pow_add, eS]; exact mul_dvd_mul dx dy
    · have e4 : (2:ℤ) ^ (p + 2 * (h + 1)) = 2 * Q * (2 * H * (2 * H)) := by
        rw [pow_add, hQ2, mul_comm 2 (h + 1), pow_mul, eS]; ring
      rw [abs_mul, e4]
      have h1 := mul_le_mul cx cy (abs_nonneg _) (by omega : (0:ℤ) ≤ 2 * Q)
      nlinarith
  have E2 : r2 = xh * yh - zh := by
    have hv : xh * yh - zh = (m * n - zh) - xh * yl - xl * yh - xl * yl := by rw [← hx, ← hy]; ring
    have hb : |xh * yh - zh| ≤ Q + 2 * (H * Q) + 2 * (H * Q) + H * H := by
      rw [hv]
      have a1 := abs_sub ((m * n - zh) - xh * yl - xl * yh) (xl * yl)
      have a2 := abs_sub ((m * n - zh) - xh * yl) (xl * yh)
      have a3 := abs_sub (m * n - zh) (xh * yl)
      linarith
    show r (r1 - zh) = _
    rw [E1]
    refine exact hr (FI_of_dvd (k := p - 1) ?_ ?_)
    · refine dvd_sub ?_ dz
      have : (2 * H) * (2 * H) ∣ xh * yh := mul_dvd_mul dx dy
      refine Dvd.dvd.trans ?_ this
      rw [← eS, ← pow_add]
      exact pow_dvd_pow 2 (by omega)
    · rw [pow_add, hQ2, ← hQ]
      nlinarith
  have E3 : r3 = xh * yl := exS _ (Dvd.dvd.mul_right dx _) (by linarith)
  have E4 : r4 = xl * yh := exS _ (Dvd.dvd.mul_left dy _) (by linarith)
  have E5 : r5 = xl * yl := ex0 _ (by linarith)
  have E6 : r6 = xh * n - zh := by
    show r (r2 + r3) = _
    rw [E2, E3, show xh * yh - zh + xh * yl = xh * n - zh by rw [← hy]; ring]
    refine exS _ (dvd_sub (Dvd.dvd.mul_right dx _) dvH) ?_
    have hv : xh * n - zh = (m * n - zh) - xl * n := by rw [← hx]; ring
    rw [hv]
    have := abs_sub (m * n - zh) (xl * n)
    linarith
  have E7 : r7 = m * n - zh - xl * yl := by
    show r (r6 + r4) = _
    have hv : xh * n - zh + xl * yh = m * n - zh - xl * yl := by rw [← hx, ← hy]; ring
    rw [E6, E4]
    rw [← hv]
    refine exS _ (dvd_add (dvd_sub (Dvd.dvd.mul_right dx _) dvH) (Dvd.dvd.mul_left dy _)) ?_
    rw [hv]
    have := abs_sub (m * n - zh) (xl * yl)
    linarith
  show r (r7 + r5) = _
  rw [E7, E5, sub_add_cancel]
  exact ex0 _ (by linarith)

/-! ## Rational statements -/

/-- **C64**, `Split`: for every normal number the two parts add up to it exactly, the high one has at most `p - s` bits and
the low one at most `s - 1`. -/
theorem C64_split {p s : ℕ} (hs : 1 ≤ s) (hps : s + 1 ≤ p) {q : WithBot ℤ} {rnd : ℚ → ℚ} (hr : Nearest p q rnd)
    {m e : ℤ} (h1 : 2 ^ (p - 1) ≤ |m|) (h2 : |m| < 2 ^ p) (hq : q ≤ (e : WithBot ℤ)) :
    ∃ a b : ℤ, split rnd (2 ^ s + 1) ((m:ℚ) * 2 ^ e) = ((a:ℚ) * 2 ^ (e + s), (b:ℚ) * 2 ^ e) ∧ a * 2 ^ s + b = m ∧
      |a| ≤ 2 ^ (p - s) ∧ |b| ≤ 2 ^ (s - 1) := by
  obtain ⟨ri, hri, hrr⟩ := lift (by omega) hr hq
  have addr : ∀ u v : ℤ, rnd ((u:ℚ) * 2 ^ e + v * 2 ^ e) = (ri (u + v) : ℚ) * 2 ^ e := by
    intro u v
    rw [← hrr]; congr 1; push_cast; ring
  have subr : ∀ u v : ℤ, rnd ((u:ℚ) * 2 ^ e - v * 2 ^ e) = (ri (u - v) : ℚ) * 2 ^ e := by
    intro u v
    rw [← hrr]; congr 1; push_cast; ring
  have mulr : ∀ u : ℤ, rnd ((2 ^ s + 1) * ((u:ℚ) * 2 ^ e)) = (ri ((2 ^ s + 1) * u) : ℚ) * 2 ^ e := by
    intro u
    rw [← hrr]; congr 1; push_cast; ring
  obtain ⟨c1, ⟨a, ha⟩, c3, c4⟩ := split_core hs hps hri h1 h2
  have hsp : split rnd (2 ^ s + 1) ((m:ℚ) * 2 ^ e) =
      ((ri (ri (m - ri ((2 ^ s + 1) * m)) + ri ((2 ^ s + 1) * m)) : ℚ) * 2 ^ e,
       (ri (m - ri (ri (m - ri ((2 ^ s + 1) * m)) + ri ((2 ^ s + 1) * m))) : ℚ) * 2 ^ e) := by
    simp only [split, mulr, addr, subr]
  generalize ri (m - ri (ri (m - ri ((2 ^ s + 1) * m)) + ri ((2 ^ s + 1) * m))) = al at *
  generalize ri (ri (m - ri ((2 ^ s + 1) * m)) + ri ((2 ^ s + 1) * m)) = ah at *
  refine ⟨a, al, ?_, by rw [mul_comm, ← ha]; exact c1, ?_, ?_⟩
  · rw [hsp, ha, zpow_add₀ (by norm_num), zpow_natCast]
    push_cast
    congr 1
    ring
  · rw [ha, abs_mul, abs_of_pos (by positivity : (0:ℤ) < 2 ^ s)] at c4
    have : (2:ℤ) ^ p = 2 ^ s * 2 ^ (p - s) := by rw [← pow_add]; congr 1; omega
    rw [this] at c4
    exact le_of_mul_le_mul_left c4 (by positivity)
  · have : (2:ℤ) ^ s = 2 * 2 ^ (s - 1) := by rw [← pow_succ']; congr 1; omega
    omega

/-- **C64**, `Mul211(fma=False)`: with the splitting constant `2^s + 1` of the format (`s` half the precision, rounded up),
the product of two normal numbers is the sum of the two limbs, unless the exponent of the product underflows. -/
theorem C64_mul211_nofma_partial {p s : ℕ} (hs2 : p ≤ 2 * s) (hs3 : 2 * s ≤ p + 1) (hp : 4 ≤ p) {q : WithBot ℤ} {rnd : ℚ → ℚ}
    (hr : Nearest p q rnd) {m n e f : ℤ} (m1 : 2 ^ (p - 1) ≤ |m|) (m2 : |m| < 2 ^ p) (n1 : 2 ^ (p - 1) ≤ |n|) (n2 : |n| < 2 ^ p)
    (hqe : q ≤ (e : WithBot ℤ)) (hqf : q ≤ (f : WithBot ℤ)) (hq : q ≤ ((e + f : ℤ) : WithBot ℤ)) :
    ErrorFreeProd p q rnd (m * 2 ^ e) (n * 2 ^ f) (mul211NoFma rnd (2 ^ s + 1) (m * 2 ^ e) (n * 2 ^ f)) := by
  have hps : s + 2 ≤ p := by omega
  obtain ⟨a, xl, hx, hxm, ba, bx⟩ := C64_split (by omega) (by omega : s + 1 ≤ p) hr m1 m2 hqe
  obtain ⟨b, yl, hy, hyn, bb, by'⟩ := C64_split (by omega) (by omega : s + 1 ≤ p) hr n1 n2 hqf
  obtain ⟨ri, hri, hrr⟩ := lift (by omega) hr hq
  have hS : (2:ℤ) ^ s = 2 * 2 ^ (s - 1) := by rw [← pow_succ']; congr 1; omega
  have hP : (2:ℤ) ^ p = 2 ^ (p - s) * 2 ^ s := by rw [← pow_add]; congr 1; omega
  have core := dekker_core hs2 hs3 hps hri m1 m2 n1 n2 hxm (Dvd.intro_left _ rfl) (by omega)
    (by rw [abs_mul, abs_of_pos (by positivity : (0:ℤ) < 2 ^ s), hP]; exact mul_le_mul_of_nonneg_right ba (by positivity))
    hyn (Dvd.intro_left _ rfl) (by omega)
    (by rw [abs_mul, abs_of_pos (by positivity : (0:ℤ) < 2 ^ s), hP]; exact mul_le_mul_of_nonneg_right bb (by positivity))
  dsimp only at core
  have hxh : (a:ℚ) * 2 ^ (e + s) = ((a * 2 ^ s : ℤ) : ℚ) * 2 ^ e := by
    rw [zpow_add₀ (by norm_num), zpow_natCast]; push_cast; ring
  have hyh : (b:ℚ) * 2 ^ (f + s) = ((b * 2 ^ s : ℤ) : ℚ) * 2 ^ f := by
    rw [zpow_add₀ (by norm_num), zpow_natCast]; push_cast; ring
  rw [hxh] at hx
  rw [hyh] at hy
  generalize a * 2 ^ s = xh at *
  generalize b * 2 ^ s = yh at *
  have hef : (2:ℚ) ^ (e + f) = 2 ^ e * 2 ^ f := zpow_add₀ (by norm_num) _ _
  have mulr : ∀ u v : ℤ, rnd ((u:ℚ) * 2 ^ e * (v * 2 ^ f)) = (ri (u * v) : ℚ) * 2 ^ (e + f) := by
    intro u v
    rw [← hrr, hef]; congr 1; push_cast; ring
  have addr : ∀ u v : ℤ, rnd ((u:ℚ) * 2 ^ (e + f) + v * 2 ^ (e + f)) = (ri (u + v) : ℚ) * 2 ^ (e + f) := by
    intro u v
    rw [← hrr]; congr 1; push_cast; ring
  have subr : ∀ u v : ℤ, rnd ((u:ℚ) * 2 ^ (e + f) - v * 2 ^ (e + f)) = (ri (u - v) : ℚ) * 2 ^ (e + f) := by
    intro u v
    rw [← hrr]; congr 1; push_cast; ring
  have hfin : mul211NoFma rnd (2 ^ s + 1) (m * 2 ^ e) (n * 2 ^ f) =
      (rnd (m * 2 ^ e * (n * 2 ^ f)), ((m * n - ri (m * n) : ℤ) : ℚ) * 2 ^ (e + f)) := by
    rw [mul211NoFma]
    simp only [hx, hy, mulr, addr, subr, core]
  rw [hfin]
  have hri' := mulr m n
  refine ⟨rfl, ?_, ?_⟩
  · rw [← core]
    exact Rep_of_FI (by omega) hq (hri _).1
  · dsimp only
    rw [hri', hef]; push_cast; ring

/-- The two constants of the table (425-430) are those of the formats, and the product is exact for all non-zero numbers of
a format without a smallest exponent. -/
theorem C64_mul211_nofma_unbounded {p s : ℕ} (hs2 : p ≤ 2 * s) (hs3 : 2 * s ≤ p + 1) (hp : 4 ≤ p) {rnd : ℚ → ℚ}
    (hr : Nearest p ⊥ rnd) {x y : ℚ} (hx : Rep p ⊥ x) (hy : Rep p ⊥ y) :
    ErrorFreeProd p ⊥ rnd x y (mul211NoFma rnd (2 ^ s + 1) x y) := by
  have r0 : rnd 0 = 0 := rnd_exact hr (Rep_zero p ⊥)
  have norm : ∀ x : ℚ, Rep p ⊥ x → x ≠ 0 → ∃ m e : ℤ, 2 ^ (p - 1) ≤ |m| ∧ |m| < 2 ^ p ∧ x = m * 2 ^ e := by
    intro x hx hx0
    obtain ⟨m, e, hm, -, rfl⟩ := hx
    have hm0 : m ≠ 0 := by rintro rfl; simp at hx0
    have hex : ∃ k : ℕ, 2 ^ (p - 1) ≤ |m * 2 ^ k| := by
      refine ⟨p - 1, ?_⟩
      rw [abs_mul, abs_of_pos (by positivity : (0:ℤ) < 2 ^ (p - 1))]
      have := Int.one_le_abs hm0
      nlinarith [show (0:ℤ) < 2 ^ (p - 1) by positivity]
    classical
    obtain ⟨hk1, hk2⟩ := And.intro (Nat.find_spec hex) (fun j => @Nat.find_min _ _ hex j)
    set k := Nat.find hex
    refine ⟨m * 2 ^ k, e - k, hk1, ?_, ?_⟩
    · rcases Nat.eq_zero_or_pos k with h | h
      · rw [h, pow_zero, mul_one]; exact hm
      · have := hk2 (k - 1) (by omega)
        rw [not_le, abs_mul] at this
        rw [abs_mul, show k = k - 1 + 1 by omega, pow_succ, abs_mul, show p = p - 1 + 1 by omega, pow_succ]
        rw [show |(2:ℤ)| = 2 from rfl]
        linarith
    · rw [zpow_sub₀ (by norm_num), zpow_natCast]
      push_cast
      field_simp
  have hsplit0 : split rnd (2 ^ s + 1) 0 = (0, 0) := by simp [split, r0]
  rcases eq_or_ne x 0 with rfl | hx0
  · have : mul211NoFma rnd (2 ^ s + 1) 0 y = (0, 0) := by simp [mul211NoFma, hsplit0, r0]
    rw [this]
    exact ⟨by simp [r0], Rep_zero _ _, by simp⟩
  rcases eq_or_ne y 0 with rfl | hy0
  · have : mul211NoFma rnd (2 ^ s + 1) x 0 = (0, 0) := by simp [mul211NoFma, hsplit0, r0]
    rw [this]
    exact ⟨by simp [r0], Rep_zero _ _, by simp⟩
  obtain ⟨m, e, m1, m2, rfl⟩ := norm x hx hx0
  obtain ⟨n, f, n1, n2, rfl⟩ := norm y hy hy0
  exact C64_mul211_nofma_partial hs2 hs3 hp hr m1 m2 n1 n2 bot_le bot_le bot_le

example : (2:ℚ) ^ 12 + 1 = 4097 ∧ 24 ≤ 2 * 12 ∧ 2 * 12 ≤ 24 + 1 ∧ (2:ℚ) ^ 27 + 1 = 134217729 ∧ 53 ≤ 2 * 27 ∧ 2 * 27 ≤ 53 + 1 := by
  norm_num

example : Nearest 53 ⊥ (roundNearest 53 ⊥) ∧ Rep 53 ⊥ (3 : ℚ) :=
  ⟨roundNearest_nearest (by norm_num) ⊥, ⟨3, 0, by norm_num, bot_le, by norm_num⟩⟩

end Verif.Blocks
