import Verif.Piecewise.Model
import Verif.Table.Theorems
import Mathlib.Algebra.BigOperators.Intervals
import Mathlib.Algebra.BigOperators.Fin
import Mathlib.Algebra.Order.BigOperators.Group.Finset
import Mathlib.Data.Rat.Cast.Order
import Mathlib.Tactic.Positivity
import Mathlib.Tactic.NormNum
import Mathlib.Tactic.FieldSimp

/-! # C106: piecewise polynomial approximations -/

namespace Verif.Piecewise

open Verif.Float (Fmt integerCoding)
open Verif.Table (Ival fpSub fpIndex splitNum)

theorem evalLoop_id (c : ℕ → ℝ) (r : ℝ) (m : ℕ) (p : ℝ) : evalLoop id c r m p = polyVal c m r + p * r ^ (m + 1) := by
  induction m generalizing p with
  | zero => simp [evalLoop, polyVal]; ring
  | succ m ih =>
    rw [evalLoop, ih]
    unfold polyVal
    rw [Finset.sum_range_succ _ (m + 1)]
    simp only [id]
    ring

/-- **C106, what the graph evaluates**: without rounding, the polynomial plus once more its leading coefficient, one degree higher. -/
theorem C106_value (offset : ℕ → ℝ) (table : ℕ → ℕ → ℝ) (n i : ℕ) (x : ℝ) :
    evalScheme id offset table n i x = polyVal (table i) n (x - offset i) + table i n * (x - offset i) ^ (n + 1) := by
  unfold evalScheme
  rw [evalLoop_id]
  rfl

/-- **C106 is false for the polynomials of the largest degree**: the value differs from the polynomial everywhere but at the offset. -/
theorem C106_extra_term_wrong (offset : ℕ → ℝ) (table : ℕ → ℕ → ℝ) (n i : ℕ) (x : ℝ) (hc : table i n ≠ 0) (hx : x ≠ offset i) :
    evalScheme id offset table n i x ≠ polyVal (table i) n (x - offset i) := by
  rw [C106_value]
  intro h
  have : table i n * (x - offset i) ^ (n + 1) = 0 := by linarith
  rcases mul_eq_zero.1 this with h | h
  · exact hc h
  · exact hx (sub_eq_zero.1 (pow_eq_zero_iff (Nat.succ_ne_zero n) |>.1 h))

/-- **C106 (partial)**: the graph evaluates the polynomial of a sub-interval whose degree is less than the largest one. -/
theorem C106_value_partial (offset : ℕ → ℝ) (subs : ℕ → Sub) (n i : ℕ) (x : ℝ) (h : (subs i).degree < n) :
    evalScheme id offset (fun i => genRow (subs i)) n i x = polyVal (genRow (subs i)) (subs i).degree (x - offset i) := by
  rw [C106_value]
  have h0 : genRow (subs i) n = 0 := by unfold genRow; rw [if_neg (by omega)]
  rw [h0, zero_mul, add_zero]
  unfold polyVal
  obtain ⟨k, hk⟩ : ∃ k, n + 1 = ((subs i).degree + 1) + k := ⟨n - (subs i).degree, by omega⟩
  rw [hk, Finset.sum_range_add]
  have : ∑ x_1 ∈ Finset.range k, genRow (subs i) ((subs i).degree + 1 + x_1) * (x - offset i) ^ ((subs i).degree + 1 + x_1) = 0 := by
    apply Finset.sum_eq_zero
    intro j _
    have : genRow (subs i) ((subs i).degree + 1 + j) = 0 := by unfold genRow; rw [if_neg (by omega)]
    rw [this, zero_mul]
  rw [this, add_zero]

theorem polyAbs_nonneg (c : ℕ → ℝ) (n : ℕ) (r : ℝ) : 0 ≤ polyAbs c n r := Finset.sum_nonneg fun j _ => by positivity

theorem polyVal_abs (c : ℕ → ℝ) (n : ℕ) (r : ℝ) : |polyVal c n r| ≤ polyAbs c n r := by
  unfold polyVal polyAbs
  refine (Finset.abs_sum_le_sum_abs _ _).trans (Finset.sum_le_sum fun j _ => ?_)
  rw [abs_mul, abs_pow]

theorem evalLoop_err {u : ℝ} (hu : 0 ≤ u) {rd : ℝ → ℝ} (hrd : RelRounding u rd) (c : ℕ → ℝ) (r : ℝ) (m : ℕ) :
    ∀ (p : ℝ), |evalLoop rd c r m p - (polyVal c m r + p * r ^ (m + 1))| ≤ ((1 + u) ^ (m + 1) - 1) * (polyAbs c m r + |p| * |r| ^ (m + 1)) := by
  induction m with
  | zero =>
    intro p
    simp only [evalLoop, polyVal, polyAbs, zero_add, Finset.sum_range_one, pow_zero, mul_one, pow_one]
    have h := hrd (r * p + c 0)
    have h2 : |r * p + c 0| ≤ |c 0| + |p| * |r| := by
      have := abs_add_le (r * p) (c 0)
      rw [abs_mul] at this
      linarith [mul_comm |r| |p|]
    rw [show c 0 + p * r = r * p + c 0 by ring, show (1 + u - 1) = u by ring]
    exact h.trans (mul_le_mul_of_nonneg_left h2 hu)
  | succ m ih =>
    intro p
    rw [evalLoop]
    obtain ⟨q, hq⟩ : ∃ q, q = rd (r * p + c (m + 1)) := ⟨_, rfl⟩
    rw [← hq]
    have h1 := ih q
    have h2 := hrd (r * p + c (m + 1))
    rw [← hq] at h2
    obtain ⟨t, ht⟩ : ∃ t, t = r * p + c (m + 1) := ⟨_, rfl⟩
    rw [← ht] at h2
    have ht2 : |t| ≤ |c (m + 1)| + |p| * |r| := by
      rw [ht]
      have := abs_add_le (r * p) (c (m + 1))
      rw [abs_mul] at this
      linarith [mul_comm |r| |p|]
    have hq2 : |q| ≤ (1 + u) * |t| := by
      have := abs_add_le (q - t) t
      rw [sub_add_cancel] at this
      linarith
    have e1 : polyVal c (m + 1) r + p * r ^ (m + 1 + 1) = polyVal c m r + t * r ^ (m + 1) := by
      unfold polyVal
      rw [Finset.sum_range_succ _ (m + 1), ht]
      ring
    have e2 : polyAbs c (m + 1) r + |p| * |r| ^ (m + 1 + 1) = polyAbs c m r + (|c (m + 1)| + |p| * |r|) * |r| ^ (m + 1) := by
      unfold polyAbs
      rw [Finset.sum_range_succ _ (m + 1)]
      ring
    rw [e1, e2]
    obtain ⟨T, hT⟩ : ∃ T, T = |c (m + 1)| + |p| * |r| := ⟨_, rfl⟩
    obtain ⟨R, hR⟩ : ∃ R, R = |r| ^ (m + 1) := ⟨_, rfl⟩
    obtain ⟨A, hA⟩ : ∃ A, A = polyAbs c m r := ⟨_, rfl⟩
    obtain ⟨G, hG⟩ : ∃ G, G = (1 + u) ^ (m + 1) := ⟨_, rfl⟩
    have hR0 : 0 ≤ R := by rw [hR]; positivity
    have hA0 : 0 ≤ A := by rw [hA]; exact polyAbs_nonneg _ _ _
    have hG1 : 1 ≤ G := by rw [hG]; exact one_le_pow₀ (by linarith)
    have key : |evalLoop rd c r m q - (polyVal c m r + t * r ^ (m + 1))| ≤
        |evalLoop rd c r m q - (polyVal c m r + q * r ^ (m + 1))| + |q - t| * R := by
      rw [hR, ← abs_pow, ← abs_mul]
      have := abs_add_le (evalLoop rd c r m q - (polyVal c m r + q * r ^ (m + 1))) ((q - t) * r ^ (m + 1))
      rw [show evalLoop rd c r m q - (polyVal c m r + q * r ^ (m + 1)) + (q - t) * r ^ (m + 1)
        = evalLoop rd c r m q - (polyVal c m r + t * r ^ (m + 1)) by ring] at this
      exact this
    rw [show (1 + u) ^ (m + 1 + 1) = (1 + u) * G by rw [hG]; ring]
    rw [← hG, ← hA, ← hR] at h1
    rw [← hT] at ht2 ⊢
    rw [← hA, ← hR]
    have hT0 : 0 ≤ T := le_trans (abs_nonneg _) ht2
    have q3 : |q| ≤ (1 + u) * T := hq2.trans (mul_le_mul_of_nonneg_left ht2 (by linarith))
    have d3 : |q - t| ≤ u * T := h2.trans (mul_le_mul_of_nonneg_left ht2 hu)
    have s1 : (G - 1) * (A + |q| * R) ≤ (G - 1) * (A + (1 + u) * T * R) :=
      mul_le_mul_of_nonneg_left (by linarith [mul_le_mul_of_nonneg_right q3 hR0]) (by linarith)
    have s2 : |q - t| * R ≤ u * T * R := mul_le_mul_of_nonneg_right d3 hR0
    have s3 : (G - 1) * (A + (1 + u) * T * R) + u * T * R ≤ ((1 + u) * G - 1) * (A + T * R) := by
      have : 0 ≤ u * G * A := by positivity
      nlinarith only [this]
    linarith

/-- **C106 (error)**: with a polynomial of error `ε` at the reduced argument, the error of the graph is bounded by `ε`, the extra term and the
roundings. -/
theorem C106_error_partial {u : ℝ} (hu : 0 ≤ u) {rd : ℝ → ℝ} (hrd : RelRounding u rd) (offset : ℕ → ℝ) (table : ℕ → ℕ → ℝ) (n i : ℕ) (x y ε : ℝ)
    (hexact : rd (x - offset i) = x - offset i) (happrox : |polyVal (table i) n (x - offset i) - y| ≤ ε) :
    |evalScheme rd offset table n i x - y| ≤ ε + |table i n| * |x - offset i| ^ (n + 1)
      + ((1 + u) ^ (n + 1) - 1) * (polyAbs (table i) n (x - offset i) + |table i n| * |x - offset i| ^ (n + 1)) := by
  unfold evalScheme
  rw [hexact]
  have h := evalLoop_err hu hrd (table i) (x - offset i) n (table i n)
  obtain ⟨v, hv⟩ : ∃ v, v = evalLoop rd (table i) (x - offset i) n (table i n) := ⟨_, rfl⟩
  rw [← hv] at h ⊢
  have e : |table i n * (x - offset i) ^ (n + 1)| = |table i n| * |x - offset i| ^ (n + 1) := by rw [abs_mul, abs_pow]
  have t1 := abs_add_le (v - (polyVal (table i) n (x - offset i) + table i n * (x - offset i) ^ (n + 1)))
    ((polyVal (table i) n (x - offset i) - y) + table i n * (x - offset i) ^ (n + 1))
  have t2 := abs_add_le (polyVal (table i) n (x - offset i) - y) (table i n * (x - offset i) ^ (n + 1))
  rw [show v - (polyVal (table i) n (x - offset i) + table i n * (x - offset i) ^ (n + 1)) +
    (polyVal (table i) n (x - offset i) - y + table i n * (x - offset i) ^ (n + 1)) = v - y by ring] at t1
  linarith

theorem zp (k : ℤ) : (0 : ℚ) < (2 : ℚ) ^ k := zpow_pos (by norm_num) k

/-- the subtraction of the offset of a field index is exact -/
theorem reduced_finite {F : Fmt} {low : ℤ} (hlow : F.Normal ((2 : ℚ) ^ low)) {fb : ℕ} (hfb : fb ≤ F.f) (i : ℕ) {x : ℚ} (hx : F.Normal x)
    (h1 : (fpSub low fb i).lo ≤ x) (h2 : x < (fpSub low fb i).hi) : F.Finite (x - (fpSub low fb i).lo) := by
  obtain ⟨⟨m, E', hm, hE1, hE2, hv⟩, _⟩ := hx
  obtain ⟨E, hE⟩ : ∃ E, E = ((i / 2 ^ fb : ℕ) : ℤ) + low := ⟨_, rfl⟩
  obtain ⟨k, hk⟩ : ∃ k, k = i % 2 ^ fb := ⟨_, rfl⟩
  have hk2 : k + 1 ≤ 2 ^ fb := by rw [hk]; exact Nat.mod_lt _ (by positivity)
  have lo : (fpSub low fb i).lo = (1 + (k : ℚ) * (2 : ℚ) ^ (-(fb : ℤ))) * (2 : ℚ) ^ E := by rw [hk, hE]; rfl
  have hi : (fpSub low fb i).hi = (1 + ((k : ℚ) + 1) * (2 : ℚ) ^ (-(fb : ℤ))) * (2 : ℚ) ^ E := by rw [hk, hE]; rfl
  have p1 := zp E
  have p2 := zp (-(fb : ℤ))
  have pw : (2 : ℚ) ^ fb * (2 : ℚ) ^ (-(fb : ℤ)) = 1 := by rw [← zpow_natCast, ← zpow_add₀ (by norm_num)]; simp
  have kb : ((k : ℚ) + 1) * (2 : ℚ) ^ (-(fb : ℤ)) ≤ 1 := by
    have : ((k : ℚ) + 1) ≤ 2 ^ fb := by exact_mod_cast hk2
    have := mul_le_mul_of_nonneg_right this p2.le
    linarith
  have k0 : (0 : ℚ) ≤ (k : ℚ) * (2 : ℚ) ^ (-(fb : ℤ)) := by positivity
  rw [lo] at h1 ⊢
  rw [hi] at h2
  have xlow : (2 : ℚ) ^ E ≤ x := by nlinarith only [h1, k0, p1]
  have xpos : 0 < x := lt_of_lt_of_le p1 xlow
  -- the exponent of `x` is at least `E`
  have hEE : E ≤ E' := by
    by_contra hc
    have hlt : E' + 1 ≤ E := by omega
    have a1 : |(m : ℚ)| < 2 ^ (F.f + 1) := by exact_mod_cast hm
    have a2 : x ≤ |(m : ℚ)| * (2 : ℚ) ^ (E' - F.f) := by
      rw [hv]; exact mul_le_mul_of_nonneg_right (le_abs_self _) (zp _).le
    have a3 : |(m : ℚ)| * (2 : ℚ) ^ (E' - F.f) < 2 ^ (F.f + 1) * (2 : ℚ) ^ (E' - F.f) := mul_lt_mul_of_pos_right a1 (zp _)
    have a4 : (2 : ℚ) ^ (F.f + 1) * (2 : ℚ) ^ (E' - F.f) = (2 : ℚ) ^ (E' + 1) := by
      rw [← zpow_natCast, ← zpow_add₀ (by norm_num)]; congr 1; push_cast; ring
    have a5 : (2 : ℚ) ^ (E' + 1) ≤ (2 : ℚ) ^ E := zpow_le_zpow_right₀ (by norm_num) hlt
    linarith
  have hElow : F.emin ≤ E := by
    obtain ⟨_, hn⟩ := hlow
    rw [abs_of_pos (zp _)] at hn
    have := (zpow_le_zpow_iff_right₀ (by norm_num : (1 : ℚ) < 2)).1 hn
    have : (0 : ℤ) ≤ ((i / 2 ^ fb : ℕ) : ℤ) := by positivity
    omega
  obtain ⟨t, ht⟩ : ∃ t : ℕ, E' = E + t := ⟨(E' - E).toNat, by omega⟩
  obtain ⟨w, hw⟩ : ∃ w : ℕ, F.f = fb + w := ⟨F.f - fb, by omega⟩
  have ex : x - (1 + (k : ℚ) * (2 : ℚ) ^ (-(fb : ℤ))) * (2 : ℚ) ^ E
      = ((m * 2 ^ t - (2 ^ F.f + k * 2 ^ w) : ℤ) : ℚ) * (2 : ℚ) ^ (E - F.f) := by
    rw [hv, ht]
    have b1 : (2 : ℚ) ^ (E + (t : ℤ) - F.f) = 2 ^ t * (2 : ℚ) ^ (E - F.f) := by
      rw [← zpow_natCast, ← zpow_add₀ (by norm_num)]; congr 1; ring
    have b2 : (2 : ℚ) ^ E = 2 ^ F.f * (2 : ℚ) ^ (E - F.f) := by
      rw [← zpow_natCast, ← zpow_add₀ (by norm_num)]; congr 1; ring
    have b3 : (2 : ℚ) ^ (-(fb : ℤ)) * 2 ^ F.f = 2 ^ w := by
      rw [← zpow_natCast, ← zpow_natCast, ← zpow_add₀ (by norm_num)]; congr 1; rw [hw]; push_cast; ring
    rw [b1, b2]
    push_cast
    have : (k : ℚ) * (2 : ℚ) ^ (-(fb : ℤ)) * (2 ^ F.f * (2 : ℚ) ^ (E - F.f)) = k * 2 ^ w * (2 : ℚ) ^ (E - F.f) := by
      rw [← b3]; ring
    linear_combination -this
  refine ⟨m * 2 ^ t - (2 ^ F.f + k * 2 ^ w), E, ?_, hElow, by omega, ex⟩
  have pp := zp (E - F.f)
  have d0 : 0 ≤ x - (1 + (k : ℚ) * (2 : ℚ) ^ (-(fb : ℤ))) * (2 : ℚ) ^ E := by linarith
  have d1 : x - (1 + (k : ℚ) * (2 : ℚ) ^ (-(fb : ℤ))) * (2 : ℚ) ^ E < 2 ^ (F.f + 1) * (2 : ℚ) ^ (E - F.f) := by
    have b2 : (2 : ℚ) ^ E = 2 ^ F.f * (2 : ℚ) ^ (E - F.f) := by
      rw [← zpow_natCast, ← zpow_add₀ (by norm_num)]; congr 1; ring
    have b4 : (2 : ℚ) ^ (F.f + 1) * (2 : ℚ) ^ (E - F.f) = 2 * (2 : ℚ) ^ E := by rw [b2]; ring
    rw [b4]
    nlinarith only [h2, kb, p1, k0, p2]
  rw [ex] at d0 d1
  have c0 : (0 : ℚ) ≤ ((m * 2 ^ t - (2 ^ F.f + k * 2 ^ w) : ℤ) : ℚ) := by
    by_contra hc
    push Not at hc
    exact absurd d0 (not_le.2 (mul_neg_of_neg_of_pos hc pp))
  have c1 : ((m * 2 ^ t - (2 ^ F.f + k * 2 ^ w) : ℤ) : ℚ) < 2 ^ (F.f + 1) := lt_of_mul_lt_mul_right d1 pp.le
  have c0' : (0 : ℤ) ≤ m * 2 ^ t - (2 ^ F.f + k * 2 ^ w) := by exact_mod_cast c0
  rw [abs_of_nonneg c0']
  exact_mod_cast c1

/-- **C106 (field indexing)**: for every number of the covered interval, the row selected by the bits of the number is the one of a sub-interval which
contains it, the reduced argument is exact, and the error of the graph is bounded as in `C106_error_partial`. -/
theorem C106_fp_partial {F : Fmt} (he : 1 ≤ F.e) (hf : 1 ≤ F.f) {low high : ℤ} (hlh : low ≤ high) {fb : ℕ} (hfb : fb ≤ F.f)
    (hlow : F.Normal ((2 : ℚ) ^ low)) {u : ℝ} (hu : 0 ≤ u) {rd : ℝ → ℝ} (hrd : RelRounding u rd) (hfix : ∀ v : ℚ, F.Finite v → rd v = v)
    (table : ℕ → ℕ → ℝ) (n : ℕ) (g : ℝ → ℝ) (ε : ℕ → ℝ)
    (happrox : ∀ i < splitNum low high fb, ∀ r : ℝ, 0 ≤ r → r ≤ ((fpSub low fb i).hi - (fpSub low fb i).lo : ℚ) →
      |polyVal (table i) n r - g ((fpSub low fb i).lo + r)| ≤ ε i)
    (x : ℚ) (hx : F.Normal x) (h1 : (2 : ℚ) ^ low ≤ x) (h2 : x < (2 : ℚ) ^ (high + 1)) :
    ∃ code off i, integerCoding F (.num x) = .ok code ∧ integerCoding F (.num ((2 : ℚ) ^ low)) = .ok off ∧ i = fpIndex F low high fb code off ∧
      i < splitNum low high fb ∧ (fpSub low fb i).Has x ∧
      ∃ r : ℝ, r = x - (fpSub low fb i).lo ∧
      |evalScheme rd (fun i => ((fpSub low fb i).lo : ℝ)) table n i x - g x| ≤ ε i + |table i n| * |r| ^ (n + 1)
        + ((1 + u) ^ (n + 1) - 1) * (polyAbs (table i) n r + |table i n| * |r| ^ (n + 1)) := by
  obtain ⟨code, off, hc, ho, hi, hlo, hhi⟩ := Verif.Table.C61_fp_index F he hf low high hlh fb hfb hlow x hx h1 h2
  refine ⟨code, off, fpIndex F low high fb code off, hc, ho, rfl, hi, ⟨hlo, hhi.le⟩, _, rfl, ?_⟩
  obtain ⟨i, hii⟩ : ∃ i, i = fpIndex F low high fb code off := ⟨_, rfl⟩
  rw [← hii] at hi hlo hhi ⊢
  have hfin := reduced_finite hlow hfb i hx hlo hhi
  have hex : rd ((x : ℝ) - ((fpSub low fb i).lo : ℝ)) = (x : ℝ) - ((fpSub low fb i).lo : ℝ) := by
    have := hfix _ hfin
    push_cast at this
    exact this
  have ha := happrox i hi ((x : ℝ) - ((fpSub low fb i).lo : ℝ)) (by
      have : ((fpSub low fb i).lo : ℝ) ≤ x := by exact_mod_cast hlo
      linarith)
    (by
      have : (x : ℝ) < ((fpSub low fb i).hi : ℝ) := by exact_mod_cast hhi
      push_cast
      linarith)
  rw [show ((fpSub low fb i).lo : ℝ) + ((x : ℝ) - ((fpSub low fb i).lo : ℝ)) = x by ring] at ha
  exact C106_error_partial hu hrd (fun i => ((fpSub low fb i).lo : ℝ)) table n i x (g x) (ε i) hex ha

theorem maxDegree_ge (subs : List Sub) : ∀ s ∈ subs, s.degree ≤ maxDegree subs := by
  induction subs with
  | nil => simp
  | cons a l ih =>
    intro s hs
    have e : maxDegree (a :: l) = max a.degree (maxDegree l) := rfl
    rw [e]
    rcases List.mem_cons.1 hs with h | h
    · subst h; exact le_max_left _ _
    · exact (ih s h).trans (le_max_right _ _)

theorem maxDegree_attained (subs : List Sub) (h : subs ≠ []) : ∃ s ∈ subs, s.degree = maxDegree subs := by
  induction subs with
  | nil => exact absurd rfl h
  | cons a l ih =>
    have e : maxDegree (a :: l) = max a.degree (maxDegree l) := rfl
    rw [e]
    rcases le_total (maxDegree l) a.degree with hc | hc
    · exact ⟨a, by simp, (max_eq_left hc).symm⟩
    · by_cases hl : l = []
      · subst hl
        exact ⟨a, by simp, (max_eq_left (Nat.zero_le _)).symm⟩
      · obtain ⟨s, hs, hd⟩ := ih hl
        exact ⟨s, by simp [hs], by rw [hd, max_eq_right hc]⟩

/-- **C106 is false for every generated approximation**: when the degrees are the ones of the polynomials, there is a sub-interval where the value of
the graph is not the one of the polynomial, except at its offset. -/
theorem C106_generated_wrong (offset : ℕ → ℝ) (subs : List Sub) (h : subs ≠ []) (hlead : ∀ s ∈ subs, ∃ v, v ≠ 0 ∧ s.coeff s.degree = some v) :
    ∃ i, ∃ hi : i < subs.length, ∀ x, x ≠ offset i →
      evalScheme id offset (fun i => genRow (subs.getD i ⟨0, fun _ => none, 0⟩)) (maxDegree subs) i x ≠
        polyVal (genRow subs[i]) (maxDegree subs) (x - offset i) := by
  obtain ⟨s, hs, hd⟩ := maxDegree_attained subs h
  obtain ⟨i, hi, rfl⟩ := List.mem_iff_getElem.1 hs
  refine ⟨i, hi, fun x hx => ?_⟩
  have e : subs.getD i ⟨0, fun _ => none, 0⟩ = subs[i] := by simp [hi]
  have := C106_extra_term_wrong offset (fun i => genRow (subs.getD i ⟨0, fun _ => none, 0⟩)) (maxDegree subs) i x (by
    obtain ⟨v, hv, hc⟩ := hlead _ hs
    simp only [e, genRow]
    rw [if_pos hd.ge, ← hd, hc]
    exact hv) hx
  simp only [e] at this ⊢
  exact this

theorem genError_aux (subs : List Sub) (e0 : ℝ) :
    e0 ≤ subs.foldl (fun e s => if e > s.error then e else s.error) e0 ∧
    (subs.foldl (fun e s => if e > s.error then e else s.error) e0 = e0 ∨
      subs.foldl (fun e s => if e > s.error then e else s.error) e0 ∈ subs.map (·.error)) ∧
    ∀ s ∈ subs, s.error ≤ subs.foldl (fun e s => if e > s.error then e else s.error) e0 := by
  induction subs generalizing e0 with
  | nil => simp
  | cons a l ih =>
    obtain ⟨h1, h2, h3⟩ := ih (if e0 > a.error then e0 else a.error)
    rw [List.foldl_cons]
    have hmax : e0 ≤ (if e0 > a.error then e0 else a.error) ∧ a.error ≤ (if e0 > a.error then e0 else a.error) := by
      split_ifs with h
      · exact ⟨le_rfl, h.le⟩
      · exact ⟨not_lt.1 h, le_rfl⟩
    refine ⟨hmax.1.trans h1, ?_, ?_⟩
    · rcases h2 with h2 | h2
      · rw [h2]
        split_ifs with h
        · left; rfl
        · right; simp
      · right
        rw [List.map_cons, List.mem_cons]
        exact Or.inr h2
    · intro s hs
      rcases List.mem_cons.1 hs with h | h
      · subst h; exact hmax.2.trans h1
      · exact h3 s h

/-- **C106 (error of the whole approximation)**: the error returned by the generation is the largest error of the sub-intervals. -/
theorem C106_max_error (subs : List Sub) : IsMax (genError subs) (subs.map (·.error)) := by
  obtain ⟨h1, h2, h3⟩ := genError_aux subs 0
  refine ⟨h2, h1, ?_⟩
  intro x hx
  obtain ⟨s, hs, rfl⟩ := List.mem_map.1 hx
  exact h3 s hs

/-- **C106 (loading, tables)**: the tables loaded from an approximation are those which were generated, when no polynomial has a higher degree than
asked. -/
theorem C106_load_tables (s : Sub) (h : ∀ m, s.degree < m → s.coeff m = none) (m : ℕ) : loadRow s m = genRow s m := by
  unfold loadRow genRow
  split_ifs with hm
  · rfl
  · rw [h m (by omega)]

theorem loadErrorSub_full (n : ℕ) (e : ℝ) (s : Sub) (h : ∀ m ≤ n, (s.coeff m).isSome) : loadErrorSub n e s = e := by
  unfold loadErrorSub
  have : ∀ l : List ℕ, (∀ m ∈ l, m ≤ n) → l.foldl (fun e m => match s.coeff m with | some _ => e | none => if s.error > e then s.error else e) e = e := by
    intro l
    induction l with
    | nil => intro _; rfl
    | cons a l ih =>
      intro hl
      rw [List.foldl_cons]
      obtain ⟨v, hv⟩ := Option.isSome_iff_exists.1 (h a (hl a (by simp)))
      rw [hv]
      exact ih fun m hm => hl m (by simp [hm])
  exact this _ fun m hm => by rw [List.mem_range] at hm; omega

theorem loadErrorSub_gap (n : ℕ) (e : ℝ) (s : Sub) (h : ∃ m ≤ n, s.coeff m = none) : loadErrorSub n e s = max e s.error := by
  unfold loadErrorSub
  obtain ⟨m, hm, hc⟩ := h
  have keep : ∀ (l : List ℕ) (e : ℝ), s.error ≤ e → l.foldl (fun e m => match s.coeff m with | some _ => e | none => if s.error > e then s.error else e) e = e := by
    intro l
    induction l with
    | nil => intro _ _; rfl
    | cons a l ih =>
      intro e he
      rw [List.foldl_cons]
      cases s.coeff a with
      | none => simp only [if_neg (not_lt.2 he)]; exact ih e he
      | some v => exact ih e he
  have main : ∀ (l : List ℕ) (e : ℝ), m ∈ l → l.foldl (fun e m => match s.coeff m with | some _ => e | none => if s.error > e then s.error else e) e = max e s.error := by
    intro l
    induction l with
    | nil => intro _ h; simp at h
    | cons a l ih =>
      intro e hmem
      rw [List.foldl_cons]
      cases hca : s.coeff a with
      | none =>
        simp only
        by_cases h : s.error > e
        · rw [if_pos h, keep l _ le_rfl, max_eq_right h.le]
        · rw [if_neg h, keep l _ (not_lt.1 h), max_eq_left (not_lt.1 h)]
      | some v =>
        rcases List.mem_cons.1 hmem with h | h
        · rw [← h, hc] at hca; cases hca
        · exact ih e h
  exact main _ e (List.mem_range.2 (by omega))

/-- **C106 (loading, error) is false**: the error of an approximation whose polynomials have all their coefficients is loaded as zero. -/
theorem C106_load_error_wrong (n : ℕ) (subs : List Sub) (h : ∀ s ∈ subs, ∀ m ≤ n, (s.coeff m).isSome) : loadError n subs = 0 := by
  unfold loadError
  have : ∀ (e : ℝ), subs.foldl (loadErrorSub n) e = e := by
    induction subs with
    | nil => intro e; rfl
    | cons a l ih =>
      intro e
      rw [List.foldl_cons, loadErrorSub_full n e a (h a (by simp))]
      exact ih (fun s hs => h s (by simp [hs])) e
  exact this 0

/-- **C106 (loading, error), partial**: it is the largest error when every polynomial lacks a monomial. -/
theorem C106_load_error_partial (n : ℕ) (subs : List Sub) (h : ∀ s ∈ subs, ∃ m ≤ n, s.coeff m = none) :
    IsMax (loadError n subs) (subs.map (·.error)) := by
  have e : ∀ (e0 : ℝ), subs.foldl (loadErrorSub n) e0 = subs.foldl (fun e s => if e > s.error then e else s.error) e0 := by
    induction subs with
    | nil => intro e; rfl
    | cons a l ih =>
      intro e
      rw [List.foldl_cons, List.foldl_cons, loadErrorSub_gap n e a (h a (by simp)), ih (fun s hs => h s (by simp [hs]))]
      congr 1
      split_ifs with hc
      · exact max_eq_left hc.le
      · exact max_eq_right (not_lt.1 hc)
  have := C106_max_error subs
  unfold genError at this
  unfold loadError
  rw [e]
  exact this

/-- degree 1 on one interval: `1 + 2 r` is evaluated as `1 + 2 r + 2 r ^ 2` -/
example : evalScheme id (fun _ => 1) (fun _ m => if m = 0 then 1 else 2) 1 0 3 = 1 + 2 * 2 + 2 * 2 ^ 2 := by
  rw [C106_value]
  norm_num [polyVal, Finset.sum_range_succ]

/-- the hypotheses of `C106_fp_partial` on the interval `[1, 4)` in binary32, with the identity as the rounding and a constant function -/
example : ∃ code off i, integerCoding ⟨8, 23⟩ (.num (3 / 2)) = .ok code ∧ integerCoding ⟨8, 23⟩ (.num ((2 : ℚ) ^ (0 : ℤ))) = .ok off ∧
    i = fpIndex ⟨8, 23⟩ 0 1 2 code off ∧ i < splitNum 0 1 2 ∧ (fpSub 0 2 i).Has (3 / 2) ∧
    ∃ r : ℝ, r = (3 / 2 : ℚ) - (fpSub 0 2 i).lo ∧
    |evalScheme id (fun i => ((fpSub 0 2 i).lo : ℝ)) (fun _ _ => 5) 0 i (3 / 2 : ℚ) - 5| ≤ 0 + |(5 : ℝ)| * |r| ^ 1
        + ((1 + 0) ^ 1 - 1) * (polyAbs (fun _ => 5) 0 r + |(5 : ℝ)| * |r| ^ 1) :=
  C106_fp_partial (F := ⟨8, 23⟩) (by norm_num) (by norm_num) (low := 0) (high := 1) (by norm_num) (fb := 2) (by norm_num)
    ⟨⟨2 ^ 23, 0, by norm_num, by norm_num [Fmt.emin, Fmt.emax], by norm_num [Fmt.emax], by norm_num⟩, by norm_num [Fmt.emin, Fmt.emax]⟩
    (u := 0) le_rfl (rd := id) (fun x => by simp) (fun _ _ => rfl) (fun _ _ => 5) 0 (fun _ => 5) (fun _ => 0)
    (fun i _ r _ _ => by simp [polyVal]) (3 / 2)
    ⟨⟨3 * 2 ^ 22, 0, by norm_num, by norm_num [Fmt.emin, Fmt.emax], by norm_num [Fmt.emax], by norm_num⟩, by
      rw [abs_of_pos (by norm_num)]; norm_num [Fmt.emin, Fmt.emax]⟩
    (by norm_num) (by norm_num)

end Verif.Piecewise
