import Verif.Softmax.Spec
import Verif.Softmax.Model
import Verif.Arr.Theorems
import Verif.Elem.ExpThms
import Verif.Elem.Rel

namespace Verif.Softmax

open Verif.Float (Fmt Val)
open Verif.Elem
open Verif.Check
open Verif.Arr (Mem u32 NoOverrun Elementwise elem_zero elem_chunk)

/-- the accumulator after `i` elements -/
noncomputable def accFp (F : Fmt) (e : ℕ → Val) : ℕ → Val
  | 0 => .plusZero
  | i + 1 => fadd F (accFp F e i) (e i)

theorem u32_id {i n : ℕ} (h : i < n) (hn : n < 4294967296) : u32 (i + 1) = i + 1 := by
  unfold u32
  exact Nat.mod_eq_of_lt (by norm_num; omega)

theorem expLoop_spec (F : Fmt) (E : Val → Val) {dst src n : ℕ} (ho : NoOverrun dst src n) (hn : n < 4294967296) (m0 : Mem Val) :
    ∀ q i m, i + q = n → Elementwise E dst src i m0 m → ∀ fuel, q < fuel →
      ∃ m', expLoop F E dst src n fuel i (accFp F (fun k => E (m0 (src + k))) i) m = some (accFp F (fun k => E (m0 (src + k))) n, m') ∧
        Elementwise E dst src n m0 m' := by
  intro q
  induction q with
  | zero =>
    intro i m hi h fuel hf
    obtain ⟨fu, rfl⟩ : ∃ fu, fuel = fu + 1 := ⟨fuel - 1, by omega⟩
    have : i = n := by omega
    subst this
    rw [expLoop, if_neg (by omega)]
    exact ⟨m, rfl, h⟩
  | succ q ih =>
    intro i m hi h fuel hf
    obtain ⟨fu, rfl⟩ : ∃ fu, fuel = fu + 1 := ⟨fuel - 1, by omega⟩
    rw [expLoop, if_pos (by omega), u32_id (by omega) hn]
    have hm : m (src + i) = m0 (src + i) := h.2 _ (by rcases ho with ho | ho <;> omega)
    rw [hm]
    refine ih (i + 1) _ (by omega) ?_ fu (by omega)
    refine elem_chunk ho (by omega) h ?_ ?_
    · intro k hk
      have : k = 0 := by omega
      subst this
      rw [Nat.add_zero, Nat.add_zero, store1, if_pos rfl, hm]
    · intro a ha
      rw [store1, if_neg (by omega)]

theorem divLoop_spec (F : Fmt) (r : Val) {dst n : ℕ} (hn : n < 4294967296) (m0 : Mem Val) :
    ∀ q i m, i + q = n → Elementwise (fun v => fmul F v r) dst dst i m0 m → ∀ fuel, q < fuel →
      ∃ m', divLoop F r dst n fuel i m = some m' ∧ Elementwise (fun v => fmul F v r) dst dst n m0 m' := by
  intro q
  induction q with
  | zero =>
    intro i m hi h fuel hf
    obtain ⟨fu, rfl⟩ : ∃ fu, fuel = fu + 1 := ⟨fuel - 1, by omega⟩
    have : i = n := by omega
    subst this
    rw [divLoop, if_neg (by omega)]
    exact ⟨m, rfl, h⟩
  | succ q ih =>
    intro i m hi h fuel hf
    obtain ⟨fu, rfl⟩ : ∃ fu, fuel = fu + 1 := ⟨fuel - 1, by omega⟩
    rw [divLoop, if_pos (by omega), u32_id (by omega) hn]
    refine ih (i + 1) _ (by omega) ?_ fu (by omega)
    refine elem_chunk (n := n) (Or.inl le_rfl) (by omega) h ?_ ?_
    · intro k hk
      have : k = 0 := by omega
      subst this
      rw [Nat.add_zero, store1, if_pos rfl]
    · intro a ha
      rw [store1, if_neg (by omega)]

/-- **C104**, the loops: for every length and every array, the function ends, each element of the destination is the product of the exponential of its
source element by the reciprocal of the accumulated sum, and nothing else changes. -/
theorem C104_loops (F : Fmt) (E : Val → Val) (dst src n : ℕ) (hn : n < 4294967296) (ho : NoOverrun dst src n) (m : Mem Val) (fuel : ℕ) (hf : n < fuel) :
    ∃ m', softmaxFn F E dst src n fuel m = some m' ∧
      Elementwise (fun v => fmul F (E v) (fdiv F (.num 1) ((List.range n).foldl (fun s k => fadd F s (E (m (src + k)))) .plusZero))) dst src n m m' := by
  obtain ⟨m1, h1, h2⟩ := expLoop_spec F E ho hn m n 0 m (by omega) (elem_zero _ _ _ _) fuel hf
  have e0 : accFp F (fun k => E (m (src + k))) 0 = .plusZero := rfl
  rw [e0] at h1
  have ea : ∀ j, (List.range j).foldl (fun s k => fadd F s (E (m (src + k)))) .plusZero = accFp F (fun k => E (m (src + k))) j := by
    intro j
    induction j with
    | zero => rfl
    | succ j ih => rw [List.range_succ, List.foldl_append, ih]; rfl
  rw [ea n]
  unfold softmaxFn
  rw [h1]
  dsimp only
  obtain ⟨m2, h3, h4⟩ := divLoop_spec F (fdiv F (.num 1) (accFp F (fun k => E (m (src + k))) n)) (dst := dst) hn m1 n 0 m1 (by omega)
    (elem_zero _ _ _ _) fuel hf
  refine ⟨m2, h3, ?_, ?_⟩
  · intro k hk
    rw [h4.1 k hk, h2.1 k hk]
  · intro a ha
    rw [h4.2 a ha, h2.2 a ha]

/-! ### Accuracy -/

theorem ru_norm {F : Fmt} {z : ℝ} (h : (2 : ℝ) ^ F.emin ≤ z) : |(roundUnb F .RN z : ℝ) - z| ≤ uu F * z := by
  have hz : 0 < z := lt_of_lt_of_le (r2 _) h
  rcases ru_rel F z with h1 | h1
  · rwa [abs_of_pos hz] at h1
  · refine le_trans h1 ?_
    unfold ee uu
    rw [show F.emin - (F.f : ℤ) - 1 = (-(F.f : ℤ) - 1) + F.emin by ring, r2add]
    exact mul_le_mul_of_nonneg_left h (r2 _).le

theorem fadd_val {F : Fmt} (he : 2 ≤ F.e) {a b : Val} (ha : Fin' F a) (hb : Fin' F b) (h : |rv a + rv b| ≤ (2 : ℝ) ^ F.emax) :
    Fin' F (fadd F a b) ∧ rv (fadd F a b) = roundUnb F .RN (rv a + rv b) := by
  have e : ((numOf a + numOf b : ℚ) : ℝ) = rv a + rv b := by unfold rv; push_cast; rfl
  obtain ⟨h1, h2⟩ := fadd_fin he ha hb (by rw [e]; exact ru_no_over he h)
  rw [e] at h2
  exact ⟨h1, by unfold rv at h2 ⊢; rw [h2]⟩

theorem fdiv_val {F : Fmt} (he : 2 ≤ F.e) {a b : Val} (ha : Fin' F a) (hb : Fin' F b) (h0 : rv b ≠ 0) (h : |rv a / rv b| ≤ (2 : ℝ) ^ F.emax) :
    Fin' F (fdiv F a b) ∧ rv (fdiv F a b) = roundUnb F .RN (rv a / rv b) := by
  have e : ((numOf a / numOf b : ℚ) : ℝ) = rv a / rv b := by unfold rv; push_cast; rfl
  have hz : isZero b = false := by
    cases b <;> simp_all [isZero, rv, numOf]
  unfold fdiv
  simp only [ha.2.1, hb.2.1, ha.2.2, hb.2.2, hz, Bool.or_self, Bool.false_eq_true, if_false]
  rw [e]
  obtain ⟨h4, h5⟩ := rnd_fin he (xor (sgn a) (sgn b)) (ru_no_over he h)
  exact ⟨h4, by unfold rv at h5 ⊢; rw [h5]⟩

theorem fin_unb {F : Fmt} (he : 2 ≤ F.e) {a : Val} (ha : Fin' F a) : ∃ w : ℚ, Unbounded F w ∧ rv a = (w : ℝ) := by
  obtain ⟨h1, h2, h3⟩ := ha
  have z : Unbounded F 0 := ⟨0, F.emin, by simp, le_rfl, by simp⟩
  cases a with
  | plusZero => exact ⟨0, z, by simp [rv, numOf]⟩
  | minusZero => exact ⟨0, z, by simp [rv, numOf]⟩
  | num v => exact ⟨v, ((finite_iff he).1 h1.1).1, rfl⟩
  | plusInf => simp [isInf] at h3
  | minusInf => simp [isInf] at h3
  | qNaN => simp [isNaN] at h2
  | sNaN => simp [isNaN] at h2

theorem between {r : Val} {p : EReal} {L U : ℝ} (hv : value r = some p) (h1 : (L : EReal) ≤ p) (h2 : p ≤ (U : EReal)) :
    isNaN r = false ∧ isInf r = false ∧ L ≤ rv r ∧ rv r ≤ U := by
  cases r with
  | plusInf => simp only [value, Option.some.injEq] at hv; subst hv; exact absurd h2 (not_le.2 (EReal.coe_lt_top _))
  | minusInf => simp only [value, Option.some.injEq] at hv; subst hv; exact absurd h1 (not_le.2 (EReal.bot_lt_coe _))
  | qNaN => simp [value] at hv
  | sNaN => simp [value] at hv
  | plusZero =>
    simp only [value, Option.some.injEq] at hv; subst hv
    rw [← EReal.coe_zero, EReal.coe_le_coe_iff] at h1 h2
    exact ⟨rfl, rfl, by simpa [rv, numOf] using h1, by simpa [rv, numOf] using h2⟩
  | minusZero =>
    simp only [value, Option.some.injEq] at hv; subst hv
    rw [← EReal.coe_zero, EReal.coe_le_coe_iff] at h1 h2
    exact ⟨rfl, rfl, by simpa [rv, numOf] using h1, by simpa [rv, numOf] using h2⟩
  | num v =>
    simp only [value, Option.some.injEq] at hv; subst hv
    rw [EReal.coe_le_coe_iff] at h1 h2
    exact ⟨rfl, rfl, h1, h2⟩

/-- a faithful result is within one unit in the last place -/
theorem faithful_rel {F : Fmt} (he : 2 ≤ F.e) {x : ℝ} (h1 : (2 : ℝ) ^ F.emin ≤ x) (h2 : x < (2 : ℝ) ^ F.emax) {r : Val} (hd : F.Datum r)
    (h : Faithful F x r) : Fin' F r ∧ (2 : ℝ) ^ F.emin ≤ rv r ∧ |rv r - x| ≤ (2 : ℝ) ^ (-(F.f : ℤ)) * x := by
  have hx : 0 < x := lt_of_lt_of_le (r2 _) h1
  obtain ⟨E, e1, e2⟩ := binade hx
  have hE1 : F.emin ≤ E := by have := r2lt' (lt_of_le_of_lt h1 e2); omega
  have hE2 : E < F.emax := r2lt' (lt_of_le_of_lt e1 h2)
  have hp := r2 (E - F.f)
  obtain ⟨n, hn⟩ : ∃ n, n = ⌊x / (2 : ℝ) ^ (E - F.f)⌋ := ⟨_, rfl⟩
  have n1 : (n : ℝ) * (2 : ℝ) ^ (E - F.f) ≤ x := by
    rw [← le_div_iff₀ hp, hn]; exact Int.floor_le _
  have n2 : x ≤ ((n + 1 : ℤ) : ℝ) * (2 : ℝ) ^ (E - F.f) := by
    rw [← div_le_iff₀ hp, hn]; push_cast; exact (Int.lt_floor_add_one _).le
  have pw : (2 : ℝ) ^ E = (2 : ℝ) ^ F.f * (2 : ℝ) ^ (E - F.f) := by
    rw [← zpow_natCast, ← r2add]; congr 1; ring
  have n3 : (2 : ℤ) ^ F.f ≤ n := by
    rw [hn, Int.le_floor, le_div_iff₀ hp]; push_cast; rw [← pw]; exact e1
  have n4 : n < (2 : ℤ) ^ (F.f + 1) := by
    rw [hn, Int.floor_lt, div_lt_iff₀ hp]; push_cast; rw [pow_succ, mul_assoc, mul_comm (2 : ℝ) ((2 : ℝ) ^ (E - F.f)), ← mul_assoc, ← pw]
    rw [r2add, zpow_one] at e2; exact e2
  have p0 : (1 : ℤ) ≤ 2 ^ F.f := one_le_pow₀ (by norm_num)
  have up : (2 : ℚ) ^ (E + 1) ≤ (2 : ℚ) ^ F.emax := zpow_le_zpow_right₀ (by norm_num) (by omega)
  have pq : (2 : ℚ) ^ (E + 1) = 2 ^ (F.f + 1) * (2 : ℚ) ^ (E - F.f) := by
    rw [← zpow_natCast, ← zpow_add₀ (by norm_num)]; congr 1; push_cast; ring
  have hpq : (0 : ℚ) < (2 : ℚ) ^ (E - F.f) := zpow_pos (by norm_num) _
  have dat : ∀ k : ℤ, 2 ^ F.f ≤ k → k ≤ 2 ^ (F.f + 1) → F.Datum (.num (k * (2 : ℚ) ^ (E - F.f))) := by
    intro k k1 k2
    have k0 : (0 : ℚ) < k := by exact_mod_cast lt_of_lt_of_le (by omega : (0 : ℤ) < 2 ^ F.f) k1
    refine ⟨(finite_iff he).2 ⟨?_, ?_⟩, (mul_pos k0 hpq).ne'⟩
    · rcases k2.lt_or_eq with k2 | k2
      · exact ⟨k, E, by rw [abs_of_pos (by omega)]; exact k2, hE1, rfl⟩
      · rw [k2]
        push_cast
        rw [← pq]
        exact unb_pow (by omega)
    · rw [abs_of_pos (mul_pos k0 hpq)]
      refine le_trans ?_ (omega_ge he)
      refine le_trans ?_ up
      rw [pq]
      have : (k : ℚ) ≤ 2 ^ (F.f + 1) := by exact_mod_cast k2
      exact mul_le_mul_of_nonneg_right this hpq.le
  have ulp : (2 : ℝ) ^ (E - F.f) ≤ (2 : ℝ) ^ (-(F.f : ℤ)) * x := by
    rw [show E - (F.f : ℤ) = -(F.f : ℤ) + E by ring, r2add]
    exact mul_le_mul_of_nonneg_left e1 (r2 _).le
  have lo : (2 : ℝ) ^ F.emin ≤ n * (2 : ℝ) ^ (E - F.f) := by
    refine le_trans (r2le hE1) ?_
    rw [pw]
    have : (2 : ℝ) ^ F.f ≤ n := by exact_mod_cast n3
    exact mul_le_mul_of_nonneg_right this hp.le
  have ca : ∀ k : ℤ, (((k * (2 : ℚ) ^ (E - F.f) : ℚ) : ℝ)) = k * (2 : ℝ) ^ (E - F.f) := by intro k; push_cast; rfl
  push_cast at n2
  obtain ⟨p, hv, ⟨a1, a2⟩ | ⟨a1, a2⟩⟩ := h
  · have hw := a2 _ _ (dat n n3 n4.le) rfl (by rw [EReal.coe_le_coe_iff, ca]; exact n1)
    obtain ⟨b1, b2, b3, b4⟩ := between hv hw a1
    rw [ca] at b3
    refine ⟨⟨hd, b1, b2⟩, le_trans lo b3, ?_⟩
    rw [abs_of_nonpos (by linarith)]
    linarith
  · have hw := a2 _ _ (dat (n + 1) (by omega) (by omega)) rfl (by rw [EReal.coe_le_coe_iff, ca]; push_cast; exact n2)
    obtain ⟨b1, b2, b3, b4⟩ := between hv a1 hw
    rw [ca] at b4
    push_cast at b4
    refine ⟨⟨hd, b1, b2⟩, le_trans h1 b3, ?_⟩
    rw [abs_of_nonneg (by linarith)]
    linarith

/-- the accumulated sum -/
theorem acc_inv {F : Fmt} (he : 2 ≤ F.e) (hf : 1 ≤ F.f) {e : ℕ → Val} {X : ℕ → ℝ} {n : ℕ} (hX : ∀ j, 0 < X j)
    (h : ∀ j, j < n → Fin' F (e j) ∧ (2 : ℝ) ^ F.emin ≤ rv (e j) ∧ |rv (e j) - X j| ≤ (2 : ℝ) ^ (-(F.f : ℤ)) * X j)
    (hS : (∑ j ∈ Finset.range n, X j) * (1 + (2 : ℝ) ^ (-(F.f : ℤ))) ^ (n + 1) ≤ (2 : ℝ) ^ F.emax) :
    ∀ i, i ≤ n → Fin' F (accFp F e i) ∧ 0 ≤ rv (accFp F e i) ∧
      (∑ j ∈ Finset.range i, X j) * (1 - (2 : ℝ) ^ (-(F.f : ℤ))) ^ (i + 1) ≤ rv (accFp F e i) ∧
      rv (accFp F e i) ≤ (∑ j ∈ Finset.range i, X j) * (1 + (2 : ℝ) ^ (-(F.f : ℤ))) ^ (i + 1) ∧ ∀ j, j < i → rv (e j) ≤ rv (accFp F e i) := by
  obtain ⟨ε, hε⟩ : ∃ ε, ε = (2 : ℝ) ^ (-(F.f : ℤ)) := ⟨_, rfl⟩
  have hu : uu F = ε / 2 := by unfold uu; rw [hε, zpow_sub₀ (by norm_num), zpow_one]
  have ε0 : 0 < ε := hε ▸ r2 _
  have ε1 : ε ≤ 1 / 2 := by
    rw [hε]
    refine le_trans (r2le (show -(F.f : ℤ) ≤ -1 by omega)) (by norm_num)
  rw [← hε] at h hS ⊢
  intro i
  induction i with
  | zero =>
    intro _
    have z : Fin' F (.plusZero) := by simp [Fin', Fmt.Datum, isNaN, isInf]
    have r0 : rv Val.plusZero = 0 := by simp [rv, numOf]
    refine ⟨z, by simp [accFp, r0], by simp [accFp, r0], by simp [accFp, r0], fun j hj => absurd hj (by omega)⟩
  | succ i ih =>
    intro hi
    obtain ⟨a1, a2, a3, a4, a5⟩ := ih (by omega)
    obtain ⟨b1, b2, b3⟩ := h i (by omega)
    obtain ⟨c1, c2⟩ := abs_le.1 b3
    obtain ⟨S, hSi⟩ : ∃ S, S = ∑ j ∈ Finset.range i, X j := ⟨_, rfl⟩
    have S0 : 0 ≤ S := by rw [hSi]; exact Finset.sum_nonneg fun j _ => (hX j).le
    have hsum : ∑ j ∈ Finset.range (i + 1), X j = S + X i := by rw [Finset.sum_range_succ, hSi]
    rw [← hSi] at a3 a4
    have hmono : S + X i ≤ ∑ j ∈ Finset.range n, X j := by
      rw [← hsum]
      exact Finset.sum_le_sum_of_subset_of_nonneg (Finset.range_mono hi) fun j _ _ => (hX j).le
    have q1 : (1 : ℝ) ≤ (1 + ε) ^ i := one_le_pow₀ (by linarith)
    have q2 : (1 - ε) ^ i ≤ 1 := pow_le_one₀ (by linarith) (by linarith)
    have q3 : (0 : ℝ) ≤ (1 - ε) ^ i := pow_nonneg (by linarith) _
    have q4 : (1 + ε) ^ (i + 1) ≤ (1 + ε) ^ (n + 1) := pow_le_pow_right₀ (by linarith) (by omega)
    have up : rv (accFp F e i) + rv (e i) ≤ (S + X i) * (1 + ε) ^ (i + 1) := by
      have : X i * (1 + ε) ≤ X i * (1 + ε) ^ (i + 1) := by
        rw [pow_succ]
        have := mul_le_mul_of_nonneg_right q1 (show 0 ≤ X i * (1 + ε) by have := hX i; positivity)
        nlinarith
      nlinarith
    have dn : (S + X i) * (1 - ε) ^ (i + 1) ≤ rv (accFp F e i) + rv (e i) := by
      have : X i * (1 - ε) ^ (i + 1) ≤ X i * (1 - ε) := by
        rw [pow_succ]
        have := mul_le_mul_of_nonneg_right q2 (show 0 ≤ X i * (1 - ε) from mul_nonneg (hX i).le (by linarith))
        nlinarith
      nlinarith
    have e0 : 0 < rv (e i) := lt_of_lt_of_le (r2 _) b2
    have z0 : 0 < rv (accFp F e i) + rv (e i) := by linarith
    have zM : rv (accFp F e i) + rv (e i) ≤ (2 : ℝ) ^ F.emax := by
      refine le_trans up (le_trans ?_ hS)
      exact mul_le_mul hmono q4 (by positivity) (by have := hX i; linarith)
    obtain ⟨d1, d2⟩ := fadd_val he a1 b1 (by rw [abs_of_pos z0]; exact zM)
    have d3 := ru_norm (F := F) (z := rv (accFp F e i) + rv (e i)) (by linarith)
    rw [hu] at d3
    obtain ⟨d4, d5⟩ := abs_le.1 d3
    obtain ⟨wa, ua, ea⟩ := fin_unb he a1
    obtain ⟨we, ue, ee'⟩ := fin_unb he b1
    have ga : rv (accFp F e i) ≤ roundUnb F .RN (rv (accFp F e i) + rv (e i)) := by
      rw [ea]; exact ru_between_ge ua (by rw [← ea]; linarith)
    have ge : rv (e i) ≤ roundUnb F .RN (rv (accFp F e i) + rv (e i)) := by
      rw [ee']; exact ru_between_ge ue (by rw [← ee']; linarith)
    show Fin' F (fadd F (accFp F e i) (e i)) ∧ 0 ≤ rv (fadd F (accFp F e i) (e i)) ∧ _ ≤ rv (fadd F (accFp F e i) (e i)) ∧
      rv (fadd F (accFp F e i) (e i)) ≤ _ ∧ ∀ j, j < i + 1 → rv (e j) ≤ rv (fadd F (accFp F e i) (e i))
    rw [d2, hsum]
    refine ⟨d1, by linarith, ?_, ?_, ?_⟩
    · rw [pow_succ]
      have := mul_le_mul_of_nonneg_right dn (show 0 ≤ 1 - ε by linarith)
      nlinarith
    · rw [pow_succ]
      have := mul_le_mul_of_nonneg_right up (show 0 ≤ 1 + ε by linarith)
      nlinarith
    · intro j hj
      rcases Nat.lt_succ_iff_lt_or_eq.1 hj with hj | hj
      · exact le_trans (a5 j hj) ga
      · rw [hj]; exact ge

theorem foldl_acc (F : Fmt) (g : ℕ → Val) (j : ℕ) : (List.range j).foldl (fun s k => fadd F s (g k)) .plusZero = accFp F g j := by
  induction j with
  | zero => rfl
  | succ j ih => rw [List.range_succ, List.foldl_append, ih]; rfl

theorem product {X S ε lo hi A e R : ℝ} (X0 : 0 < X) (S0 : 0 < S) (ε0 : 0 < ε) (ε1 : ε ≤ 1 / 2) (lo0 : 0 < lo) (hi0 : 0 < hi) (A0 : 0 < A) (e0 : 0 < e)
    (a3 : S * lo ≤ A) (a4 : A ≤ S * hi) (b6 : X * (1 - ε) ≤ e) (b7 : e ≤ X * (1 + ε)) (b5 : e ≤ A)
    (c4 : -(ε / 2 * (1 / A)) ≤ R - 1 / A) (c5 : R - 1 / A ≤ ε / 2 * (1 / A)) :
    0 < R ∧ X / S * ((1 - ε) ^ 2 / hi) ≤ e * R ∧ e * R ≤ X / S * ((1 + ε) ^ 2 / lo) ∧ e * R ≤ 2 := by
  have iv0 : 0 < 1 / A := by positivity
  have R1 : (1 - ε) * (1 / A) ≤ R := by nlinarith
  have R2 : R ≤ (1 + ε / 2) * (1 / A) := by nlinarith
  have R0 : 0 < R := lt_of_lt_of_le (mul_pos (by linarith) iv0) R1
  have lowA : 1 / (S * hi) ≤ 1 / A := one_div_le_one_div_of_le A0 a4
  have upA : 1 / A ≤ 1 / (S * lo) := one_div_le_one_div_of_le (by positivity) a3
  refine ⟨R0, ?_, ?_, ?_⟩
  · have e1 : X / S * ((1 - ε) ^ 2 / hi) = (X * (1 - ε)) * ((1 - ε) * (1 / (S * hi))) := by field_simp
    rw [e1]
    refine mul_le_mul b6 (le_trans (mul_le_mul_of_nonneg_left lowA (by linarith)) R1) ?_ e0.le
    exact mul_nonneg (by linarith) (by positivity)
  · have e1 : X / S * ((1 + ε) ^ 2 / lo) = (X * (1 + ε)) * ((1 + ε) * (1 / (S * lo))) := by field_simp
    rw [e1]
    refine mul_le_mul b7 (le_trans R2 ?_) R0.le (by positivity)
    exact mul_le_mul (by linarith) upA iv0.le (by linarith)
  · have : e * R ≤ A * ((1 + ε / 2) * (1 / A)) := mul_le_mul b5 R2 R0.le A0.le
    have e2 : A * ((1 + ε / 2) * (1 / A)) = 1 + ε / 2 := by field_simp
    linarith

/-- **C104**, accuracy: with an exponential faithful on the elements, the results are the softmax up to a factor of `n + 4` roundings at most.
Partial: every exponential and the result are normal numbers, and the sum of the exponentials is below the half of the largest numbers of the format;
see `C104_overflow_wrong` and `C104_underflow_wrong` for what happens otherwise. -/
theorem C104_error_partial {F : Fmt} (he : 2 ≤ F.e) (hf : 1 ≤ F.f) (E : Val → Val) (dst src n : ℕ) (hn : n < 4294967296) (ho : NoOverrun dst src n)
    (m : Mem Val) (x : ℕ → ℝ) (hE : ∀ k, k < n → F.Datum (E (m (src + k))) ∧ Faithful F (Real.exp (x k)) (E (m (src + k))))
    (h1 : ∀ k, k < n → (2 : ℝ) ^ F.emin ≤ Real.exp (x k))
    (hS : (∑ j ∈ Finset.range n, Real.exp (x j)) * (1 + (2 : ℝ) ^ (-(F.f : ℤ))) ^ (n + 1) ≤ (2 : ℝ) ^ (F.emax - 1)) (fuel : ℕ) (hfu : n < fuel) :
    ∃ m', softmaxFn F E dst src n fuel m = some m' ∧ (∀ a, a < dst ∨ dst + n ≤ a → m' a = m a) ∧
      ∀ k, k < n → (2 : ℝ) ^ F.emin ≤ softmax n x k * ((1 - (2 : ℝ) ^ (-(F.f : ℤ))) ^ 2 / (1 + (2 : ℝ) ^ (-(F.f : ℤ))) ^ (n + 1)) →
        ∃ y, IsReal F (m' (dst + k)) y ∧
          softmax n x k * ((1 - (2 : ℝ) ^ (-(F.f : ℤ))) ^ 3 / (1 + (2 : ℝ) ^ (-(F.f : ℤ))) ^ (n + 1)) ≤ y ∧
          y ≤ softmax n x k * ((1 + (2 : ℝ) ^ (-(F.f : ℤ))) ^ 3 / (1 - (2 : ℝ) ^ (-(F.f : ℤ))) ^ (n + 1)) := by
  obtain ⟨m', g1, g2⟩ := C104_loops F E dst src n hn ho m fuel hfu
  refine ⟨m', g1, g2.2, ?_⟩
  intro k hk hmin
  rw [g2.1 k hk]
  dsimp only
  rw [foldl_acc]
  have emx := emax_pos he
  have emn : F.emin = 1 - F.emax := rfl
  obtain ⟨S, hSd⟩ : ∃ S, S = ∑ j ∈ Finset.range n, Real.exp (x j) := ⟨_, rfl⟩
  have hS' : S * (1 + (2 : ℝ) ^ (-(F.f : ℤ))) ^ (n + 1) ≤ (2 : ℝ) ^ F.emax := by
    rw [hSd]; exact le_trans hS (r2le (by omega))
  have XS : ∀ j, j < n → Real.exp (x j) ≤ S := by
    intro j hj
    rw [hSd]
    exact Finset.single_le_sum (f := fun j => Real.exp (x j)) (fun i _ => (Real.exp_pos _).le) (Finset.mem_range.2 hj)
  have S0 : 0 < S := lt_of_lt_of_le (Real.exp_pos _) (XS k hk)
  have hep := r2 (-(F.f : ℤ))
  have one : (1 : ℝ) ≤ (1 + (2 : ℝ) ^ (-(F.f : ℤ))) ^ (n + 1) := one_le_pow₀ (by linarith)
  have Slt : S < (2 : ℝ) ^ F.emax := by
    have : S * 1 ≤ (2 : ℝ) ^ (F.emax - 1) := by
      refine le_trans (mul_le_mul_of_nonneg_left one S0.le) ?_
      rw [hSd]; exact hS
    have h2 := r2lt (show F.emax - 1 < F.emax by omega)
    linarith
  have hrel : ∀ j, j < n → _ := fun j hj => faithful_rel he (h1 j hj) (lt_of_le_of_lt (XS j hj) Slt) (hE j hj).1 (hE j hj).2
  obtain ⟨a1, a2, a3, a4, a5⟩ := acc_inv he hf (e := fun k => E (m (src + k))) (X := fun j => Real.exp (x j)) (fun j => Real.exp_pos _) hrel
    (by rw [← hSd]; exact hS') n le_rfl
  have sm : softmax n x k = Real.exp (x k) / S := by rw [softmax, hSd]
  rw [← hSd] at a3 a4 hS
  rw [sm] at hmin ⊢
  obtain ⟨b1, b2, b3⟩ := hrel k hk
  have b5 := a5 k hk
  obtain ⟨A, hA⟩ : ∃ A, A = accFp F (fun k => E (m (src + k))) n := ⟨_, rfl⟩
  rw [← hA] at a1 a2 a3 a4 b5 ⊢
  obtain ⟨e, he'⟩ : ∃ e, e = E (m (src + k)) := ⟨_, rfl⟩
  rw [← he'] at b1 b2 b3 b5 ⊢
  obtain ⟨X, hX⟩ : ∃ X, X = Real.exp (x k) := ⟨_, rfl⟩
  have X0 : 0 < X := hX ▸ Real.exp_pos _
  rw [← hX] at b3 hmin ⊢
  obtain ⟨ε, hε⟩ : ∃ ε, ε = (2 : ℝ) ^ (-(F.f : ℤ)) := ⟨_, rfl⟩
  have hu : uu F = ε / 2 := by unfold uu; rw [hε, zpow_sub₀ (by norm_num), zpow_one]
  have ε0 : 0 < ε := hε ▸ r2 _
  have ε1 : ε ≤ 1 / 2 := by
    rw [hε]
    refine le_trans (r2le (show -(F.f : ℤ) ≤ -1 by omega)) (by norm_num)
  rw [← hε] at a3 a4 b3 hS hmin ⊢
  obtain ⟨lo, hlo⟩ : ∃ lo, lo = (1 - ε) ^ (n + 1) := ⟨_, rfl⟩
  obtain ⟨hi, hhi⟩ : ∃ hi, hi = (1 + ε) ^ (n + 1) := ⟨_, rfl⟩
  have lo0 : 0 < lo := by rw [hlo]; exact pow_pos (by linarith) _
  have hi0 : 0 < hi := by rw [hhi]; exact pow_pos (by linarith) _
  rw [← hlo] at a3 ⊢
  rw [← hhi] at a4 hS hmin ⊢
  have pm := r2 F.emin
  have A0 : 0 < rv A := by linarith
  have n1 : rv (Val.num 1) = 1 := by simp [rv, numOf]
  have f1 : Fin' F (.num 1) := by
    refine ⟨⟨(finite_iff he).2 ⟨?_, ?_⟩, one_ne_zero⟩, rfl, rfl⟩
    · have := unb_pow (F := F) (k := 0) (by omega)
      simpa using this
    · rw [abs_one]
      refine le_trans ?_ (omega_ge he)
      exact one_le_zpow₀ (by norm_num) (by omega)
  -- the reciprocal
  have iv1 : (2 : ℝ) ^ F.emin ≤ 1 / rv A := by
    rw [le_div_iff₀ A0]
    refine le_trans (mul_le_mul_of_nonneg_left (le_trans a4 hS) pm.le) ?_
    rw [← r2add, emn, show 1 - F.emax + (F.emax - 1) = 0 by ring, zpow_zero]
  have iv2 : 1 / rv A ≤ (2 : ℝ) ^ F.emax := by
    rw [div_le_iff₀ A0]
    have : (1 : ℝ) ≤ (2 : ℝ) ^ F.emax * (2 : ℝ) ^ F.emin := by
      rw [← r2add]; exact one_le_zpow₀ (by norm_num) (by omega)
    refine le_trans this (mul_le_mul_of_nonneg_left (by linarith) (r2 _).le)
  have iv0 : 0 < 1 / rv A := by positivity
  obtain ⟨c1, c2⟩ := fdiv_val he f1 a1 A0.ne' (by rw [n1, abs_of_pos iv0]; exact iv2)
  rw [n1] at c2
  have c3 := ru_norm (F := F) iv1
  rw [hu, ← c2] at c3
  obtain ⟨c4, c5⟩ := abs_le.1 c3
  obtain ⟨R, hR⟩ : ∃ R, R = fdiv F (.num 1) A := ⟨_, rfl⟩
  rw [← hR] at c1 c4 c5 ⊢
  obtain ⟨b6, b7⟩ := abs_le.1 b3
  have e0 : 0 < rv e := by linarith only [b2, pm]
  obtain ⟨R0, p1, p2, p3⟩ := product X0 S0 ε0 ε1 lo0 hi0 A0 e0 a3 a4 (by linarith only [b6]) (by linarith only [b7]) b5 c4 c5
  have p0 : 0 < rv e * rv R := mul_pos e0 R0
  have two : (2 : ℝ) ≤ (2 : ℝ) ^ F.emax := by
    have := r2le emx
    rwa [zpow_one] at this
  obtain ⟨d1, d2⟩ := fmul_val he b1 c1 (by rw [abs_of_pos p0]; linarith)
  have d3 := ru_norm (F := F) (z := rv e * rv R) (le_trans hmin p1)
  rw [hu, ← d2] at d3
  obtain ⟨d4, d5⟩ := abs_le.1 d3
  refine ⟨_, isReal_rv.2 ⟨d1, rfl⟩, ?_, ?_⟩
  · have e1 : X / S * ((1 - ε) ^ 3 / hi) = X / S * ((1 - ε) ^ 2 / hi) * (1 - ε) := by ring
    rw [e1]
    have := mul_le_mul_of_nonneg_right p1 (show 0 ≤ 1 - ε by linarith)
    nlinarith only [this, d4, d5, p0, ε0]
  · have e1 : X / S * ((1 + ε) ^ 3 / lo) = X / S * ((1 + ε) ^ 2 / lo) * (1 + ε) := by ring
    rw [e1]
    have := mul_le_mul_of_nonneg_right p2 (show 0 ≤ 1 + ε by linarith)
    nlinarith only [this, d4, d5, p0, ε0]

theorem rnd_datum {F : Fmt} (he : 2 ≤ F.e) (s : Bool) (x : ℝ) : F.Datum (rnd F s x) := by
  unfold rnd
  split_ifs with a b c
  · cases s <;> simp [zeroS, Fmt.Datum]
  · by_cases h2 : x < 0 <;> simp [zeroS, h2, Fmt.Datum]
  · exact ⟨(finite_iff he).2 ⟨roundUnb_unb F _ x, c⟩, b⟩
  · by_cases h2 : x < 0 <;> simp [infS, h2, Fmt.Datum]

theorem fmul_datum {F : Fmt} (he : 2 ≤ F.e) (a b : Val) : F.Datum (fmul F a b) := by
  unfold fmul
  split_ifs
  · trivial
  · trivial
  · cases (sgn a ^^ sgn b) <;> simp [infS, Fmt.Datum]
  · exact rnd_datum he _ _

theorem exp_datum {F : Fmt} (he : 2 ≤ F.e) (E : Val → Val → Val) (a : Val) : F.Datum (expModel F E a) := by
  unfold expModel expStd expResult
  dsimp only
  split_ifs <;> first | trivial | exact fmul_datum he _ _

/-- **C104** with the exponential metalibm generates (C77). -/
theorem C104_error_exp_partial {F : Fmt} (h1 : 2 * F.e + 7 ≤ F.f) (h2 : 2 * (F.f : ℤ) + 2 ≤ F.emax) (he : 2 ≤ F.e) (P : Val → Val)
    (hP : ∀ a x, IsReal F a x → |x| ≤ 9 / 25 → ∃ q, IsReal F (P a) q ∧ |q - (Real.exp x - 1 - x)| ≤ (2 : ℝ) ^ (-(F.f : ℤ) - 5))
    (dst src n : ℕ) (hn : n < 4294967296) (ho : NoOverrun dst src n) (m : Mem Val) (x : ℕ → ℝ) (hx : ∀ k, k < n → IsReal F (m (src + k)) (x k))
    (hmin : ∀ k, k < n → (2 : ℝ) ^ F.emin ≤ Real.exp (x k))
    (hS : (∑ j ∈ Finset.range n, Real.exp (x j)) * (1 + (2 : ℝ) ^ (-(F.f : ℤ))) ^ (n + 1) ≤ (2 : ℝ) ^ (F.emax - 1)) :
    ∃ m', softmaxFn F (expModel F (expPoly F P)) dst src n (n + 1) m = some m' ∧
      ∀ k, k < n → (2 : ℝ) ^ F.emin ≤ softmax n x k * ((1 - (2 : ℝ) ^ (-(F.f : ℤ))) ^ 2 / (1 + (2 : ℝ) ^ (-(F.f : ℤ))) ^ (n + 1)) →
        ∃ y, IsReal F (m' (dst + k)) y ∧
          softmax n x k * ((1 - (2 : ℝ) ^ (-(F.f : ℤ))) ^ 3 / (1 + (2 : ℝ) ^ (-(F.f : ℤ))) ^ (n + 1)) ≤ y ∧
          y ≤ softmax n x k * ((1 + (2 : ℝ) ^ (-(F.f : ℤ))) ^ 3 / (1 - (2 : ℝ) ^ (-(F.f : ℤ))) ^ (n + 1)) := by
  obtain ⟨m', g1, _, g2⟩ := C104_error_partial he (by omega) (expModel F (expPoly F P)) dst src n hn ho m x
    (fun k hk => ⟨exp_datum he _ _, C77_exp_poly_faithful F h1 h2 P hP _ _ (hx k hk)⟩) hmin hS (n + 1) (by omega)
  exact ⟨m', g1, g2⟩

/-! ### Sums out of range -/

/-- not a NaN, not negative -/
def Pos (a : Val) : Prop := a = .plusInf ∨ (isNaN a = false ∧ isInf a = false ∧ 0 ≤ numOf a)

theorem rnd_pos {F : Fmt} (s : Bool) {x : ℝ} (h : 0 ≤ x) : Pos (rnd F s x) := by
  have h' : ¬ x < 0 := not_lt.2 h
  unfold rnd
  split_ifs with a b c
  · right; cases s <;> simp [zeroS, isNaN, isInf, numOf]
  · right; simp [zeroS, h', isNaN, isInf, numOf]
  · right
    refine ⟨rfl, rfl, ?_⟩
    have : (0 : ℝ) ≤ roundUnb F .RN x := ru_pos_sign (lt_of_le_of_ne h (Ne.symm a))
    simpa [numOf] using this
  · left; simp [infS, h']

theorem fadd_pos {F : Fmt} {a b : Val} (ha : Pos a) (hb : Pos b) : Pos (fadd F a b) ∧ (a = .plusInf ∨ b = .plusInf → fadd F a b = .plusInf) := by
  rcases ha with rfl | ⟨a1, a2, a3⟩
  · rcases hb with rfl | ⟨b1, b2, b3⟩
    · simp [fadd, isNaN, isInf, sgn, Pos]
    · have : fadd F .plusInf b = .plusInf := by
        unfold fadd
        rw [b1, b2]
        simp [isNaN, isInf]
      exact ⟨Or.inl this, fun _ => this⟩
  · rcases hb with rfl | ⟨b1, b2, b3⟩
    · have : fadd F a .plusInf = .plusInf := by
        unfold fadd
        rw [a1, a2]
        simp [isNaN, isInf]
      exact ⟨Or.inl this, fun _ => this⟩
    · constructor
      · unfold fadd
        simp only [a1, b1, a2, b2, Bool.or_self, Bool.false_eq_true, if_false]
        exact rnd_pos _ (by exact_mod_cast add_nonneg a3 b3)
      · rintro (rfl | rfl)
        · simp [isInf] at a2
        · simp [isInf] at b2

theorem acc_inf {F : Fmt} {e : ℕ → Val} {n : ℕ} (h : ∀ j, j < n → Pos (e j)) :
    ∀ i, i ≤ n → Pos (accFp F e i) ∧ ∀ j, j < i → e j = .plusInf → accFp F e i = .plusInf := by
  intro i
  induction i with
  | zero => exact fun _ => ⟨Or.inr ⟨rfl, rfl, by simp [accFp, numOf]⟩, fun j hj => absurd hj (by omega)⟩
  | succ i ih =>
    intro hi
    obtain ⟨a1, a2⟩ := ih (by omega)
    obtain ⟨b1, b2⟩ := fadd_pos (F := F) a1 (h i (by omega))
    refine ⟨b1, ?_⟩
    intro j hj he
    apply b2
    rcases Nat.lt_succ_iff_lt_or_eq.1 hj with hj | rfl
    · exact Or.inl (a2 j hj he)
    · exact Or.inr he

/-- **C104 is violated** as soon as one exponential overflows: its element becomes a NaN, though no softmax value exceeds 1. -/
theorem C104_overflow_wrong (F : Fmt) (E : Val → Val) (dst src n : ℕ) (hn : n < 4294967296) (ho : NoOverrun dst src n) (m : Mem Val)
    (hE : ∀ j, j < n → Pos (E (m (src + j)))) (k : ℕ) (hk : k < n) (h : E (m (src + k)) = .plusInf) (fuel : ℕ) (hf : n < fuel) :
    ∃ m', softmaxFn F E dst src n fuel m = some m' ∧ m' (dst + k) = .qNaN := by
  obtain ⟨m', g1, g2⟩ := C104_loops F E dst src n hn ho m fuel hf
  refine ⟨m', g1, ?_⟩
  rw [g2.1 k hk]
  dsimp only
  rw [foldl_acc, (acc_inf (F := F) (e := fun k => E (m (src + k))) hE n le_rfl).2 k hk h, h]
  have o : ¬ ((1 : ℚ) < 0) := by norm_num
  simp [fdiv, fmul, isNaN, isInf, isZero, zeroS, sgn, Special.neg, o]

/-- the softmax of one number is 1; the binary32 function returns a NaN for the array `{100.0f}` -/
theorem C104_overflow_binary32_wrong (P : Val → Val) (m : Mem Val) (dst src : ℕ) (h : m src = .num 100) (ho : NoOverrun dst src 1) :
    IsReal ⟨8, 23⟩ (m src) 100 ∧ softmax 1 (fun _ => 100) 0 = 1 ∧
      ∃ m', softmaxFn ⟨8, 23⟩ (expModel ⟨8, 23⟩ (expPoly ⟨8, 23⟩ P)) dst src 1 2 m = some m' ∧ m' dst = .qNaN := by
  have he : 2 ≤ (⟨8, 23⟩ : Fmt).e := by norm_num
  have fin : ∀ k : ℤ, |k| < 2 ^ 24 → (⟨8, 23⟩ : Fmt).Finite k := by
    intro k hk
    refine ⟨k, 23, by simpa using hk, by norm_num [Fmt.emin, Fmt.emax], by norm_num [Fmt.emax], by norm_num⟩
  have ov : expOver ⟨8, 23⟩ ≤ 90 := by
    unfold expOver
    rw [Int.ceil_le, Real.log_mul (by norm_num) (zpow_ne_zero _ (by norm_num)), Real.log_zpow]
    have := Real.log_two_lt_d9
    norm_num [Fmt.emax]
    linarith
  have ov0 : 80 ≤ expOver ⟨8, 23⟩ := by
    unfold expOver
    rw [Real.log_mul (by norm_num) (zpow_ne_zero _ (by norm_num)), Real.log_zpow]
    have := Real.log_two_gt_d9
    have h2 : ((80 : ℤ) : ℝ) ≤ Real.log 2 + (Fmt.emax ⟨8, 23⟩ : ℝ) * Real.log 2 := by
      norm_num [Fmt.emax]
      linarith
    exact_mod_cast le_trans h2 (Int.le_ceil _)
  have inf : expModel ⟨8, 23⟩ (expPoly ⟨8, 23⟩ P) (.num 100) = .plusInf := by
    unfold expModel
    have c : cst ⟨8, 23⟩ (expOver ⟨8, 23⟩ : ℝ) = .num (expOver ⟨8, 23⟩ : ℚ) := by
      unfold cst
      have := rnd_exact he false (v := (expOver ⟨8, 23⟩ : ℚ)) (fin _ (by rw [abs_lt]; constructor <;> norm_num <;> omega))
        (by have : (0 : ℤ) < expOver ⟨8, 23⟩ := by omega
            exact_mod_cast this.ne')
      simpa using this
    have hlt : (expOver ⟨8, 23⟩ : ℚ) < 100 := by exact_mod_cast lt_of_le_of_lt ov (by norm_num)
    rw [c]
    simp [isInfOrNaN, isNaN, isInf, fgt, flt, cLe, numOf, not_le.2 hlt, hlt.le]
  refine ⟨?_, by simp [softmax], ?_⟩
  · rw [h]
    refine ⟨⟨by have := fin 100 (by norm_num); simpa using this, by norm_num⟩, by simp [value]⟩
  · obtain ⟨m', g1, g2⟩ := C104_overflow_wrong ⟨8, 23⟩ (expModel ⟨8, 23⟩ (expPoly ⟨8, 23⟩ P)) dst src 1 (by norm_num) ho m
      (by
        intro j hj
        have : j = 0 := by omega
        subst this
        rw [Nat.add_zero, h, inf]
        exact Or.inl rfl)
      0 (by omega) (by rw [Nat.add_zero, h, inf]) 2 (by omega)
    exact ⟨m', g1, g2⟩

/-- **C104 is violated** when all the exponentials underflow: the sum is zero and every element becomes a NaN. -/
theorem C104_underflow_wrong (F : Fmt) (E : Val → Val) (dst src n : ℕ) (hn : n < 4294967296) (ho : NoOverrun dst src n) (m : Mem Val)
    (hE : ∀ j, j < n → E (m (src + j)) = .plusZero) (fuel : ℕ) (hf : n < fuel) :
    ∃ m', softmaxFn F E dst src n fuel m = some m' ∧ ∀ k, k < n → m' (dst + k) = .qNaN := by
  obtain ⟨m', g1, g2⟩ := C104_loops F E dst src n hn ho m fuel hf
  refine ⟨m', g1, ?_⟩
  intro k hk
  have z : ∀ i, i ≤ n → accFp F (fun k => E (m (src + k))) i = .plusZero := by
    intro i
    induction i with
    | zero => exact fun _ => rfl
    | succ i ih =>
      intro hi
      rw [accFp, ih (by omega), hE i (by omega)]
      simp [fadd, isNaN, isInf, numOf, sgn, Special.neg, rnd, zeroS]
  rw [g2.1 k hk]
  dsimp only
  rw [foldl_acc, z n le_rfl, hE k hk]
  have o : ¬ ((1 : ℚ) < 0) := by norm_num
  simp [fdiv, fmul, isNaN, isInf, isZero, infS, sgn, Special.neg, o]

/-- two equal elements in binary32: the hypotheses of `C104_error_partial` hold -/
example (m : Mem Val) : ∃ m' y, softmaxFn ⟨8, 23⟩ (fun _ => .num 1) 0 100 2 3 m = some m' ∧ IsReal ⟨8, 23⟩ (m' 1) y ∧ |y - 1 / 2| ≤ 2 ^ (-20 : ℤ) := by
  have hF : Faithful ⟨8, 23⟩ (Real.exp 0) (.num 1) := by
    refine ⟨1, by simp [value], Or.inl ⟨by simp, ?_⟩⟩
    intro w q _ _ hq
    simpa using hq
  have fin : (⟨8, 23⟩ : Fmt).Finite 1 := ⟨1, 23, by norm_num, by norm_num [Fmt.emin, Fmt.emax], by norm_num [Fmt.emax], by norm_num⟩
  have s2 : softmax 2 (fun _ => 0) 1 = 1 / 2 := by simp [softmax]
  obtain ⟨m', g1, _, g2⟩ := C104_error_partial (F := ⟨8, 23⟩) (by norm_num) (by norm_num) (fun _ => .num 1) 0 100 2 (by norm_num) (Or.inl (by norm_num)) m
    (fun _ => 0) (fun _ _ => ⟨⟨fin, one_ne_zero⟩, hF⟩) (by intro k _; norm_num [Fmt.emin, Fmt.emax])
    (by norm_num [Finset.sum_range_succ, Fmt.emax]) 3 (by omega)
  obtain ⟨y, h1, h2, h3⟩ := g2 1 (by omega) (by rw [s2]; norm_num [Fmt.emin, Fmt.emax])
  refine ⟨m', y, g1, by simpa using h1, ?_⟩
  rw [s2] at h2 h3
  norm_num at h2 h3
  rw [abs_le]
  norm_num
  constructor <;> linarith

end Verif.Softmax
