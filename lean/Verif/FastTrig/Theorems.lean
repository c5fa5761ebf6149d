import Verif.FastTrig.Lemmas
import Verif.FixC.Theorems
import Mathlib.Analysis.SpecialFunctions.Trigonometric.Bounds
import Mathlib.Analysis.Real.Pi.Bounds

/-! # The fast sine and cosine (C119) -/

namespace Verif.FastTrig

open Verif.Fixed (Fmt)
open Verif.FixC

/-- The function that is asked for. -/
noncomputable def fn (isCos : Bool) (x : ℝ) : ℝ := if isCos then Real.cos x else Real.sin x

/-- The column of the table that is added without being multiplied. -/
def Tab.main (T : Tab) (isCos : Bool) : List ℤ := if isCos then T.cos else T.sin

theorem val_nat (m : ℕ) (hm : m ≤ 31) (n : ℤ) : val m n = n / 2 ^ (31 - m) := by
  unfold val
  rw [show (m : ℤ) - 31 = -((31 - m : ℕ) : ℤ) by omega, zpow_neg, zpow_natCast, div_eq_mul_inv]

/-- What the function computes for an input in fixed point, whatever the sign of the table value: an integer that is close
to the function, off by the error in the conversion of the table value. -/
theorem fixed_core (isCos : Bool) {m t : ℕ} (hm : 1 ≤ m) (hm' : m ≤ 29) (ht : m + 2 ≤ t) (ht' : t ≤ 31) {T : Tab} (hT : T.Right m t)
    {k : Coefs} {ec es : ℝ} (hk : k.Right (2 ^ m / 2 ^ t) ec es) {n : ℤ} (hn : 0 ≤ n) (hn' : n < 2 ^ 31) :
    ∃ A g : ℤ, (T.main isCos)[(n / 2 ^ (31 - t)).toNat]? = some A ∧ |A| ≤ 2 ^ 30 ∧ |g| < 2 ^ 31 ∧
      |val m g - fn isCos (val m n)| ≤ ec + es + 11 * 2 ^ ((m : ℤ) - 31) ∧
      ∀ A', conv store (comp m) A = some A' → fixedFn isCos m t T k n = some (wrap i32 (g - A / 2 ^ (m - 1) + A')) := by
  obtain ⟨hlow, hidx⟩ := reduction (m := (m : ℤ)) ht' hn hn'
  obtain ⟨i, hi⟩ : ∃ i : ℕ, n / 2 ^ (31 - t) = (i : ℤ) := ⟨(n / 2 ^ (31 - t)).toNat, by
    have : 0 ≤ n / 2 ^ (31 - t) := Int.ediv_nonneg hn (by positivity)
    omega⟩
  obtain ⟨u, hu⟩ : ∃ u, u = n % 2 ^ (31 - t) := ⟨_, rfl⟩
  have hd : (0 : ℤ) < 2 ^ (31 - t) := by positivity
  have hu0 : 0 ≤ u := by rw [hu]; exact Int.emod_nonneg _ hd.ne'
  have hu1 : u < 2 ^ (31 - t) := by rw [hu]; exact Int.emod_lt_of_pos _ hd
  have hsplit : n = 2 ^ (31 - t) * (i : ℤ) + u := by rw [hu, ← hi]; exact (Int.mul_ediv_add_emod n _).symm
  have hKu : 4 * u ≤ 2 ^ (31 - m) := by
    have : (4 : ℤ) * 2 ^ (31 - t) ≤ 2 ^ (31 - m) := by
      rw [show (4 : ℤ) = 2 ^ 2 by norm_num, ← pow_add]
      exact pow_le_pow_right₀ (by norm_num) (by omega)
    linarith
  have hil : i < 2 ^ t := by
    by_contra hc
    push Not at hc
    have h1 : (2 : ℤ) ^ t ≤ i := by exact_mod_cast hc
    have h2 : (2 : ℤ) ^ (31 - t) * 2 ^ t = 2 ^ 31 := by rw [← pow_add]; congr 1; omega
    nlinarith
  obtain ⟨c, hc, hcb, hce⟩ := hT.cos i hil
  obtain ⟨s, hs, hsb, hse⟩ := hT.sin i hil
  have hval : val m n = (i : ℝ) * (2 ^ m / 2 ^ t) + (u : ℝ) / 2 ^ (31 - m) := by
    rw [val_nat m (by omega), hsplit]
    push_cast
    have : (2 : ℝ) ^ (31 - t) * 2 ^ t = 2 ^ (31 - m) * 2 ^ m := by rw [← pow_add, ← pow_add]; congr 1; omega
    field_simp
    linear_combination (i : ℝ) * this
  have hul : (u : ℝ) / 2 ^ (31 - m) ≤ 2 ^ m / 2 ^ t := by
    rw [div_le_div_iff₀ (by positivity) (by positivity)]
    have h1 : (u : ℝ) ≤ 2 ^ (31 - t) := by exact_mod_cast hu1.le
    have : (2 : ℝ) ^ (31 - t) * 2 ^ t = 2 ^ m * 2 ^ (31 - m) := by rw [← pow_add, ← pow_add]; congr 1; omega
    rw [← this]
    gcongr
  have hur : (0 : ℝ) ≤ (u : ℝ) / 2 ^ (31 - m) := div_nonneg (by exact_mod_cast hu0) (by positivity)
  have hcu := hk.cos _ hur hul
  have hsu := hk.sin _ hur hul
  have hexp : (2 : ℝ) ^ ((m : ℤ) - 31) = 1 / 2 ^ (31 - m) := by
    rw [show (m : ℤ) - 31 = -((31 - m : ℕ) : ℤ) by omega, zpow_neg, zpow_natCast, one_div]
  have hidx' : (n / 2 ^ (31 - t)).toNat = i := by rw [hi]; simp
  have hload : ∀ l : List ℤ, load l (i : ℤ) = l[i]? := by intro l; simp [load]
  rw [hidx', hexp]
  cases isCos with
  | true =>
    have hI : Ints (2 ^ (31 - m)) c s k.c2 k.s2 u _ _ _ _ _ _ := ⟨rfl, rfl, rfl, rfl, rfl, rfl⟩
    obtain ⟨hb, he⟩ := core hm hm' hI hcb hsb hk.c2 hk.s2 hu0 hKu (Or.inr rfl : (-1 : ℤ) = 1 ∨ (-1 : ℤ) = -1) (Real.abs_cos_le_one _)
      (Real.abs_sin_le_one _) hce hse hcu hsu
    refine ⟨c, _, hc, hcb, hb, ?_, ?_⟩
    · rw [val_nat m (by omega), hval]
      simp only [fn, if_true, Real.cos_add]
      convert he using 2
      push_cast
      ring
    · intro A' hA'
      have h2 := (schemes hm hm' hI hcb hsb hk.c2 hk.s2 hu0 hKu hA').1
      simp only [fixedFn, hlow, hidx, Option.bind_some, hi, hload, hc, hs, if_true, ← hu]
      rw [h2]
      congr 2
      ring
  | false =>
    have hI : Ints (2 ^ (31 - m)) s c k.c2 k.s2 u _ _ _ _ _ _ := ⟨rfl, rfl, rfl, rfl, rfl, rfl⟩
    obtain ⟨hb, he⟩ := core hm hm' hI hsb hcb hk.c2 hk.s2 hu0 hKu (Or.inl rfl : (1 : ℤ) = 1 ∨ (1 : ℤ) = -1) (Real.abs_sin_le_one _)
      (Real.abs_cos_le_one _) hse hce hcu hsu
    refine ⟨s, _, hs, hsb, hb, ?_, ?_⟩
    · rw [val_nat m (by omega), hval]
      simp only [fn, Bool.false_eq_true, if_false, Real.sin_add]
      convert he using 2
      push_cast
      ring
    · intro A' hA'
      have h2 := (schemes hm hm' hI hsb hcb hk.c2 hk.s2 hu0 hKu hA').2
      simp only [fixedFn, hlow, hidx, Option.bind_some, hi, hload, hc, hs, Bool.false_eq_true, if_false, ← hu]
      rw [h2]
      congr 2
      ring

/-- An input in fixed point: the result is close to the function if the table value is not negative, or the interval ends at 2. -/
theorem fixed_ok (isCos : Bool) {m t : ℕ} (hm : 1 ≤ m) (hm' : m ≤ 29) (ht : m + 2 ≤ t) (ht' : t ≤ 31) {T : Tab} (hT : T.Right m t)
    {k : Coefs} {ec es : ℝ} (hk : k.Right (2 ^ m / 2 ^ t) ec es) {n : ℤ} (hn : 0 ≤ n) (hn' : n < 2 ^ 31)
    (hpos : m = 1 ∨ ∀ A ∈ T.main isCos, 0 ≤ A) :
    ∃ r, fixedFn isCos m t T k n = some r ∧ |val m r - fn isCos (val m n)| ≤ ec + es + 11 * 2 ^ ((m : ℤ) - 31) := by
  obtain ⟨A, g, hA, hAb, hg, he, hr⟩ := fixed_core isCos hm hm' ht ht' hT hk hn hn'
  have hgw : wrap i32 g = g := by
    have := abs_lt.1 hg
    exact wrap32 (by linarith) this.2
  have hAbs := abs_le.1 hAb
  refine ⟨g, ?_, he⟩
  have hconv : conv store (comp m) A = some (A / 2 ^ (m - 1)) := by
    by_cases h1 : m = 1
    · subst h1
      rw [conv_one]
      simp
    · have hA0 : 0 ≤ A := (hpos.resolve_left h1) A (List.mem_of_getElem? hA)
      have hd : (0 : ℤ) < 2 ^ (m - 1) := by positivity
      have hq0 := Int.ediv_nonneg hA0 hd.le
      have hq1 : A / 2 ^ (m - 1) ≤ A := Int.ediv_le_self _ hA0
      rcases conv_more (m := m) (by omega) hm' A with h | h
      · rw [h, Int.emod_eq_of_lt hA0 (by norm_num; linarith), wrap32 (by linarith) (by linarith)]
      · exact absurd (wrap32 (by linarith) (by linarith)) h
  rw [hr _ hconv, sub_add_cancel, hgw]

/-- The input of the fixed-point computation. -/
theorem input {F : Float.Fmt} (he : 1 ≤ F.e) {m : ℕ} (hm : m ≤ 29) {x : ℚ} (hx : 0 ≤ x) (hx' : x + 1 / 2 ^ (31 - m) ≤ 2 ^ m)
    (hF : F.Finite ((2 : ℚ) ^ (31 - (m : ℤ)) * x)) :
    ∃ n : ℤ, fromFp F (comp m) x = some n ∧ 0 ≤ n ∧ n < 2 ^ 31 ∧ |(n : ℚ) / 2 ^ (31 - m) - x| ≤ 1 / 2 / 2 ^ (31 - m) := by
  have hz : (2 : ℚ) ^ (31 - (m : ℤ)) = 2 ^ (31 - m) := by
    rw [show (31 - (m : ℤ)) = ((31 - m : ℕ) : ℤ) by omega, zpow_natCast]
  rw [hz] at hF
  obtain ⟨K, hK⟩ : ∃ K : ℚ, K = 2 ^ (31 - m) := ⟨_, rfl⟩
  have hK0 : 0 < K := by rw [hK]; positivity
  have hKm : K * 2 ^ m = 2 ^ 31 := by rw [hK, ← pow_add]; congr 1; omega
  rw [← hK] at hF hx' ⊢
  obtain ⟨y, hy⟩ : ∃ y, y = K * x := ⟨_, rfl⟩
  rw [← hy] at hF
  have hy0 : 0 ≤ y := by rw [hy]; positivity
  have hy1 : y + 1 ≤ 2 ^ 31 := by
    have : K * (x + 1 / K) ≤ K * 2 ^ m := mul_le_mul_of_nonneg_left hx' hK0.le
    rw [hKm, mul_add, mul_one_div_cancel hK0.ne'] at this
    linarith
  have h1 : ((⌊y⌋ : ℤ) : ℚ) ≤ y := Int.floor_le _
  have h2 : y < (⌊y⌋ : ℤ) + 1 := Int.lt_floor_add_one _
  have h3 : 0 ≤ ⌊y⌋ := Int.floor_nonneg.2 hy0
  have hr : |((Float.rne y : ℤ) : ℚ) - y| ≤ 1 / 2 ∧ ⌊y⌋ ≤ Float.rne y ∧ Float.rne y ≤ ⌊y⌋ + 1 := by
    unfold Float.rne
    simp only
    split_ifs <;> (refine ⟨?_, by omega, by omega⟩; rw [abs_le]; push_cast; constructor <;> linarith)
  have h4 : (⌊y⌋ : ℤ) + 1 ≤ 2 ^ 31 := by
    have : ((⌊y⌋ : ℤ) : ℚ) + 1 ≤ 2 ^ 31 := by linarith
    exact_mod_cast this
  have h5 : Float.rne y < 2 ^ 31 := by
    rcases lt_or_eq_of_le (le_trans hr.2.2 h4) with h | h
    · exact h
    · exfalso
      have e1 : ⌊y⌋ = 2 ^ 31 - 1 := by omega
      have e2 : y = 2 ^ 31 - 1 := by
        have : ((⌊y⌋ : ℤ) : ℚ) = 2 ^ 31 - 1 := by rw [e1]; norm_num
        linarith
      have := abs_le.1 hr.1
      rw [h, e2] at this
      norm_num at this
  refine ⟨Float.rne y, ?_, by omega, h5, ?_⟩
  · have hfrac : (2 : ℚ) ^ (comp m).frac * x = y := by rw [hy, hK, ← hz]; rfl
    simp only [fromFp, hfrac, Float.rnd_finite he hF, Option.bind_some, support31 (comp_bits _) rfl, Option.map_some]
    rw [wrap32 (by omega) h5]
  · have : ((Float.rne y : ℤ) : ℚ) / K - x = (((Float.rne y : ℤ) : ℚ) - y) / K := by rw [hy]; field_simp
    rw [this, abs_div, abs_of_pos hK0]
    gcongr
    exact hr.1

theorem fn_lipschitz (isCos : Bool) (x y : ℝ) : |fn isCos x - fn isCos y| ≤ |x - y| := by
  cases isCos with
  | true => exact Real.abs_cos_sub_cos_le x y
  | false => exact Real.abs_sin_sub_sin_le x y

/-- **The result.** For every table size, every interval `[0, 2 ^ m]`, and every input of the interval but its last unit, the
fixed-point result is within the two approximation errors and 12 units of the function: if the interval ends at 2, or no value
of the table is negative. Missing: intervals with negative values in the table, negative inputs, small intervals; see below.
The conversion of the result to floating point is C68. -/
theorem C119_accuracy_partial (isCos : Bool) {F : Float.Fmt} (hF : 1 ≤ F.e) {m t : ℕ} (hm : 1 ≤ m) (hm' : m ≤ 29) (ht : m + 2 ≤ t)
    (ht' : t ≤ 31) {T : Tab} (hT : T.Right m t) {k : Coefs} {ec es : ℝ} (hk : k.Right (2 ^ m / 2 ^ t) ec es)
    (hpos : m = 1 ∨ ∀ A ∈ T.main isCos, 0 ≤ A) {x : ℚ} (hx : 0 ≤ x) (hx' : x + 1 / 2 ^ (31 - m) ≤ 2 ^ m)
    (hxF : F.Finite ((2 : ℚ) ^ (31 - (m : ℤ)) * x)) :
    ∃ r, fast isCos F m t T k x = some r ∧ |val m r - fn isCos x| ≤ ec + es + 12 * 2 ^ ((m : ℤ) - 31) := by
  obtain ⟨n, hn, hn0, hn1, hnx⟩ := input hF hm' hx hx' hxF
  obtain ⟨r, hr, he⟩ := fixed_ok isCos hm hm' ht ht' hT hk hn0 hn1 hpos
  refine ⟨r, by simp only [fast, hn, Option.bind_some, hr], ?_⟩
  have h1 := fn_lipschitz isCos (val m n) x
  have h2 : |val m n - (x : ℝ)| ≤ 1 / 2 * 2 ^ ((m : ℤ) - 31) := by
    have e : (2 : ℝ) ^ ((m : ℤ) - 31) = 1 / 2 ^ (31 - m) := by
      rw [show (m : ℤ) - 31 = -((31 - m : ℕ) : ℤ) by omega, zpow_neg, zpow_natCast, one_div]
    rw [val_nat m (by omega), e]
    have := abs_le.1 hnx
    have a1 := (Rat.cast_le (K := ℝ)).2 this.1
    have a2 := (Rat.cast_le (K := ℝ)).2 this.2
    push_cast at a1 a2
    rw [abs_le]
    constructor <;> (rw [show (1 : ℝ) / 2 * (1 / 2 ^ (31 - m)) = 1 / 2 / 2 ^ (31 - m) by ring]; linarith)
  have h3 := abs_sub_le (val m r) (fn isCos (val m n)) (fn isCos x)
  have h4 : (0 : ℝ) < 2 ^ ((m : ℤ) - 31) := by positivity
  linarith

/-- **Negative table values.** On intervals that end at 4 or later, whenever the value of the table is negative the result is
off by 4 or more, up to the error above: the value is shifted to the right as an unsigned number. -/
theorem C119_negative_value_wrong (isCos : Bool) {m t : ℕ} (hm : 2 ≤ m) (hm' : m ≤ 29) (ht : m + 2 ≤ t) (ht' : t ≤ 31) {T : Tab}
    (hT : T.Right m t) {k : Coefs} {ec es : ℝ} (hk : k.Right (2 ^ m / 2 ^ t) ec es) {n : ℤ} (hn : 0 ≤ n) (hn' : n < 2 ^ 31) {A : ℤ}
    (hA : (T.main isCos)[(n / 2 ^ (31 - t)).toNat]? = some A) (hneg : A < 0) :
    ∃ r, fixedFn isCos m t T k n = some r ∧ 4 - (ec + es + 11 * 2 ^ ((m : ℤ) - 31)) ≤ |val m r - fn isCos (val m n)| := by
  obtain ⟨A2, g, hA2, hAb, hg, he, hr⟩ := fixed_core isCos (by omega) hm' ht ht' hT hk hn hn'
  have : A2 = A := by rw [hA] at hA2; exact (Option.some.inj hA2).symm
  subst this
  have hAbs := abs_le.1 hAb
  have hA32 : wrap i32 A2 = A2 := wrap32 (by linarith) (by linarith)
  have hd : (0 : ℤ) < 2 ^ (m - 1) := by positivity
  have h33 : (2 : ℤ) ^ 32 = 2 ^ (m - 1) * 2 ^ (33 - m) := by rw [← pow_add]; congr 1; omega
  have hmod : A2 % 2 ^ 32 = A2 + 2 ^ 32 := by
    rw [← Int.add_emod_right, Int.emod_eq_of_lt] <;> norm_num <;> linarith
  have hconv := (conv_more (m := m) hm hm' A2).resolve_right (by rw [hA32]; simp)
  rw [hmod] at hconv
  have hq : (A2 + 2 ^ 32) / 2 ^ (m - 1) = A2 / 2 ^ (m - 1) + 2 ^ (33 - m) := by
    rw [h33, Int.add_mul_ediv_left _ _ hd.ne']
  rw [hq] at hconv
  have hfin : fixedFn isCos m t T k n = some (wrap i32 (g + 2 ^ (33 - m))) := by
    rw [hr _ hconv, add_comm, wrap_add_left]
    congr 2
    ring
  obtain ⟨j, hj⟩ := wrap32_mod (g + 2 ^ (33 - m))
  refine ⟨_, hfin, ?_⟩
  rw [hj]
  obtain ⟨p, hp⟩ : ∃ p : ℤ, (2 : ℤ) ^ (m - 2) = p := ⟨_, rfl⟩
  have hv : val m (g + 2 ^ (33 - m) + 2 ^ 32 * j) = val m g + ((4 * (1 + 2 * (p * j)) : ℤ) : ℝ) := by
    rw [val_nat m (by omega), val_nat m (by omega)]
    have e1 : (2 : ℝ) ^ (33 - m) = 4 * 2 ^ (31 - m) := by
      rw [show 33 - m = (31 - m) + 2 by omega, pow_add]; ring
    have e2 : (2 : ℝ) ^ 32 = 8 * (p : ℝ) * 2 ^ (31 - m) := by
      rw [← hp]
      push_cast
      rw [show (8 : ℝ) = 2 ^ 3 by norm_num, ← pow_add, ← pow_add]
      congr 1
      omega
    push_cast
    rw [e1]
    have e2' : (4294967296 : ℝ) = 8 * (p : ℝ) * 2 ^ (31 - m) := by rw [← e2]; norm_num
    first
      | rw [e2']; field_simp; ring
      | rw [e2]; field_simp; ring
  have hodd : (4 : ℝ) ≤ |((4 * (1 + 2 * (p * j)) : ℤ) : ℝ)| := by
    have : (4 : ℤ) ≤ |4 * (1 + 2 * (p * j))| := by
      generalize p * j = z
      rcases le_or_gt 0 z with h | h
      · rw [abs_of_nonneg (by omega)]; omega
      · rw [abs_of_neg (by omega)]; omega
    rw [← Int.cast_abs]
    exact_mod_cast this
  rw [hv]
  have h1 := abs_add_le (val m g + ((4 * (1 + 2 * (p * j)) : ℤ) : ℝ) - fn isCos (val m n)) (-(val m g - fn isCos (val m n)))
  rw [abs_neg, show val m g + ((4 * (1 + 2 * (p * j)) : ℤ) : ℝ) - fn isCos (val m n) + -(val m g - fn isCos (val m n)) =
    ((4 * (1 + 2 * (p * j)) : ℤ) : ℝ) by ring] at h1
  linarith

/-- **Negative inputs.** For every negative input of the interval, and for the end of the interval, the access to the table
is out of bounds. -/
theorem C119_negative_wrong (isCos : Bool) (m : ℤ) {t : ℕ} (ht' : t ≤ 31) {T : Tab} (hT : T.cos.length = 2 ^ t) (k : Coefs) {n : ℤ}
    (hn : -2 ^ 31 ≤ n) (hn' : n < 0) : fixedFn isCos m t T k n = none ∧ wrap i32 (2 ^ 31) = -2 ^ 31 := by
  refine ⟨?_, by decide⟩
  have hd : (0 : ℤ) < 2 ^ (31 - t) := by positivity
  have hmod : n % 2 ^ 32 = n + 2 ^ 32 := by
    rw [← Int.add_emod_right, Int.emod_eq_of_lt] <;> norm_num at * <;> linarith
  have h31 : (2 : ℤ) ^ 31 = 2 ^ t * 2 ^ (31 - t) := by rw [← pow_add]; congr 1; omega
  have hge : (2 : ℤ) ^ t ≤ (n + 2 ^ 32) / 2 ^ (31 - t) := by
    rw [Int.le_ediv_iff_mul_le hd, ← h31]
    norm_num at *
    linarith
  have hlt : (n + 2 ^ 32) / 2 ^ (31 - t) ≤ n + 2 ^ 32 := Int.ediv_le_self _ (by norm_num at *; linarith)
  -- a nonnegative index, or a negative one when the whole word is the index
  have hload : ∀ z, index t n = some z → load T.cos z = none := by
    intro z hz
    simp only [index, if_pos ht', srl32 n (by omega : 31 - t < 32), hmod] at hz
    obtain ⟨j, hj⟩ := wrap32_mod ((n + 2 ^ 32) / 2 ^ (31 - t))
    obtain ⟨r1, r2⟩ := wrap32_range ((n + 2 ^ 32) / 2 ^ (31 - t))
    have hz' : z = wrap i32 ((n + 2 ^ 32) / 2 ^ (31 - t)) := (Option.some.inj hz).symm
    unfold load
    split
    · rename_i h0
      rw [List.getElem?_eq_none]
      rw [hT]
      by_cases hj0 : j = 0
      · subst hj0
        have : (2 : ℤ) ^ t ≤ z := by rw [hz', hj]; linarith
        have h3 : ((2 ^ t : ℕ) : ℤ) ≤ z := by push_cast; exact this
        omega
      · exfalso
        norm_num at *
        have hpos : (0 : ℤ) < 2 ^ t := by positivity
        rcases lt_or_gt_of_ne hj0 with h | h <;> omega
    · rfl
  simp only [fixedFn]
  cases low m t n with
  | none => rfl
  | some u =>
    simp only [Option.bind_some]
    cases hi : index t n with
    | none => rfl
    | some z =>
      simp only [Option.bind_some, hload z hi, Option.bind_none]

/-- **Small intervals.** On an interval that ends at 1/2 or earlier the result of the cosine is at most 1/2 in magnitude, for every
input, although the cosines of the interval are above 7/8. -/
theorem C119_small_interval_wrong {m : ℤ} (hm : m ≤ -1) (t : ℕ) (T : Tab) (k : Coefs) (n r : ℤ)
    (h : fixedFn true m t T k n = some r) {x : ℝ} (hx : |x| ≤ 2 ^ m) : |val m r| ≤ 1 / 2 ∧ 7 / 8 ≤ Real.cos x := by
  have hp : (2 : ℝ) ^ m ≤ 1 / 2 := by
    calc (2 : ℝ) ^ m ≤ 2 ^ (-1 : ℤ) := zpow_le_zpow_right₀ (by norm_num) hm
      _ = 1 / 2 := by norm_num
  constructor
  · have hr : ∃ z, r = wrap i32 z := by
      simp only [fixedFn, if_true, cosScheme, sub, addsub_comp, Option.bind_eq_some_iff] at h
      obtain ⟨_, _, _, _, _, _, _, _, _, _, _, _, _, _, _, _, _, _, _, _, _, _, _, h⟩ := h
      simp only [Option.some.injEq] at h
      exact ⟨_, h.2.symm⟩
    obtain ⟨z, rfl⟩ := hr
    obtain ⟨r1, r2⟩ := wrap32_range z
    have h1 : |((wrap i32 z : ℤ) : ℝ)| ≤ 2 ^ 31 := by
      rw [abs_le]
      constructor
      · have : ((-2 ^ 31 : ℤ) : ℝ) ≤ (wrap i32 z : ℤ) := by exact_mod_cast r1
        push_cast at this
        linarith
      · have : ((wrap i32 z : ℤ) : ℝ) ≤ ((2 ^ 31 : ℤ) : ℝ) := by exact_mod_cast r2.le
        push_cast at this
        linarith
    unfold val
    rw [abs_mul, abs_of_pos (by positivity : (0 : ℝ) < 2 ^ (m - 31))]
    calc _ ≤ (2 : ℝ) ^ 31 * 2 ^ (m - 31) := mul_le_mul_of_nonneg_right h1 (by positivity)
      _ = 2 ^ m := by
        rw [← zpow_natCast, ← zpow_add₀ (by norm_num)]
        congr 1
        push_cast
        ring
      _ ≤ 1 / 2 := hp
  · have hb := Real.one_sub_sq_div_two_le_cos (x := x)
    have hx2 : x ^ 2 ≤ 1 / 4 := by
      have := abs_le.1 (le_trans hx hp)
      nlinarith
    linarith

/-- **Tiny inputs.** With an exact first line in the table, the sine of every input below half a unit is 0, although the sine
of a positive input is positive: the relative error is 1, whatever accuracy is asked for. -/
theorem C119_tiny_wrong {m t : ℕ} (hm : 1 ≤ m) (hm' : m ≤ 29) (ht' : t ≤ 31) {T : Tab} {C : ℤ} (hC : |C| ≤ 2 ^ 30)
    (h0 : T.cos[0]? = some C) (h1 : T.sin[0]? = some 0) (k : Coefs) (hk1 : |k.c2| < 2 ^ 31) (hk2 : |k.s2| < 2 ^ 31)
    {F : Float.Fmt} (hF : 1 ≤ F.e) {x : ℚ} (hx : 0 < x) (hx' : (2 : ℚ) ^ (31 - (m : ℤ)) * x < 1 / 2)
    (hxF : F.Finite ((2 : ℚ) ^ (31 - (m : ℤ)) * x)) : fast false F m t T k x = some 0 ∧ 0 < Real.sin x := by
  have hin : fromFp F (comp m) x = some 0 := by
    have hfrac : (2 : ℚ) ^ (comp m).frac * x = (2 : ℚ) ^ (31 - (m : ℤ)) * x := rfl
    simp only [fromFp, hfrac, Float.rnd_finite hF hxF, Option.bind_some, support31 (comp_bits _) rfl, Option.map_some]
    obtain ⟨y, hy⟩ : ∃ y, y = (2 : ℚ) ^ (31 - (m : ℤ)) * x := ⟨_, rfl⟩
    have hy0 : 0 < y := by rw [hy]; positivity
    rw [← hy] at hx' ⊢
    have hfl : ⌊y⌋ = 0 := Int.floor_eq_iff.2 ⟨by simpa using hy0.le, by norm_num; linarith⟩
    have : Float.rne y = 0 := by
      unfold Float.rne
      simp only [hfl]
      rw [if_pos (by push_cast; linarith)]
    rw [this]
    rfl
  obtain ⟨hlow, hidx⟩ := reduction (m := (m : ℤ)) ht' (n := 0) le_rfl (by norm_num)
  have hconv : conv store (comp m) 0 = some 0 := by
    by_cases h1 : m = 1
    · subst h1; exact conv_one 0
    · have := (conv_more (m := m) (by omega) hm' 0).resolve_right (by decide)
      rw [this]
      have h0 : (0 : ℤ) % 2 ^ 32 / 2 ^ (m - 1) = 0 := by norm_num
      rw [h0]
      rfl
  have hI : Ints (2 ^ (31 - m)) 0 C k.c2 k.s2 0 0 0 0 0 0 0 := ⟨by norm_num, by norm_num, by norm_num, by norm_num, by norm_num, by norm_num⟩
  have h2 := (schemes hm hm' hI (by norm_num) hC hk1 hk2 le_rfl (by positivity) hconv).2
  constructor
  · simp only [fast, hin, Option.bind_some, fixedFn, hlow, hidx, load, Int.zero_ediv, Int.zero_emod, le_refl, if_true, Int.toNat_zero, h0, h1,
      Bool.false_eq_true, if_false]
    rw [h2]
    rfl
  · have hx1 : (x : ℝ) < 1 := by
      have : x < 1 := by
        have h4 : (1 : ℚ) ≤ 2 ^ (31 - (m : ℤ)) := one_le_zpow₀ (by norm_num) (by omega)
        nlinarith
      exact_mod_cast this
    exact Real.sin_pos_of_pos_of_lt_pi (by exact_mod_cast hx) (by linarith [Real.pi_gt_three])

/-! ## The hypotheses are met -/

/-- There is a right table for every interval and size. -/
theorem tab_exists (m t : ℕ) : ∃ T : Tab, T.Right m t := by
  have key : ∀ y : ℝ, |y| ≤ 1 → ∃ c : ℤ, |c| ≤ 2 ^ 30 ∧ |(c : ℝ) / 2 ^ 30 - y| ≤ 1 / 2 ^ 30 := by
    intro y hy
    have hb := abs_le.1 hy
    refine ⟨⌊y * 2 ^ 30⌋, ?_, ?_⟩
    · rw [abs_le]
      constructor
      · rw [Int.le_floor]; push_cast; linarith
      · have : (⌊y * 2 ^ 30⌋ : ℝ) ≤ 2 ^ 30 := le_trans (Int.floor_le _) (by linarith)
        exact_mod_cast this
    · have h1 := Int.floor_le (y * 2 ^ 30)
      have h2 := Int.lt_floor_add_one (y * 2 ^ 30)
      rw [show (⌊y * 2 ^ 30⌋ : ℝ) / 2 ^ 30 - y = ((⌊y * 2 ^ 30⌋ : ℝ) - y * 2 ^ 30) / 2 ^ 30 by ring, abs_div,
        abs_of_pos (by positivity : (0 : ℝ) < 2 ^ 30)]
      gcongr
      rw [abs_le]
      constructor <;> linarith
  choose f hf using key
  refine ⟨⟨(List.range (2 ^ t)).map fun i : ℕ => f (Real.cos (i * (2 ^ m / 2 ^ t))) (Real.abs_cos_le_one _),
    (List.range (2 ^ t)).map fun i : ℕ => f (Real.sin (i * (2 ^ m / 2 ^ t))) (Real.abs_sin_le_one _)⟩, ?_, ?_, by simp, by simp⟩
  · intro i hi
    exact ⟨f _ (Real.abs_cos_le_one _), by simp [List.getElem?_range hi], (hf _ (Real.abs_cos_le_one _)).1, (hf _ (Real.abs_cos_le_one _)).2⟩
  · intro i hi
    exact ⟨f _ (Real.abs_sin_le_one _), by simp [List.getElem?_range hi], (hf _ (Real.abs_sin_le_one _)).1, (hf _ (Real.abs_sin_le_one _)).2⟩

/-- Coefficients close to `-1/2` and `-1/6`, for a table of 256 lines and the interval `[0, 2]`: errors below `2 ^ -26`. -/
example : (⟨-2 ^ 31 + 1, -715827883⟩ : Coefs).Right (2 ^ 1 / 2 ^ 8) (1 / 2 ^ 26) (1 / 2 ^ 26) := by
  refine ⟨by norm_num, by norm_num, ?_, ?_⟩
  · intro u hu hu'
    have hu1 : u ≤ 1 / 128 := by norm_num at hu' ⊢; linarith
    have h := Real.cos_bound (x := u) (by rw [abs_of_nonneg hu]; linarith)
    rw [abs_of_nonneg hu] at h
    have h4 : u ^ 4 ≤ (1 / 128) ^ 4 := pow_le_pow_left₀ hu hu1 4
    have h2 : u ^ 2 ≤ (1 / 128) ^ 2 := pow_le_pow_left₀ hu hu1 2
    have h20 : 0 ≤ u ^ 2 := by positivity
    have hb := abs_le.1 h
    rw [abs_le]
    constructor <;> (push_cast; norm_num at *; linarith)
  · intro u hu hu'
    have hu1 : u ≤ 1 / 128 := by norm_num at hu' ⊢; linarith
    have h := Real.sin_bound (x := u) (by rw [abs_of_nonneg hu]; linarith)
    rw [abs_of_nonneg hu] at h
    have h4 : u ^ 4 ≤ (1 / 128) ^ 4 := pow_le_pow_left₀ hu hu1 4
    have h3 : u ^ 3 ≤ (1 / 128) ^ 3 := pow_le_pow_left₀ hu hu1 3
    have h5 : u ^ 5 ≤ (1 / 128) ^ 5 := pow_le_pow_left₀ hu hu1 5
    have h30 : 0 ≤ u ^ 3 := by positivity
    have hb := abs_le.1 h
    rw [abs_le]
    constructor <;> (push_cast; norm_num at *; linarith)

/-- On `[0, 4]` the table has negative cosines, as `C119_negative_value_wrong` asks for. -/
example {t : ℕ} (ht : 4 ≤ t) {T : Tab} (hT : T.Right 2 t) : ∃ (i : ℕ) (A : ℤ), T.cos[i]? = some A ∧ A < 0 := by
  have hp : 2 ^ t = 4 * 2 ^ (t - 2) := by rw [show (4 : ℕ) = 2 ^ 2 by norm_num, ← pow_add]; congr 1; omega
  have hpos : 0 < 2 ^ (t - 2) := by positivity
  obtain ⟨A, hA, _, he⟩ := hT.cos (3 * 2 ^ (t - 2)) (by omega)
  refine ⟨_, A, hA, ?_⟩
  have harg : ((3 * 2 ^ (t - 2) : ℕ) : ℝ) * (2 ^ 2 / 2 ^ t) = 3 := by
    have : (2 : ℝ) ^ t = 4 * 2 ^ (t - 2) := by exact_mod_cast hp
    rw [this]
    push_cast
    field_simp
    norm_num
  rw [harg] at he
  have h3 : Real.cos 3 ≤ -1 / 2 := by
    have h := Real.cos_pi_sub (Real.pi - 3)
    rw [sub_sub_cancel] at h
    rw [h]
    have hb := Real.one_sub_sq_div_two_le_cos (x := Real.pi - 3)
    have : (Real.pi - 3) ^ 2 ≤ 1 := by nlinarith [Real.pi_gt_three, Real.pi_lt_four]
    linarith
  have hb := abs_le.1 he
  have hA0 : (A : ℝ) < 0 := by
    norm_num at hb
    linarith [hb.2]
  exact_mod_cast hA0

end Verif.FastTrig
