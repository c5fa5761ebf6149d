import Verif.Float.Model
import Mathlib.Tactic.Positivity
import Mathlib.Tactic.NormNum
import Mathlib.Tactic.FieldSimp
import Mathlib.Tactic.LinearCombination
import Mathlib.Algebra.Order.Field.Rat
import Mathlib.Algebra.Order.Round

namespace Verif.Float

/-! ## Fields of a packed pattern -/

theorem pack_eq (F : Fmt) (s x m : ℕ) (hm : m < 2 ^ F.f) (hx : x < 2 ^ F.e) :
    pack F s x m = s * 2 ^ (F.f + F.e) + (x * 2 ^ F.f + m) := by
  unfold pack
  have h1 : m ||| x <<< F.f = x <<< F.f + m := by
    rw [Nat.or_comm, Nat.shiftLeft_add_eq_or_of_lt hm]
  have h2 : x <<< F.f + m < 2 ^ (F.f + F.e) := by
    rw [Nat.shiftLeft_eq, pow_add]
    have h3 : (x + 1) * 2 ^ F.f ≤ 2 ^ F.e * 2 ^ F.f := Nat.mul_le_mul_right _ hx
    rw [Nat.add_mul] at h3
    rw [Nat.mul_comm (2 ^ F.f)]
    omega
  rw [h1, Nat.or_comm, ← Nat.shiftLeft_add_eq_or_of_lt h2, Nat.shiftLeft_eq, Nat.shiftLeft_eq]

theorem pack_mant (F : Fmt) (s x m : ℕ) (hm : m < 2 ^ F.f) (hx : x < 2 ^ F.e) :
    pack F s x m &&& (2 ^ F.f - 1) = m := by
  rw [Nat.and_two_pow_sub_one_eq_mod, pack_eq F s x m hm hx, pow_add,
    show s * (2 ^ F.f * 2 ^ F.e) + (x * 2 ^ F.f + m) = m + 2 ^ F.f * (s * 2 ^ F.e + x) by ring,
    Nat.add_mul_mod_self_left, Nat.mod_eq_of_lt hm]

theorem pack_exp (F : Fmt) (s x m : ℕ) (hm : m < 2 ^ F.f) (hx : x < 2 ^ F.e) :
    (pack F s x m >>> F.f) &&& (2 ^ F.e - 1) = x := by
  rw [Nat.and_two_pow_sub_one_eq_mod, Nat.shiftRight_eq_div_pow, pack_eq F s x m hm hx, pow_add,
    show s * (2 ^ F.f * 2 ^ F.e) + (x * 2 ^ F.f + m) = m + 2 ^ F.f * (x + 2 ^ F.e * s) by ring,
    Nat.add_mul_div_left _ _ (by positivity), Nat.div_eq_of_lt hm, Nat.zero_add,
    Nat.add_mul_mod_self_left, Nat.mod_eq_of_lt hx]

theorem pack_sign (F : Fmt) (s x m : ℕ) (hm : m < 2 ^ F.f) (hx : x < 2 ^ F.e) :
    pack F s x m >>> (F.f + F.e) = s := by
  rw [Nat.shiftRight_eq_div_pow, pack_eq F s x m hm hx,
    show s * 2 ^ (F.f + F.e) + (x * 2 ^ F.f + m) = (x * 2 ^ F.f + m) + 2 ^ (F.f + F.e) * s by ring,
    Nat.add_mul_div_left _ _ (by positivity), Nat.div_eq_of_lt, Nat.zero_add]
  rw [pow_add]
  have h3 : (x + 1) * 2 ^ F.f ≤ 2 ^ F.e * 2 ^ F.f := Nat.mul_le_mul_right _ hx
  rw [Nat.add_mul] at h3
  rw [Nat.mul_comm (2 ^ F.f)]
  omega

theorem pack_lt (F : Fmt) (s x m : ℕ) (hs : s ≤ 1) (hm : m < 2 ^ F.f) (hx : x < 2 ^ F.e) :
    pack F s x m < 2 ^ (1 + F.e + F.f) := by
  rw [pack_eq F s x m hm hx]
  have h3 : (x + 1) * 2 ^ F.f ≤ 2 ^ F.e * 2 ^ F.f := Nat.mul_le_mul_right _ hx
  rw [Nat.add_mul] at h3
  have h4 : s * 2 ^ (F.f + F.e) ≤ 1 * 2 ^ (F.f + F.e) := Nat.mul_le_mul_right _ hs
  have h5 : 2 ^ (F.f + F.e) = 2 ^ F.e * 2 ^ F.f := by rw [pow_add, Nat.mul_comm]
  have h6 : 2 ^ (1 + F.e + F.f) = 2 * (2 ^ F.e * 2 ^ F.f) := by rw [pow_add, pow_add]; ring
  omega

/-- Every pattern of the format is a packing of its three fields. -/
theorem exists_pack (F : Fmt) (c : ℕ) (hc : c < 2 ^ (1 + F.e + F.f)) :
    ∃ s x m, s ≤ 1 ∧ x < 2 ^ F.e ∧ m < 2 ^ F.f ∧ c = pack F s x m := by
  have hf : 0 < 2 ^ F.f := by positivity
  have he : 0 < 2 ^ F.e := by positivity
  refine ⟨c / 2 ^ F.f / 2 ^ F.e, c / 2 ^ F.f % 2 ^ F.e, c % 2 ^ F.f, ?_, Nat.mod_lt _ he, Nat.mod_lt _ hf, ?_⟩
  · rw [Nat.div_div_eq_div_mul]
    have : c / (2 ^ F.f * 2 ^ F.e) < 2 := by
      apply Nat.div_lt_of_lt_mul
      calc c < _ := hc
        _ = _ := by rw [pow_add, pow_add]; ring
    omega
  · rw [pack_eq F _ _ _ (Nat.mod_lt _ hf) (Nat.mod_lt _ he)]
    have h1 := Nat.div_add_mod c (2 ^ F.f)
    have h2 := Nat.div_add_mod (c / 2 ^ F.f) (2 ^ F.e)
    set q := c / 2 ^ F.f
    calc c = 2 ^ F.f * q + c % 2 ^ F.f := h1.symm
      _ = 2 ^ F.f * (2 ^ F.e * (q / 2 ^ F.e) + q % 2 ^ F.e) + c % 2 ^ F.f := by rw [h2]
      _ = _ := by rw [pow_add]; ring

/-! ## Powers of two -/

theorem zp (k : ℤ) : (0 : ℚ) < (2 : ℚ) ^ k := zpow_pos (by norm_num) k

theorem zle {a b : ℤ} (h : a ≤ b) : (2 : ℚ) ^ a ≤ (2 : ℚ) ^ b := zpow_le_zpow_right₀ (by norm_num) h

theorem zlt {a b : ℤ} (h : a < b) : (2 : ℚ) ^ a < (2 : ℚ) ^ b := zpow_lt_zpow_right₀ (by norm_num) h

theorem zsucc (k : ℤ) : (2 : ℚ) ^ (k + 1) = 2 * (2 : ℚ) ^ k := by
  rw [zpow_add₀ (by norm_num)]; norm_num; ring

theorem zadd (a b : ℤ) : (2 : ℚ) ^ (a + b) = (2 : ℚ) ^ a * (2 : ℚ) ^ b := zpow_add₀ (by norm_num) _ _

theorem znat (n : ℕ) : (2 : ℚ) ^ (n : ℤ) = (2 : ℚ) ^ n := zpow_natCast _ _

theorem zint {k : ℤ} (h : 0 ≤ k) : ∃ n : ℤ, (2 : ℚ) ^ k = n := by
  obtain ⟨n, rfl⟩ := Int.eq_ofNat_of_zero_le h
  exact ⟨2 ^ n, by rw [znat]; push_cast; rfl⟩

theorem zscale (k : ℤ) (f : ℕ) : (2 : ℚ) ^ k = (2 : ℚ) ^ f * (2 : ℚ) ^ (k - f) := by
  rw [← znat, ← zadd]; congr 1; ring

theorem log_eq {a : ℚ} {k : ℤ} (h1 : (2 : ℚ) ^ k ≤ a) (h2 : a < (2 : ℚ) ^ (k + 1)) : Int.log 2 a = k := by
  have ha : 0 < a := lt_of_lt_of_le (zp k) h1
  have h3 := (Int.zpow_le_iff_le_log (b := 2) (by norm_num) ha (x := k)).1 (by exact_mod_cast h1)
  have h4 := (Int.lt_zpow_iff_log_lt (b := 2) (by norm_num) ha (x := k + 1)).1 (by exact_mod_cast h2)
  omega

theorem log_lt {a : ℚ} {k : ℤ} (ha : 0 < a) (h2 : a < (2 : ℚ) ^ k) : Int.log 2 a < k :=
  (Int.lt_zpow_iff_log_lt (b := 2) (by norm_num) ha).1 (by exact_mod_cast h2)

theorem le_log {a : ℚ} {k : ℤ} (ha : 0 < a) (h2 : (2 : ℚ) ^ k ≤ a) : k ≤ Int.log 2 a :=
  (Int.zpow_le_iff_le_log (b := 2) (by norm_num) ha).1 (by exact_mod_cast h2)

theorem pow_log_le {a : ℚ} (ha : 0 < a) : (2 : ℚ) ^ Int.log 2 a ≤ a := by
  have := Int.zpow_log_le_self (b := 2) (by norm_num) ha
  exact_mod_cast this

theorem lt_pow_log {a : ℚ} : a < (2 : ℚ) ^ (Int.log 2 a + 1) := by
  have := Int.lt_zpow_succ_log_self (b := 2) (by norm_num) a
  exact_mod_cast this

/-! ## Rounding -/

theorem rne_int (n : ℤ) : rne (n : ℚ) = n := by
  unfold rne; simp

/-- Rounding stays within half a unit. -/
theorem rne_near (q : ℚ) : |(rne q : ℚ) - q| ≤ 1 / 2 := by
  unfold rne
  simp only
  have h1 := Int.floor_le q
  have h2 := Int.lt_floor_add_one q
  rw [abs_le]
  split
  · constructor <;> linarith
  · split
    · push_cast; constructor <;> linarith
    · have : q - ⌊q⌋ = 1 / 2 := by linarith
      split
      · constructor <;> linarith
      · push_cast; constructor <;> linarith

theorem pyInt_nat (n : ℕ) : pyInt (n : ℚ) = n := by
  unfold pyInt; simp

/-! ## Format constants -/

theorem eminNormal_eq (F : Fmt) : eminNormal F = F.emin := by
  unfold eminNormal bias Fmt.emin Fmt.emax; ring

theorem emaxM_eq (F : Fmt) (he : 1 ≤ F.e) : emaxM F = F.emax := by
  unfold emaxM bias Fmt.emax
  have : (2 : ℤ) ^ F.e = 2 * 2 ^ (F.e - 1) := by
    conv_lhs => rw [show F.e = (F.e - 1) + 1 by omega]
    rw [pow_succ]; ring
  rw [this]; ring

theorem bias_eq (F : Fmt) : bias F = F.emin - 1 := by
  rw [← eminNormal_eq]; unfold eminNormal; ring

theorem eminSub_eq (F : Fmt) : eminSubnormal F = F.emin - F.f := by
  unfold eminSubnormal; rw [bias_eq]; ring

theorem emax_add (F : Fmt) (he : 1 ≤ F.e) : F.emax - bias F = 2 ^ F.e - 2 := by
  rw [← emaxM_eq F he]; unfold emaxM; ring

theorem omega_eq (F : Fmt) (he : 1 ≤ F.e) : omega F = (2 ^ (F.f + 1) - 1) * (2 : ℚ) ^ (F.emax - F.f) := by
  unfold omega
  rw [emaxM_eq F he, zscale F.emax F.f, pow_succ]
  have : (2 : ℚ) ^ (-(F.f : ℤ)) * (2 : ℚ) ^ F.f = 1 := by
    rw [← znat, ← zadd]; simp
  linear_combination (2 : ℚ) ^ (F.emax - F.f) * (-1) * this

/-! ## Canonical form of the numbers of a format -/

theorem finite_neg {F : Fmt} {v : ℚ} (h : F.Finite v) : F.Finite (-v) := by
  obtain ⟨m, E, h1, h2, h3, h4⟩ := h
  exact ⟨-m, E, by rwa [abs_neg], h2, h3, by rw [h4]; push_cast; ring⟩

/-- The numbers are exactly the multiples of the quantum of their own binade. -/
theorem finite_canon {F : Fmt} {v : ℚ} (h : F.Finite v) (hv : 0 < v) :
    ∃ (n : ℕ) (k : ℤ), v = n * (2 : ℚ) ^ (k - F.f) ∧ 0 < n ∧ n < 2 ^ (F.f + 1) ∧ F.emin ≤ k ∧ k ≤ F.emax ∧
      (2 ^ F.f ≤ n ∨ k = F.emin) ∧ k = max (Int.log 2 v) F.emin := by
  obtain ⟨m, E, hm, h1, h2, h3⟩ := h
  have hq := zp (E - F.f)
  have hm' : ((|m| : ℤ) : ℚ) < 2 ^ (F.f + 1) := by exact_mod_cast hm
  have hlt : v < (2 : ℚ) ^ (E + 1) := by
    rw [zsucc, zscale E F.f, h3]
    have : (m : ℚ) ≤ (|m| : ℤ) := by exact_mod_cast le_abs_self m
    rw [pow_succ] at hm'
    nlinarith
  have hlog := log_lt hv hlt
  set k := max (Int.log 2 v) F.emin with hk
  have hkE : k ≤ E := by omega
  obtain ⟨c, hc⟩ := zint (show 0 ≤ E - k by omega)
  have hv2 : v = ((m * c : ℤ) : ℚ) * (2 : ℚ) ^ (k - F.f) := by
    push_cast
    rw [h3, ← hc, mul_assoc, ← zadd]; congr 2; ring
  have hkq := zp (k - F.f)
  have hpos : 0 < m * c := by
    have : (0 : ℚ) < ((m * c : ℤ) : ℚ) := by
      by_contra hcon
      push Not at hcon
      have := mul_nonpos_of_nonpos_of_nonneg hcon hkq.le
      rw [← hv2] at this
      linarith
    exact_mod_cast this
  obtain ⟨n, hn⟩ := Int.eq_ofNat_of_zero_le hpos.le
  rw [hn] at hv2 hpos
  refine ⟨n, k, by exact_mod_cast hv2, by exact_mod_cast hpos, ?_, le_max_right _ _, by omega, ?_, rfl⟩
  · have h5 : v < (2 : ℚ) ^ (k + 1) := lt_of_lt_of_le lt_pow_log (zle (by omega))
    rw [zsucc, zscale k F.f] at h5
    have h6 : (n : ℚ) < 2 ^ (F.f + 1) := by
      rw [pow_succ]
      have : (n : ℚ) * (2 : ℚ) ^ (k - F.f) < (2 ^ F.f * 2) * (2 : ℚ) ^ (k - F.f) := by
        push_cast at hv2
        linarith
      exact lt_of_mul_lt_mul_right this hkq.le
    exact_mod_cast h6
  · rcases le_total F.emin (Int.log 2 v) with h5 | h5
    · left
      have h6 : (2 : ℚ) ^ k ≤ v := by
        rw [hk, max_eq_left h5]; exact pow_log_le hv
      rw [zscale k F.f] at h6
      have h7 : ((2 : ℚ) ^ F.f) * (2 : ℚ) ^ (k - F.f) ≤ (n : ℚ) * (2 : ℚ) ^ (k - F.f) := by
        push_cast at hv2
        linarith
      exact_mod_cast le_of_mul_le_mul_right h7 hkq
    · right; rw [hk, max_eq_right h5]

theorem canon_finite {F : Fmt} (n : ℕ) (k : ℤ) (hn : n < 2 ^ (F.f + 1)) (h1 : F.emin ≤ k) (h2 : k ≤ F.emax) :
    F.Finite (n * (2 : ℚ) ^ (k - F.f)) :=
  ⟨n, k, by simpa using (by exact_mod_cast hn : (n : ℤ) < 2 ^ (F.f + 1)), h1, h2, by push_cast; rfl⟩

/-- Binade of a canonical number. -/
theorem canon_log {F : Fmt} (n : ℕ) (k : ℤ) (hn0 : 0 < n) (hn : n < 2 ^ (F.f + 1)) :
    (2 ^ F.f ≤ n → Int.log 2 ((n : ℚ) * (2 : ℚ) ^ (k - F.f)) = k) ∧
    (n < 2 ^ F.f → Int.log 2 ((n : ℚ) * (2 : ℚ) ^ (k - F.f)) < k) := by
  have hq := zp (k - F.f)
  have hn0' : (0 : ℚ) < n := by exact_mod_cast hn0
  constructor
  · intro h
    apply log_eq
    · rw [zscale k F.f]
      exact mul_le_mul_of_nonneg_right (by exact_mod_cast h) hq.le
    · rw [zsucc, zscale k F.f, ← mul_assoc]
      apply mul_lt_mul_of_pos_right _ hq
      rw [pow_succ] at hn
      have : (n : ℚ) < 2 ^ F.f * 2 := by exact_mod_cast hn
      linarith
  · intro h
    apply log_lt (by positivity)
    rw [zscale k F.f]
    exact mul_lt_mul_of_pos_right (by exact_mod_cast h) hq

theorem canon_max {F : Fmt} (n : ℕ) (k : ℤ) (hn0 : 0 < n) (hn : n < 2 ^ (F.f + 1)) (h1 : F.emin ≤ k)
    (hc : 2 ^ F.f ≤ n ∨ k = F.emin) : max (Int.log 2 ((n : ℚ) * (2 : ℚ) ^ (k - F.f))) F.emin = k := by
  obtain ⟨ha, hb⟩ := canon_log (F := F) n k hn0 hn
  rcases le_or_gt (2 ^ F.f) n with h | h
  · rw [ha h]; omega
  · have := hb h; omega

theorem canon_le_omega {F : Fmt} (he : 1 ≤ F.e) (n : ℕ) (k : ℤ) (hn : n < 2 ^ (F.f + 1)) (h2 : k ≤ F.emax) :
    (n : ℚ) * (2 : ℚ) ^ (k - F.f) ≤ omega F := by
  rw [omega_eq F he]
  have h3 : (n : ℚ) ≤ 2 ^ (F.f + 1) - 1 := by
    have : (n : ℚ) + 1 ≤ 2 ^ (F.f + 1) := by exact_mod_cast hn
    linarith
  exact mul_le_mul h3 (zle (by omega)) (zp _).le (by
    have : (0 : ℚ) ≤ n := by positivity
    linarith)

/-- Rounding is the identity on the numbers of the format. -/
theorem rnd_finite {F : Fmt} (he : 1 ≤ F.e) {v : ℚ} (h : F.Finite v) : rnd F v = some v := by
  by_cases h0 : v = 0
  · subst h0
    unfold rnd rndUnb
    have : (0 : ℚ) ≤ omega F := by
      rw [omega_eq F he]
      have : (1 : ℚ) ≤ 2 ^ (F.f + 1) := one_le_pow₀ (by norm_num)
      exact mul_nonneg (by linarith) (zp _).le
    simp [this]
  · have habs : F.Finite |v| := by
      rcases abs_choice v with h' | h' <;> rw [h']
      · exact h
      · exact finite_neg h
    obtain ⟨n, k, hv, hn0, hn, h1, h2, hc, hk⟩ := finite_canon habs (abs_pos.2 h0)
    have hr : rndUnb F v = v := by
      unfold rndUnb
      rw [if_neg h0]
      simp only
      rw [← hk]
      have : ∃ z : ℤ, v / (2 : ℚ) ^ (k - F.f) = z := by
        have hq := (zp (k - F.f)).ne'
        rcases abs_choice v with h' | h'
        · exact ⟨n, by rw [← h', hv]; field_simp; push_cast; rfl⟩
        · refine ⟨-n, ?_⟩
          have : v = -(n * (2 : ℚ) ^ (k - F.f)) := by rw [← hv, h']; ring
          rw [this]; field_simp; push_cast; rfl
      obtain ⟨z, hz⟩ := this
      rw [hz, rne_int, ← hz]
      exact div_mul_cancel₀ _ (zp (k - F.f)).ne'
    unfold rnd
    simp only [hr]
    rw [if_pos]
    rw [hv]; exact canon_le_omega he n k hn h2

/-- Coding of a canonical number. -/
theorem numCoding_canon {F : Fmt} (he : 1 ≤ F.e) (neg : Bool) (n : ℕ) (k : ℤ) (hn0 : 0 < n) (hn : n < 2 ^ (F.f + 1))
    (h1 : F.emin ≤ k) (h2 : k ≤ F.emax) (hc : 2 ^ F.f ≤ n ∨ k = F.emin) (v : ℚ)
    (hv : v = if neg then -((n : ℚ) * (2 : ℚ) ^ (k - F.f)) else n * (2 : ℚ) ^ (k - F.f)) :
    numCoding F v = .ok (if 2 ^ F.f ≤ n then pack F (if neg then 1 else 0) (k - bias F).toNat (n - 2 ^ F.f)
      else pack F (if neg then 1 else 0) 0 n) := by
  have hq := zp (k - F.f)
  have hn0' : (0 : ℚ) < n := by exact_mod_cast hn0
  have hp : (0 : ℚ) < (n : ℚ) * (2 : ℚ) ^ (k - F.f) := by positivity
  have hfin : F.Finite v := by
    rw [hv]; split
    · exact finite_neg (canon_finite n k hn h1 h2)
    · exact canon_finite n k hn h1 h2
  have habs : |v| = n * (2 : ℚ) ^ (k - F.f) := by
    rw [hv]; split
    · rw [abs_neg, abs_of_pos hp]
    · rw [abs_of_pos hp]
  have hsign : (if v < 0 then 1 else 0) = if neg then 1 else 0 := by
    cases neg <;> simp only [Bool.false_eq_true, if_false, if_true] at hv ⊢
    · rw [if_neg (by rw [hv]; linarith)]
    · rw [if_pos (by rw [hv]; linarith)]
  unfold numCoding
  rw [rnd_finite he hfin]
  simp only [hsign, habs]
  rw [if_neg hp.ne', eminNormal_eq]
  obtain ⟨ha, hb⟩ := canon_log (F := F) n k hn0 hn
  rcases le_or_gt (2 ^ F.f) n with h | h
  · rw [ha h, if_neg (by omega), if_pos h]
    have : ((n : ℚ) * (2 : ℚ) ^ (k - F.f) / (2 : ℚ) ^ k - 1) * (2 : ℚ) ^ F.f = ((n - 2 ^ F.f : ℕ) : ℚ) := by
      rw [Nat.cast_sub h, zscale k F.f]
      push_cast
      field_simp
    rw [this, pyInt_nat]
  · have hk : k = F.emin := by omega
    have := hb h
    rw [if_pos (by omega), if_neg (show ¬ 2 ^ F.f ≤ n by omega), eminSub_eq, hk]
    rw [mul_div_assoc, div_self (zp _).ne', mul_one, pyInt_nat]

end Verif.Float
