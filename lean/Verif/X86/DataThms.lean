import Verif.X86.Data
import Verif.Float.Theorems
import Mathlib.Tactic.IntervalCases
import Mathlib.Tactic.Positivity
import Mathlib.Tactic.NormNum
import Mathlib.Data.Nat.Prime.Basic

/-! # C86: constants, conversions and table accesses of the x86 backend -/

namespace Verif.X86

open Verif.Float (Fmt Val pack bias)

/-! ## Specification -/

/-- lane `i`, of `w` bits, of a register whose words of 64 bits are given from the least significant one, the missing ones being zero -/
def lane (w : ℕ) (l : List ℤ) (i : ℕ) : ℤ := l.getD (i * w / 64) 0 % 2 ^ 64 / 2 ^ (i * w % 64) % 2 ^ w

/-- `n` is an integer nearest to `q`, and the even one if there are two -/
def NearestEven (q : ℚ) (n : ℤ) : Prop := |(n : ℚ) - q| ≤ 1 / 2 ∧ (|(n : ℚ) - q| = 1 / 2 → n % 2 = 0)

/-- the conversion of C: towards zero -/
def truncate (q : ℚ) : ℤ := if 0 ≤ q then ⌊q⌋ else ⌈q⌉

/-! ## Constants -/

theorem dd {a b : ℤ} (c : ℤ) (ha : 0 ≤ a) : c / a / b = c / (a * b) := by
  rw [Int.ediv_ediv, if_neg (by omega), sub_zero]

theorem mod_div_mod (x : ℤ) {a b d : ℤ} (ha : 0 < a) : x % (a * (b * d)) / a % b = x / a % b := by
  rw [Int.emod_def x (a * (b * d)), show x - a * (b * d) * (x / (a * (b * d))) = x + -(b * d * (x / (a * (b * d)))) * a by ring, Int.add_mul_ediv_right _ _ ha.ne',
    show x / a + -(b * d * (x / (a * (b * d)))) = x / a - d * (x / (a * (b * d))) * b by ring, Int.sub_mul_emod_self_right]

theorem u2s_mod (v : ℤ) : u2s 64 v % 2 ^ 64 = v % 2 ^ 64 := by
  unfold u2s
  rw [Int.sub_mul_emod_self_right]

theorem words_ok : ∀ (n : ℕ) (c : ℤ), 0 ≤ c → c < 2 ^ (64 * n) → ∃ l, words n c = some l ∧ ∀ j, l.getD j 0 % 2 ^ 64 = c / 2 ^ (64 * j) % 2 ^ 64 := by
  intro n
  induction n with
  | zero =>
    intro c h0 h1
    have : c = 0 := by simp at h1; omega
    subst this
    exact ⟨[], by simp [words], by simp⟩
  | succ n ih =>
    intro c h0 h1
    by_cases hc : c = 0
    · subst hc; exact ⟨[], by simp [words], by simp⟩
    obtain ⟨l, hl, hj⟩ := ih (c / 2 ^ 64) (Int.ediv_nonneg h0 (by positivity)) (by
      rw [Int.ediv_lt_iff_lt_mul (by positivity), ← pow_add]
      exact lt_of_lt_of_eq h1 (by ring_nf))
    refine ⟨u2s 64 (c % 2 ^ 64) :: l, ?_, ?_⟩
    · unfold words
      rw [if_neg hc]
      simp only
      rw [hl]; rfl
    · intro j
      cases j with
      | zero => rw [List.getD_cons_zero, u2s_mod, Int.emod_emod, Nat.mul_zero, pow_zero, Int.ediv_one]
      | succ j =>
        rw [List.getD_cons_succ, hj, dd _ (by positivity), ← pow_add, show 64 * (j + 1) = 64 + 64 * j by ring]

/-- the packed constant, from the first element -/
def packed (w : ℕ) : List ℤ → ℤ
  | [] => 0
  | x :: xs => packed w xs * 2 ^ w + s2u w x

theorem packed_eq (w : ℕ) (value : List ℤ) : value.reverse.foldl (fun acc x => acc * 2 ^ w + s2u w x) 0 = packed w value := by
  rw [List.foldl_reverse]
  induction value with
  | nil => rfl
  | cons x xs ih => simp only [List.foldr_cons, ih, packed]

theorem s2u_range {w : ℕ} {v : ℤ} (h1 : -2 ^ w ≤ v) (h2 : v < 2 ^ w) : 0 ≤ s2u w v ∧ s2u w v < 2 ^ w ∧ s2u w v = v % 2 ^ w := by
  unfold s2u
  have hp : (0 : ℤ) < 2 ^ w := by positivity
  split_ifs with h
  · exact ⟨h, h2, (Int.emod_eq_of_lt h h2).symm⟩
  · refine ⟨by omega, by omega, ?_⟩
    rw [← Int.add_emod_right, Int.emod_eq_of_lt (by omega) (by omega)]

theorem packed_ok (w : ℕ) (value : List ℤ) (h : ∀ v ∈ value, -2 ^ w ≤ v ∧ v < 2 ^ w) : 0 ≤ packed w value ∧ packed w value < 2 ^ (w * value.length) ∧
    ∀ (i : ℕ) (hi : i < value.length), packed w value / 2 ^ (w * i) % 2 ^ w = value[i] % 2 ^ w := by
  induction value with
  | nil => simp [packed]
  | cons x xs ih =>
    obtain ⟨h0, h1, h2⟩ := ih fun v hv => h v (by simp [hv])
    obtain ⟨r0, r1, r2⟩ := s2u_range (h x (by simp)).1 (h x (by simp)).2
    have hp : (0 : ℤ) < 2 ^ w := by positivity
    refine ⟨by simp only [packed]; positivity, ?_, ?_⟩
    · simp only [packed, List.length_cons]
      have e : (2 : ℤ) ^ (w * (xs.length + 1)) = 2 ^ (w * xs.length) * 2 ^ w := by rw [← pow_add]; ring_nf
      rw [e]
      nlinarith
    · intro i hi
      cases i with
      | zero =>
        simp only [packed, Nat.mul_zero, pow_zero, Int.ediv_one, List.getElem_cons_zero]
        rw [Int.add_comm, Int.add_mul_emod_self_right, r2, Int.emod_emod]
      | succ i =>
        have e : (2 : ℤ) ^ (w * (i + 1)) = 2 ^ w * 2 ^ (w * i) := by rw [← pow_add]; ring_nf
        rw [e, ← dd _ hp.le]
        have : packed w (x :: xs) / 2 ^ w = packed w xs := by
          simp only [packed]
          rw [Int.add_comm, Int.add_mul_ediv_right _ _ hp.ne', Int.ediv_eq_zero_of_lt r0 r1, zero_add]
        rw [this, h2 i (by simpa using hi)]
        simp

theorem lane_eq {w : ℕ} (hw : w ∣ 64) (l : List ℤ) (c : ℤ) (hc : ∀ j, l.getD j 0 % 2 ^ 64 = c / 2 ^ (64 * j) % 2 ^ 64) (i : ℕ) : lane w l i = c / 2 ^ (w * i) % 2 ^ w := by
  obtain ⟨r, hr⟩ := hw
  have hr0 : 0 < r := by rcases Nat.eq_zero_or_pos r with h | h; · rw [h] at hr; simp at hr
                         exact h
  have hk : i * w % 64 + w ≤ 64 := by
    rw [hr, Nat.mul_comm i w, Nat.mul_mod_mul_left]
    have : i % r + 1 ≤ r := Nat.mod_lt _ hr0
    calc w * (i % r) + w = w * (i % r + 1) := by ring
      _ ≤ w * r := Nat.mul_le_mul_left _ this
  unfold lane
  rw [hc]
  obtain ⟨d, hd⟩ := Nat.exists_eq_add_of_le hk
  set k := i * w % 64
  set j := i * w / 64
  have hij : w * i = 64 * j + k := by rw [Nat.mul_comm]; exact (Nat.div_add_mod _ _).symm
  rw [hij, pow_add, ← dd _ (by positivity : (0 : ℤ) ≤ 2 ^ (64 * j))]
  set y := c / 2 ^ (64 * j)
  have e : (2 : ℤ) ^ 64 = 2 ^ k * (2 ^ w * 2 ^ d) := by rw [← pow_add, ← pow_add]; congr 1; omega
  rw [e, mod_div_mod _ (by positivity)]

/-- C86: the initializer of a vector of integers has in every lane the value given for it, provided the values fit the lanes, signed or not -/
theorem C86_constant_partial (w : ℕ) (hw : w ∣ 64) (value : List ℤ) (h : ∀ v ∈ value, -2 ^ w ≤ v ∧ v < 2 ^ w) :
    ∃ l, intCst w (w * value.length) value = some l ∧ ∀ (i : ℕ) (hi : i < value.length), lane w l i = value[i] % 2 ^ w := by
  obtain ⟨h0, h1, h2⟩ := packed_ok w value h
  obtain ⟨l, hl, hj⟩ := words_ok (w * value.length) (packed w value) h0 (lt_of_lt_of_le h1 (pow_le_pow_right₀ (by norm_num) (by omega)))
  refine ⟨l, by unfold intCst; rw [packed_eq]; exact hl, fun i hi => ?_⟩
  rw [lane_eq hw l _ hj, h2 i hi]

example : 32 ∣ 64 ∧ ∀ v ∈ [(-1 : ℤ), 7, 4294967295, -2147483648], -2 ^ 32 ≤ v ∧ v < 2 ^ 32 := by
  refine ⟨⟨2, rfl⟩, ?_⟩
  intro v hv
  simp at hv
  rcases hv with rfl | rfl | rfl | rfl <;> norm_num

/-- C86: a value that is too large carries into the next lane -/
theorem C86_constant_carry_wrong (w : ℕ) (hw : w ∣ 64) (x y : ℤ) (h1 : 2 ^ w ≤ x) (h2 : x < 2 * 2 ^ w) (h3 : 0 ≤ y) (h4 : y + 1 < 2 ^ w) :
    ∃ l, intCst w (2 * w + 1) [x, y] = some l ∧ lane w l 1 = y + 1 := by
  have hp : (0 : ℤ) < 2 ^ w := by positivity
  have e : packed w [x, y] = y * 2 ^ w + x := by simp [packed, s2u, h3, show 0 ≤ x by omega]
  have b : y * 2 ^ w + x < 2 ^ (2 * w + 1) := by
    have : (2 : ℤ) ^ (2 * w + 1) = 2 ^ w * 2 ^ w * 2 := by rw [pow_succ, two_mul, pow_add]
    rw [this]; nlinarith
  obtain ⟨l, hl, hj⟩ := words_ok (2 * w + 1) (y * 2 ^ w + x) (by nlinarith) (lt_of_lt_of_le b (pow_le_pow_right₀ (by norm_num) (by omega)))
  refine ⟨l, by unfold intCst; rw [packed_eq, e]; exact hl, ?_⟩
  rw [lane_eq hw l _ hj, mul_one, Int.add_comm, Int.add_mul_ediv_right _ _ hp.ne']
  have : x / 2 ^ w = 1 := by
    apply le_antisymm
    · have := Int.ediv_lt_of_lt_mul hp h2; omega
    · exact (Int.le_ediv_iff_mul_le hp).2 (by omega)
  rw [this, Int.emod_eq_of_lt (by omega) (by omega)]
  ring

example : (2 : ℤ) ^ 32 ≤ 5000000000 ∧ (5000000000 : ℤ) < 2 * 2 ^ 32 ∧ (7 : ℤ) + 1 < 2 ^ 32 := by norm_num

theorem words_neg : ∀ (n : ℕ) (c : ℤ), c < 0 → words n c = none := by
  intro n
  induction n with
  | zero => intro c h; unfold words; rw [if_neg (by omega)]
  | succ n ih =>
    intro c h
    unfold words
    rw [if_neg (by omega)]
    simp only
    rw [ih (c / 2 ^ 64) (Int.ediv_neg_of_neg_of_pos h (by positivity))]
    rfl

/-- C86: the generation of a constant whose last value is too small never ends -/
theorem C86_constant_loop_wrong (w fuel : ℕ) (x : ℤ) (h : x < -2 ^ w) : intCst w fuel [x] = none := by
  have hp : (0 : ℤ) < 2 ^ w := by positivity
  unfold intCst
  rw [packed_eq]
  apply words_neg
  simp only [packed, s2u]
  rw [if_neg (by omega)]
  omega

example : (-5000000000 : ℤ) < -2 ^ 32 := by norm_num

/-! ## Conversions -/

theorem cvt_word (x : ℕ → BitVec 64) (i : ℕ) (hi : i < 4) : cvtInt64 x i = ((x i).setWidth 32).toInt := by
  interval_cases i <;> rfl

/-- C86: the conversion of vectors of 64-bit integers gives the value of every lane that fits a 32-bit integer, the guard of the table, and of no other one -/
theorem C86_int64_conversion (x : ℕ → BitVec 64) (i : ℕ) (hi : i < 4) : cvtInt64 x i = (x i).toInt ↔ -2 ^ 31 ≤ (x i).toInt ∧ (x i).toInt ≤ 2 ^ 31 - 1 := by
  rw [cvt_word x i hi]
  have h : ((x i).setWidth 32).toInt = (x i).toInt.bmod (2 ^ 32) := by
    rw [BitVec.toInt_setWidth, BitVec.toInt_eq_toNat_bmod, Int.bmod_bmod_of_dvd ⟨2 ^ 32, by norm_num⟩]
  rw [h]
  constructor
  · intro e
    rw [← e]
    have h1 := Int.le_bmod (x := (x i).toInt) (m := 2 ^ 32) (by norm_num)
    have h2 := Int.bmod_lt (x := (x i).toInt) (m := 2 ^ 32) (by norm_num)
    norm_num at h1 h2 ⊢
    omega
  · rintro ⟨h1, h2⟩
    exact Int.bmod_eq_of_le (by norm_num at h1 h2 ⊢; omega) (by norm_num at h1 h2 ⊢; omega)

/-- and it is exact in binary64 -/
theorem C86_int64_conversion_exact (x : ℕ → BitVec 64) (i : ℕ) (hi : i < 4) : (⟨11, 52⟩ : Fmt).Finite (cvtInt64 x i : ℤ) := by
  refine ⟨cvtInt64 x i, 52, ?_, by norm_num [Fmt.emin, Fmt.emax], by norm_num [Fmt.emax], by simp⟩
  rw [cvt_word x i hi, abs_lt]
  have h1 := BitVec.le_toInt ((x i).setWidth 32)
  have h2 := BitVec.toInt_lt (x := (x i).setWidth 32)
  norm_num at h1 h2 ⊢
  constructor <;> omega

theorem rne_ne (q : ℚ) : NearestEven q (Float.rne q) := by
  refine ⟨Float.rne_near q, ?_⟩
  have h1 := Int.floor_le q
  have h2 := Int.lt_floor_add_one q
  unfold Float.rne
  simp only
  split_ifs with a b c
  · intro h; rw [abs_of_nonpos (by linarith)] at h; linarith
  · intro h
    push_cast at h
    rw [abs_of_nonneg (by linarith)] at h
    linarith
  · intro _; exact c
  · intro _; omega

/-- C86: the rounding of floating-point vectors to integer ones is to nearest, ties to even, in the range of the integers -/
theorem C86_nearest_integer (q : ℚ) (h1 : -2 ^ 31 ≤ q) (h2 : q < 2 ^ 31 - 1 / 2) : NearestEven q (cvtps q) := by
  have := rne_ne q
  unfold cvtps
  rw [if_pos]
  · exact this
  · obtain ⟨⟨a, b⟩, c⟩ := And.intro (abs_le.1 this.1) this.2
    constructor
    · have : (-2 ^ 31 - 1 : ℚ) < Float.rne q := by linarith
      have : (-2 ^ 31 - 1 : ℤ) < Float.rne q := by exact_mod_cast this
      omega
    · have : (Float.rne q : ℚ) < 2 ^ 31 := by linarith
      exact_mod_cast this

example : (-2 ^ 31 : ℚ) ≤ 5 / 2 ∧ (5 / 2 : ℚ) < 2 ^ 31 - 1 / 2 := by norm_num

/-- C86 (partial): the conversion of floating-point vectors to integer ones is that of C on integers -/
theorem C86_float_conversion_partial (n : ℤ) (h1 : -2 ^ 31 ≤ n) (h2 : n < 2 ^ 31) : cvtps n = truncate n := by
  unfold cvtps truncate
  rw [Float.rne_int, if_pos ⟨h1, h2⟩]
  simp

/-- C86: and is not elsewhere: it rounds to nearest, where the conversion of a scalar rounds towards zero -/
theorem C86_float_conversion_wrong (n : ℕ) (hn : n < 2 ^ 30) (d : ℚ) (h1 : 1 / 2 < d) (h2 : d < 1) : truncate (n + d) = n ∧ cvtps (n + d) = n + 1 := by
  have hf : ⌊(n : ℚ) + d⌋ = (n : ℤ) := by
    rw [Int.floor_eq_iff]; push_cast; constructor <;> linarith
  have hr : Float.rne ((n : ℚ) + d) = n + 1 := by
    unfold Float.rne
    simp only [hf]
    push_cast
    rw [if_neg (by linarith), if_pos (by linarith)]
  have hn0 : (0 : ℚ) ≤ n := Nat.cast_nonneg n
  refine ⟨?_, ?_⟩
  · unfold truncate; rw [if_pos (by linarith), hf]
  · unfold cvtps; rw [hr, if_pos (by norm_num at hn ⊢; omega)]

example : 0 < 2 ^ 30 ∧ (1 / 2 : ℚ) < 3 / 4 ∧ (3 / 4 : ℚ) < 1 := by norm_num

/-! ## Mantissa -/

theorem pack_testBit (F : Fmt) (s x m : ℕ) (hm : m < 2 ^ F.f) (hx : x < 2 ^ F.e) (i : ℕ) :
    (pack F s x m).testBit i = if i < F.f then m.testBit i else if i < F.f + F.e then x.testBit (i - F.f) else s.testBit (i - (F.f + F.e)) := by
  unfold pack
  rw [Nat.testBit_or, Nat.testBit_or, Nat.testBit_shiftLeft, Nat.testBit_shiftLeft]
  split_ifs with h1 h2
  · simp [show ¬ F.f ≤ i by omega, show ¬ F.f + F.e ≤ i by omega]
  · have := Nat.testBit_lt_two_pow (lt_of_lt_of_le hm (Nat.pow_le_pow_right (by norm_num) (show F.f ≤ i by omega)))
    simp [this, show F.f ≤ i by omega, show ¬ F.f + F.e ≤ i by omega]
  · have a := Nat.testBit_lt_two_pow (lt_of_lt_of_le hm (Nat.pow_le_pow_right (by norm_num) (show F.f ≤ i by omega)))
    have b := Nat.testBit_lt_two_pow (lt_of_lt_of_le hx (Nat.pow_le_pow_right (by norm_num) (show F.e ≤ i - F.f by omega)))
    simp [a, b, show F.f + F.e ≤ i by omega]

theorem pack_mask (F : Fmt) (s x m b : ℕ) (hs : s ≤ 1) (hm : m < 2 ^ F.f) (hx : x < 2 ^ F.e) (hb : b < 2 ^ F.e) :
    (pack F s x m &&& pack F 1 0 (2 ^ F.f - 1)) ||| pack F 0 b 0 = pack F s b m := by
  apply Nat.eq_of_testBit_eq
  intro i
  have hp : 0 < 2 ^ F.f := by positivity
  have hq : 0 < 2 ^ F.e := by positivity
  rw [Nat.testBit_or, Nat.testBit_and, pack_testBit F s x m hm hx, pack_testBit F 1 0 _ (by omega) hq, pack_testBit F 0 b 0 hp hb, pack_testBit F s b m hm hb]
  split_ifs with h1 h2
  · simp [Nat.testBit_two_pow_sub_one, h1]
  · simp
  · have : s = 0 ∨ s = 1 := by omega
    rcases this with rfl | rfl <;> simp

theorem pat (F : Fmt) (he : 2 ≤ F.e) (hf : 1 ≤ F.f) (c : ℕ) (hc : c < 2 ^ (1 + F.e + F.f)) (v : ℚ) (h : Float.valueFromCoding F c = .num v) : Float.integerCoding F (.num v) = .ok c := by
  rcases (Float.C01_pattern_round_trip F he hf c hc).2 with h' | h' | h'
  · rw [h] at h'; cases h'
  · rw [h] at h'; cases h'
  · rwa [h] at h'

theorem mant_eq (F : Fmt) (he : 2 ≤ F.e) (hf : 1 ≤ F.f) (s x m : ℕ) (hs : s ≤ 1) (hm : m < 2 ^ F.f) (hx : x < 2 ^ F.e) :
    mantExt F (pack F s x m) = .ok (pack F s (2 ^ (F.e - 1) - 1) m) := by
  have hp : 2 ≤ 2 ^ F.f := by calc 2 = 2 ^ 1 := rfl
                                _ ≤ _ := Nat.pow_le_pow_right (by norm_num) hf
  have hq : 2 ^ F.e = 2 * 2 ^ (F.e - 1) := by rw [← pow_succ']; congr 1; omega
  have hq1 : 2 ≤ 2 ^ (F.e - 1) := by calc 2 = 2 ^ 1 := rfl
                                       _ ≤ _ := Nat.pow_le_pow_right (by norm_num) (by omega)
  have e1 : Float.integerCoding F (.num (-((2 : ℚ) ^ (1 + bias F) - (2 : ℚ) ^ (1 + bias F - F.f)))) = .ok (pack F 1 0 (2 ^ F.f - 1)) := by
    apply pat F he hf _ (Float.pack_lt F 1 0 _ (by omega) (by omega) (by omega))
    rw [Float.decode_pack F 1 0 _ (by omega) (by omega), if_neg (by omega), if_neg (by omega)]
    congr 1
    rw [if_pos (by norm_num), if_pos rfl, if_pos rfl]
    push_cast [Nat.cast_sub (show 1 ≤ 2 ^ F.f by omega)]
    have : (2 : ℚ) ^ (-(F.f : ℤ)) * 2 ^ F.f = 1 := by rw [← zpow_natCast, ← zpow_add₀ (by norm_num)]; simp
    rw [sub_eq_add_neg (1 + bias F) (F.f : ℤ), zpow_add₀ (by norm_num) (1 + bias F), show (0 : ℤ) + bias F + 1 = 1 + bias F by ring]
    linear_combination -(2 : ℚ) ^ (1 + bias F) * this
  have e2 : Float.integerCoding F (.num 1) = .ok (pack F 0 (2 ^ (F.e - 1) - 1) 0) := by
    apply pat F he hf _ (Float.pack_lt F 0 _ 0 (by omega) (by omega) (by omega))
    rw [Float.decode_pack F 0 _ 0 (by omega) (by omega), if_neg (by omega), if_neg (by omega)]
    congr 1
    have : ((2 ^ (F.e - 1) - 1 : ℕ) : ℤ) + bias F + 0 = 0 := by
      unfold bias; push_cast [Nat.cast_sub (show 1 ≤ 2 ^ (F.e - 1) by omega)]; ring
    rw [if_neg (by norm_num), if_neg (by omega), if_neg (by omega), this]
    simp
  unfold mantExt
  rw [e1, e2]
  simp only [bind, Except.bind, pure, Except.pure]
  rw [pack_mask F s x m _ hs hm hx (by omega)]

theorem mant_val (F : Fmt) (he : 2 ≤ F.e) (hf : 1 ≤ F.f) (s m : ℕ) (hs : s ≤ 1) (hm : m < 2 ^ F.f) :
    F.decode (pack F s (2 ^ (F.e - 1) - 1) m) = .num ((if s ≠ 0 then -1 else 1) * (1 + m * (2 : ℚ) ^ (-(F.f : ℤ)))) := by
  have hq : 2 ^ F.e = 2 * 2 ^ (F.e - 1) := by rw [← pow_succ']; congr 1; omega
  have hq1 : 2 ≤ 2 ^ (F.e - 1) := by calc 2 = 2 ^ 1 := rfl
                                       _ ≤ _ := Nat.pow_le_pow_right (by norm_num) (by omega)
  rw [← Float.C01_decode_ieee F (by omega) hf _ (Float.pack_lt F s _ m hs hm (by omega)), Float.decode_pack F s _ m hm (by omega), if_neg (by omega), if_neg (by omega)]
  have : ((2 ^ (F.e - 1) - 1 : ℕ) : ℤ) + bias F + 0 = 0 := by
    unfold bias; push_cast [Nat.cast_sub (show 1 ≤ 2 ^ (F.e - 1) by omega)]; ring
  rw [if_neg (show ¬ (2 ^ (F.e - 1) - 1 = 0) by omega), if_neg (show ¬ (2 ^ (F.e - 1) - 1 = 0) by omega), this]
  simp

/-- C86 (partial): the extraction of the mantissa of a normal number gives the number in [1, 2), up to its sign, of which it is the product by a power of two -/
theorem C86_mantissa_partial (F : Fmt) (he : 2 ≤ F.e) (hf : 1 ≤ F.f) (x : ℕ) (hx : x < 2 ^ (1 + F.e + F.f)) (v : ℚ) (hv : F.decode x = .num v) (hn : F.Normal v) :
    ∃ y u, mantExt F x = .ok y ∧ F.decode y = .num u ∧ 1 ≤ |u| ∧ |u| < 2 ∧ ∃ k : ℤ, v = u * (2 : ℚ) ^ k := by
  obtain ⟨s, E, m, hs, hE, hm, rfl⟩ := Float.exists_pack F x hx
  have hp : (0 : ℚ) < (2 : ℚ) ^ (-(F.f : ℤ)) := zpow_pos (by norm_num) _
  have hmq : (m : ℚ) * (2 : ℚ) ^ (-(F.f : ℤ)) < 1 := by
    have h1 : (m : ℚ) < 2 ^ F.f := by exact_mod_cast hm
    have h2 : (2 : ℚ) ^ F.f * (2 : ℚ) ^ (-(F.f : ℤ)) = 1 := by rw [← zpow_natCast, ← zpow_add₀ (by norm_num)]; simp
    nlinarith
  have hm0 : 0 ≤ (m : ℚ) * (2 : ℚ) ^ (-(F.f : ℤ)) := mul_nonneg (Nat.cast_nonneg m) hp.le
  have habs : |(if s ≠ 0 then (-1 : ℚ) else 1)| = 1 := by split_ifs <;> simp
  refine ⟨_, _, mant_eq F he hf s E m hs hm hE, mant_val F he hf s m hs hm, ?_, ?_, ?_⟩
  · rw [abs_mul, habs, abs_of_nonneg (by linarith)]; linarith
  · rw [abs_mul, habs, abs_of_nonneg (by linarith)]; linarith
  · rw [← Float.C01_decode_ieee F (by omega) hf _ hx, Float.decode_pack F s E m hm hE] at hv
    have hbias : bias F + 1 = F.emin := by unfold bias Fmt.emin Fmt.emax; ring
    have c1 : ¬ E = 2 ^ F.e - 1 := by
      intro h
      rw [if_pos h] at hv
      split_ifs at hv
    have c2 : ¬ (E = 0 ∧ m = 0) := by
      intro h
      rw [if_neg c1, if_pos h] at hv
      split_ifs at hv
    rw [if_neg c1, if_neg c2] at hv
    have hv' := Val.num.inj hv
    by_cases h0 : E = 0
    · exfalso
      have := hn.2
      rw [if_pos h0, if_pos h0, h0] at hv'
      rw [← hv', abs_mul, abs_mul, habs, one_mul, zero_add, abs_of_nonneg hm0, Nat.cast_zero, zero_add, hbias, abs_of_pos (zpow_pos (by norm_num) _)] at this
      have hpe : (0 : ℚ) < (2 : ℚ) ^ F.emin := zpow_pos (by norm_num) _
      nlinarith
    · refine ⟨(E : ℤ) + bias F + 0, ?_⟩
      rw [if_neg h0, if_neg h0] at hv'
      rw [← hv']
      ring

example : (⟨8, 23⟩ : Fmt).decode 0x40490fdb = .num ((2 ^ 23 + 0x490fdb) * (2 : ℚ) ^ (-22 : ℤ)) := by
  simp [Fmt.decode, Fmt.emax]

/-- C86: the mantissa of a zero is one; that of an infinity or of a NaN is a number; a subnormal number is not the product of its mantissa by a power of two -/
theorem C86_mantissa_wrong (F : Fmt) (he : 2 ≤ F.e) (hf : 1 ≤ F.f) (x : ℕ) (hx : x < 2 ^ (1 + F.e + F.f)) :
    ∃ y u, mantExt F x = .ok y ∧ F.decode y = .num u ∧ 1 ≤ |u| ∧ (F.decode x = .plusZero → u = 1) ∧
      ∀ v, F.decode x = .num v → F.Subnormal v → ¬ ∃ k : ℤ, v = u * (2 : ℚ) ^ k := by
  obtain ⟨s, E, m, hs, hE, hm, rfl⟩ := Float.exists_pack F x hx
  have hp : (0 : ℚ) < (2 : ℚ) ^ (-(F.f : ℤ)) := zpow_pos (by norm_num) _
  have hm0 : 0 ≤ (m : ℚ) * (2 : ℚ) ^ (-(F.f : ℤ)) := mul_nonneg (Nat.cast_nonneg m) hp.le
  have habs : |(if s ≠ 0 then (-1 : ℚ) else 1)| = 1 := by split_ifs <;> simp
  have hdec := Float.C01_decode_ieee F (by omega) hf _ hx
  rw [Float.decode_pack F s E m hm hE] at hdec
  refine ⟨_, _, mant_eq F he hf s E m hs hm hE, mant_val F he hf s m hs hm, ?_, ?_, ?_⟩
  · rw [abs_mul, habs, abs_of_nonneg (by linarith)]; linarith
  · intro h0
    rw [h0] at hdec
    have c1 : ¬ E = 2 ^ F.e - 1 := by
      intro h
      rw [if_pos h] at hdec
      split_ifs at hdec
    rw [if_neg c1] at hdec
    split_ifs at hdec with h1 h2
    rw [if_neg h2, h1.2]
    simp
  · intro v hv hsub
    rintro ⟨k, hk⟩
    rw [hv] at hdec
    have c1 : ¬ E = 2 ^ F.e - 1 := by
      intro h
      rw [if_pos h] at hdec
      split_ifs at hdec
    have c2 : ¬ (E = 0 ∧ m = 0) := by
      intro h
      rw [if_neg c1, if_pos h] at hdec
      split_ifs at hdec
    rw [if_neg c1, if_neg c2] at hdec
    have hv' := Val.num.inj hdec
    have hpe : (0 : ℚ) < (2 : ℚ) ^ F.emin := zpow_pos (by norm_num) _
    have hbias : bias F + 1 = F.emin := by unfold bias Fmt.emin Fmt.emax; ring
    by_cases h0 : E = 0
    · rw [if_pos h0, if_pos h0, h0] at hv'
      have hmpos : 0 < m := by
        rcases Nat.eq_zero_or_pos m with h | h
        · exact absurd ⟨h0, h⟩ c2
        · exact h
      have e : (m : ℚ) * (2 : ℚ) ^ F.emin = (2 ^ F.f + m) * (2 : ℚ) ^ k := by
        have h1 : |v| = (2 : ℚ) ^ F.emin * (m * (2 : ℚ) ^ (-(F.f : ℤ))) := by
          rw [← hv', abs_mul, abs_mul, habs, one_mul, zero_add, abs_of_nonneg hm0, Nat.cast_zero, zero_add, hbias, abs_of_pos hpe]
        have h2 : |v| = (1 + m * (2 : ℚ) ^ (-(F.f : ℤ))) * (2 : ℚ) ^ k := by
          rw [hk, abs_mul, abs_mul, habs, one_mul, abs_of_nonneg (by linarith), abs_of_pos (zpow_pos (by norm_num) _)]
        have h3 : (2 : ℚ) ^ F.f * (2 : ℚ) ^ (-(F.f : ℤ)) = 1 := by rw [← zpow_natCast, ← zpow_add₀ (by norm_num)]; simp
        rw [h1] at h2
        have h4 : (2 : ℚ) ^ F.f ≠ 0 := by positivity
        linear_combination (2 : ℚ) ^ F.f * h2 - (2 : ℚ) ^ F.emin * m * h3 + m * (2 : ℚ) ^ k * h3
      have hmlt : (m : ℚ) < 2 ^ F.f := by exact_mod_cast hm
      have hmq : (0 : ℚ) < m := by exact_mod_cast hmpos
      have hkpos : (0 : ℚ) < (2 : ℚ) ^ k := zpow_pos (by norm_num) _
      have e2 : (m : ℚ) * (2 : ℚ) ^ (F.emin - k) = 2 ^ F.f + m := by
        rw [zpow_sub₀ (by norm_num), mul_div_assoc', div_eq_iff hkpos.ne']
        exact e
      have hj : 2 ≤ F.emin - k := by
        by_contra hlt
        have : (2 : ℚ) ^ (F.emin - k) ≤ (2 : ℚ) ^ (1 : ℤ) := zpow_le_zpow_right₀ (by norm_num) (by omega)
        rw [zpow_one] at this
        nlinarith
      obtain ⟨n, hn⟩ := Int.eq_ofNat_of_zero_le (show 0 ≤ F.emin - k by omega)
      rw [hn, zpow_natCast] at e2
      have e3 : m * 2 ^ n = 2 ^ F.f + m := by exact_mod_cast e2
      have hn2 : 2 ≤ n := by omega
      have hpn : 4 ≤ 2 ^ n := by calc 4 = 2 ^ 2 := rfl
                                   _ ≤ _ := Nat.pow_le_pow_right (by norm_num) hn2
      have e4 : m * (2 ^ n - 1) = 2 ^ F.f := by rw [Nat.mul_sub, e3]; omega
      obtain ⟨i, _, hi⟩ := (Nat.dvd_prime_pow Nat.prime_two).1 (show 2 ^ n - 1 ∣ 2 ^ F.f from ⟨m, by rw [Nat.mul_comm]; exact e4.symm⟩)
      have hev : 2 ^ n = 2 * 2 ^ (n - 1) := by rw [← pow_succ']; congr 1; omega
      rcases Nat.eq_zero_or_pos i with h | h
      · rw [h] at hi; omega
      · have : 2 ^ i = 2 * 2 ^ (i - 1) := by rw [← pow_succ']; congr 1; omega
        omega
    · rw [if_neg h0, if_neg h0] at hv'
      have hlt := hsub.2.2
      rw [← hv', abs_mul, abs_mul, habs, one_mul, abs_of_nonneg (show 0 ≤ 1 + (m : ℚ) * (2 : ℚ) ^ (-(F.f : ℤ)) by linarith), abs_of_pos (zpow_pos (by norm_num) _)] at hlt
      have : (2 : ℚ) ^ F.emin ≤ (2 : ℚ) ^ ((E : ℤ) + bias F + 0) := zpow_le_zpow_right₀ (by norm_num) (by omega)
      nlinarith

/-! ## Tables -/

/-- C86: the linear index of an element of a table of two dimensions that fits the format of the indices is that of the element in the rows put end to end -/
theorem C86_table_index {α : Type} (w : ℕ) (t : List (List α)) (d1 i0 i1 : ℕ) (hrow : ∀ r ∈ t, r.length = d1) (h0 : i0 < t.length) (h1 : i1 < d1) (hs : t.length * d1 ≤ 2 ^ (w - 1)) (hw : 1 ≤ w) :
    ∃ n : ℕ, linIndex w d1 i0 i1 = n ∧ ∃ r, t[i0]? = some r ∧ t.flatten[n]? = r[i1]? ∧ (r[i1]?).isSome := by
  have hlt : i0 * d1 + i1 < t.length * d1 := by
    have : (i0 + 1) * d1 ≤ t.length * d1 := Nat.mul_le_mul_right _ h0
    rw [Nat.add_mul, Nat.one_mul] at this
    omega
  have hpw : 2 ^ w = 2 * 2 ^ (w - 1) := by rw [← pow_succ']; congr 1; omega
  have hb : ∀ a : ℕ, a < 2 ^ (w - 1) → ((a : ℤ)).bmod (2 ^ w) = a := by
    intro a ha
    apply Int.bmod_eq_of_le
    · have : (0 : ℤ) ≤ ((2 ^ w : ℕ) : ℤ) / 2 := by positivity
      omega
    · rw [hpw]; push_cast
      have : ((a : ℕ) : ℤ) < 2 ^ (w - 1) := by exact_mod_cast ha
      omega
  refine ⟨i0 * d1 + i1, ?_, t[i0], List.getElem?_eq_getElem h0, ?_, ?_⟩
  · unfold linIndex
    rw [← Nat.cast_mul, hb (i0 * d1) (by omega), ← Nat.cast_add, hb _ (by omega)]
  · have : ∀ (t : List (List α)) (i0 : ℕ) (h0 : i0 < t.length), (∀ r ∈ t, r.length = d1) → t.flatten[i0 * d1 + i1]? = t[i0][i1]? := by
      intro t
      induction t with
      | nil => intro i0 h0; simp at h0
      | cons r rs ih =>
        intro i0 h0 hr
        have hl := hr r (by simp)
        rw [List.flatten_cons]
        cases i0 with
        | zero => rw [Nat.zero_mul, Nat.zero_add, List.getElem?_append_left (by omega)]; rfl
        | succ i0 =>
          rw [List.getElem?_append_right (by rw [hl, Nat.add_mul]; omega), hl, show (i0 + 1) * d1 + i1 - d1 = i0 * d1 + i1 by rw [Nat.add_mul]; omega,
            ih i0 (by simpa using h0) fun q hq => hr q (by simp [hq])]
          rfl
    exact this t i0 h0 hrow
  · rw [List.getElem?_eq_getElem (by rw [hrow _ (List.getElem_mem h0)]; exact h1)]; rfl

example : ∃ t : List (List ℕ), (∀ r ∈ t, r.length = 2) ∧ 1 < t.length ∧ t.length * 2 ≤ 2 ^ (32 - 1) := ⟨[[1, 2], [3, 4]], by simp, by simp, by norm_num⟩

end Verif.X86
