import Verif.HW.Lzc
import Mathlib.Data.Int.Order.Lemmas
import Mathlib.Tactic.LinearCombination

/-!
# C42: leading-zero anticipation (`ML_LeadingZeroAnticipator.generate_lza`, lza.py:80-176)
-/

namespace Verif.HW

/-- Value of an operand read as an integer of its declared signedness. -/
def opVal {w : ℕ} (signed : Bool) (x : BitVec w) : ℤ := if signed then x.toInt else x.toNat

/-- `TypeCast(Conversion(TypeCast(op, fixed), common_fixed), common_raw)` (lza.py:98-117): the integer value of the
operand written on the common size. -/
def lzaExt {w : ℕ} (signed : Bool) (n : ℕ) (x : BitVec w) : BitVec n := BitVec.ofInt n (opVal signed x)

/-- `common_size` (lza.py:90). -/
def commonSize (lw rw : ℕ) : ℕ := 1 + max rw lw

/-- `pos_signal` (lza.py:124-149), on `common_size - 1` bits. -/
def posSignal (n : ℕ) (lhs rhs : BitVec n) : BitVec (n - 1) :=
  let propagate := lhs ^^^ rhs
  let kill := ~~~lhs &&& ~~~rhs
  ~~~(propagate.extractLsb' 1 (n - 1) ^^^ kill.extractLsb' 0 (n - 1))

/-- `neg_signal` (lza.py:124-159). -/
def negSignal (n : ℕ) (lhs rhs : BitVec n) : BitVec (n - 1) :=
  let propagate := lhs ^^^ rhs
  let generateS := lhs &&& rhs
  ~~~(propagate.extractLsb' 1 (n - 1) ^^^ generateS.extractLsb' 0 (n - 1))

/-- `pos_lzc` (lza.py:161-168); the counter is the one of `lzc.py`. -/
def posLzc {lw rw : ℕ} (ls rs : Bool) (l : BitVec lw) (r : BitVec rw) : ℕ :=
  hwLzc _ (posSignal (commonSize lw rw) (lzaExt ls _ l) (lzaExt rs _ r))

/-- `neg_lzc` (lza.py:169-174). -/
def negLzc {lw rw : ℕ} (ls rs : Bool) (l : BitVec lw) (r : BitVec rw) : ℕ :=
  hwLzc _ (negSignal (commonSize lw rw) (lzaExt ls _ l) (lzaExt rs _ r))

/-! ## Bits of an integer -/

theorem ofInt_bit (n : ℕ) (a : ℤ) (i : ℕ) (hi : i < n) :
    (BitVec.ofInt n a).getLsbD i = decide (a / 2 ^ i % 2 = 1) := by
  rw [BitVec.getLsbD, Nat.testBit_eq_decide_div_mod_eq, BitVec.toNat_ofInt]
  congr 1
  have h0 : 0 ≤ a % ((2 ^ n : ℕ) : ℤ) := Int.emod_nonneg _ (by have := Nat.two_pow_pos n; omega)
  have hcast : (((a % ((2 ^ n : ℕ) : ℤ)).toNat / 2 ^ i % 2 : ℕ) : ℤ) = a / 2 ^ i % 2 := by
    rw [Int.natCast_mod, Int.natCast_ediv, Int.toNat_of_nonneg h0]
    push_cast
    obtain ⟨k, rfl⟩ : ∃ k, n = i + 1 + k := ⟨n - i - 1, by omega⟩
    have hd : a = a % 2 ^ (i + 1 + k) + 2 ^ (i + 1 + k) * (a / 2 ^ (i + 1 + k)) := (Int.emod_add_mul_ediv _ _).symm
    generalize a % 2 ^ (i + 1 + k) = r at *
    generalize a / 2 ^ (i + 1 + k) = q at *
    have : (2 : ℤ) ^ (i + 1 + k) * q = (2 * 2 ^ k * q) * 2 ^ i := by rw [pow_add, pow_add]; ring
    rw [hd, this, Int.add_mul_ediv_right _ _ (by positivity)]
    generalize r / 2 ^ i = z
    rw [mul_assoc]
    omega
  apply propext
  constructor
  · intro h; rw [← hcast, h]; rfl
  · intro h; rw [← hcast] at h; exact_mod_cast h

theorem ediv_succ (a : ℤ) (i : ℕ) : a / 2 ^ (i + 1) = a / 2 ^ i / 2 := by
  rw [pow_succ, ← Int.ediv_ediv_of_nonneg (by positivity)]

theorem posSignal_bit (n : ℕ) (a b : ℤ) (i : ℕ) (hi : i < n - 1) :
    (posSignal n (BitVec.ofInt n a) (BitVec.ofInt n b)).getLsbD i =
      !((decide (a / 2 ^ i / 2 % 2 = 1) ^^ decide (b / 2 ^ i / 2 % 2 = 1)) ^^
        (!decide (a / 2 ^ i % 2 = 1) && !decide (b / 2 ^ i % 2 = 1))) := by
  unfold posSignal
  simp only [BitVec.getLsbD_not, BitVec.getLsbD_xor, BitVec.getLsbD_extractLsb', BitVec.getLsbD_and, Nat.zero_add]
  rw [ofInt_bit n a i (by omega), ofInt_bit n b i (by omega), ofInt_bit n a (1 + i) (by omega),
    ofInt_bit n b (1 + i) (by omega), Nat.add_comm 1 i, ediv_succ, ediv_succ]
  simp [hi, show i < n from by omega]

theorem negSignal_bit (n : ℕ) (a b : ℤ) (i : ℕ) (hi : i < n - 1) :
    (negSignal n (BitVec.ofInt n a) (BitVec.ofInt n b)).getLsbD i =
      !((decide (a / 2 ^ i / 2 % 2 = 1) ^^ decide (b / 2 ^ i / 2 % 2 = 1)) ^^
        (decide (a / 2 ^ i % 2 = 1) && decide (b / 2 ^ i % 2 = 1))) := by
  unfold negSignal
  simp only [BitVec.getLsbD_not, BitVec.getLsbD_xor, BitVec.getLsbD_extractLsb', BitVec.getLsbD_and, Nat.zero_add]
  rw [ofInt_bit n a i (by omega), ofInt_bit n b i (by omega), ofInt_bit n a (1 + i) (by omega),
    ofInt_bit n b (1 + i) (by omega), Nat.add_comm 1 i, ediv_succ, ediv_succ]
  simp [hi]

/-- What a leading-zero count says of the bits. -/
theorem IsLzc.bits {w : ℕ} {f : BitVec w} {k : ℕ} (h : IsLzc w f.toNat k) :
    (∀ j, w - k ≤ j → f.getLsbD j = false) ∧ (k < w → f.getLsbD (w - 1 - k) = true) := by
  constructor
  · intro j hj
    rw [BitVec.getLsbD]
    apply Nat.testBit_lt_two_pow
    have := h.2.1
    have h2 : 2 ^ (w - k) ≤ 2 ^ j := Nat.pow_le_pow_right (by decide) hj
    omega
  · intro hk
    rw [BitVec.getLsbD]
    have h1 := h.2.2 hk
    have h2 := h.2.1
    rw [show w - k = (w - 1 - k) + 1 from by omega, pow_succ] at h2
    rw [Nat.testBit_eq_decide_div_mod_eq, decide_eq_true_iff]
    have h3 : f.toNat / 2 ^ (w - 1 - k) = 1 := by
      rw [Nat.div_eq_iff (Nat.two_pow_pos _)]
      omega
    rw [h3]

/-- Low parts: `S = (a / 2^i + b / 2^i) 2^i + low` with `0 ≤ low ≤ 2 (2^i - 1)`. -/
theorem split_sum (a b : ℤ) (i : ℕ) : ∃ low : ℤ, 0 ≤ low ∧ low ≤ 2 * (2 ^ i - 1) ∧
    a + b = (a / 2 ^ i + b / 2 ^ i) * 2 ^ i + low := by
  have hp : (0 : ℤ) < 2 ^ i := by positivity
  have ha := Int.emod_nonneg a hp.ne'
  have hb := Int.emod_nonneg b hp.ne'
  have ha' := Int.emod_lt_of_pos a hp
  have hb' := Int.emod_lt_of_pos b hp
  have ea := Int.emod_add_mul_ediv a (2 ^ i)
  have eb := Int.emod_add_mul_ediv b (2 ^ i)
  refine ⟨a % 2 ^ i + b % 2 ^ i, by omega, by omega, ?_⟩
  linear_combination -ea - eb

/-- Invariant of the zeros of the positive signal. -/
theorem pos_inv (n : ℕ) (a b : ℤ) (ha : a / 2 ^ (n - 1) = 0 ∨ a / 2 ^ (n - 1) = -1)
    (hb : b / 2 ^ (n - 1) = 0 ∨ b / 2 ^ (n - 1) = -1) (hS : 0 ≤ a + b) (d : ℕ) :
    ∀ i, n - 1 = i + d →
    (∀ j, i ≤ j → j < n - 1 → (posSignal n (BitVec.ofInt n a) (BitVec.ofInt n b)).getLsbD j = false) →
    (a / 2 ^ i % 2 = b / 2 ^ i % 2 ∧ a / 2 ^ i + b / 2 ^ i = 0) ∨
    (a / 2 ^ i % 2 ≠ b / 2 ^ i % 2 ∧ a / 2 ^ i + b / 2 ^ i = -1) := by
  induction d with
  | zero =>
    intro i hi _
    rw [Nat.add_zero] at hi
    subst hi
    rcases ha with ha | ha <;> rcases hb with hb | hb <;> rw [ha, hb]
    · left; decide
    · right; decide
    · right; decide
    · exfalso
      obtain ⟨low, h1, h2, h3⟩ := split_sum a b (n - 1)
      rw [ha, hb] at h3
      have : (0 : ℤ) < 2 ^ (n - 1) := by positivity
      omega
  | succ d ih =>
    intro i hi hz
    have hprev := ih (i + 1) (by omega) (fun j hj hj' => hz j (by omega) hj')
    have hf := hz i (Nat.le_refl _) (by omega)
    rw [posSignal_bit n a b i (by omega)] at hf
    rw [ediv_succ, ediv_succ] at hprev
    obtain ⟨low, h1, h2, h3⟩ := split_sum a b i
    have hp : (0 : ℤ) < 2 ^ i := by positivity
    generalize hu : a / 2 ^ i = u at *
    generalize hv : b / 2 ^ i = v at *
    have hneg : ¬ u + v ≤ -2 := by
      intro hc
      have : (u + v) * 2 ^ i ≤ (-2) * 2 ^ i := Int.mul_le_mul_of_nonneg_right hc hp.le
      omega
    by_cases c1 : u / 2 % 2 = 1 <;> by_cases c2 : v / 2 % 2 = 1 <;> by_cases c3 : u % 2 = 1 <;>
      by_cases c4 : v % 2 = 1 <;> simp [c1, c2, c3, c4] at hf <;> omega

/-- Invariant of the zeros of the negative signal. -/
theorem neg_inv (n : ℕ) (a b : ℤ) (ha : a / 2 ^ (n - 1) = 0 ∨ a / 2 ^ (n - 1) = -1)
    (hb : b / 2 ^ (n - 1) = 0 ∨ b / 2 ^ (n - 1) = -1) (hS : a + b < 0) (d : ℕ) :
    ∀ i, n - 1 = i + d →
    (∀ j, i ≤ j → j < n - 1 → (negSignal n (BitVec.ofInt n a) (BitVec.ofInt n b)).getLsbD j = false) →
    (a / 2 ^ i % 2 = b / 2 ^ i % 2 ∧ a / 2 ^ i + b / 2 ^ i = -2) ∨
    (a / 2 ^ i % 2 ≠ b / 2 ^ i % 2 ∧ a / 2 ^ i + b / 2 ^ i = -1) := by
  induction d with
  | zero =>
    intro i hi _
    rw [Nat.add_zero] at hi
    subst hi
    rcases ha with ha | ha <;> rcases hb with hb | hb <;> rw [ha, hb]
    · exfalso
      obtain ⟨low, h1, h2, h3⟩ := split_sum a b (n - 1)
      rw [ha, hb] at h3
      omega
    · right; decide
    · right; decide
    · left; decide
  | succ d ih =>
    intro i hi hz
    have hprev := ih (i + 1) (by omega) (fun j hj hj' => hz j (by omega) hj')
    have hf := hz i (Nat.le_refl _) (by omega)
    rw [negSignal_bit n a b i (by omega)] at hf
    rw [ediv_succ, ediv_succ] at hprev
    obtain ⟨low, h1, h2, h3⟩ := split_sum a b i
    have hp : (0 : ℤ) < 2 ^ i := by positivity
    generalize hu : a / 2 ^ i = u at *
    generalize hv : b / 2 ^ i = v at *
    have hneg : ¬ 0 ≤ u + v := by
      intro hc
      have : 0 ≤ (u + v) * 2 ^ i := Int.mul_nonneg hc hp.le
      omega
    by_cases c1 : u / 2 % 2 = 1 <;> by_cases c2 : v / 2 % 2 = 1 <;> by_cases c3 : u % 2 = 1 <;>
      by_cases c4 : v % 2 = 1 <;> simp [c1, c2, c3, c4] at hf <;> omega

/-- The high part of an operand in the common size is its sign. -/
theorem opVal_top {w : ℕ} (s : Bool) (x : BitVec w) (n : ℕ) (hn : w + 1 ≤ n) :
    opVal s x / 2 ^ (n - 1) = 0 ∨ opVal s x / 2 ^ (n - 1) = -1 := by
  have hp : (0 : ℤ) < 2 ^ (n - 1) := by positivity
  have hle : (2 : ℤ) ^ w ≤ 2 ^ (n - 1) := pow_le_pow_right₀ (by decide) (by omega)
  have h1 : -(2 ^ (n - 1) : ℤ) ≤ opVal s x ∧ opVal s x < 2 ^ (n - 1) := by
    unfold opVal
    have hl : (x.toNat : ℤ) < 2 ^ w := by exact_mod_cast x.isLt
    cases s
    · simp only [Bool.false_eq_true, if_false]
      omega
    · simp only [if_true]
      rw [BitVec.toInt_eq_toNat_cond]
      push_cast
      split <;> omega
  by_cases h : 0 ≤ opVal s x
  · left; exact Int.ediv_eq_zero_of_lt h h1.2
  · right
    rw [Int.ediv_eq_iff_of_pos hp]
    omega

/-- Bracketing of a count. -/
theorem lzc_bracket {n v l k : ℕ} (hl : IsLzc n v l) (hk : k + 1 ≤ n) (hlo : k + 1 < n → 2 ^ (n - 2 - k) ≤ v)
    (hhi : v < 2 ^ (n - k)) : k = l ∨ k + 1 = l := by
  have h1 : k ≤ l := by
    by_contra hc
    have := hl.2.2 (by omega)
    have h2 : 2 ^ (n - k) ≤ 2 ^ (n - 1 - l) := Nat.pow_le_pow_right (by decide) (by omega)
    omega
  have h2 : l ≤ k + 1 := by
    by_contra hc
    have h3 := hlo (by have := hl.1; omega)
    have h4 := hl.2.1
    have h5 : 2 ^ (n - l) ≤ 2 ^ (n - 2 - k) := Nat.pow_le_pow_right (by decide) (by have := hl.1; omega)
    omega
  omega

theorem commonSize_ge (lw rw : ℕ) : lw + 1 ≤ commonSize lw rw ∧ rw + 1 ≤ commonSize lw rw := by
  unfold commonSize; omega

/-- **C42** (sum at least zero).  For all operand widths, signednesses and values: the anticipated count is the number
of leading zeros of the sum written on the common size, or one less. -/
theorem C42_pos {lw rw : ℕ} (ls rs : Bool) (l : BitVec lw) (r : BitVec rw) (hS : 0 ≤ opVal ls l + opVal rs r)
    (c : ℕ) (hc : IsLzc (commonSize lw rw) (opVal ls l + opVal rs r).toNat c) :
    posLzc ls rs l r = c ∨ posLzc ls rs l r + 1 = c := by
  have hn := commonSize_ge lw rw
  unfold posLzc
  generalize commonSize lw rw = n at *
  have ha := opVal_top ls l n hn.1
  have hb := opVal_top rs r n hn.2
  unfold lzaExt
  generalize opVal ls l = a at *
  generalize opVal rs r = b at *
  obtain ⟨hk, _⟩ := C35_lzc _ (posSignal n (BitVec.ofInt n a) (BitVec.ofInt n b))
  generalize hwLzc _ (posSignal n (BitVec.ofInt n a) (BitVec.ofInt n b)) = k at *
  have hkb := hk.bits
  have hkn := hk.1
  apply lzc_bracket hc (by omega)
  · intro hlt
    have hinv := pos_inv n a b ha hb hS k (n - 1 - k) (by omega) (fun j hj _ => hkb.1 j hj)
    have hf := hkb.2 (by omega)
    obtain ⟨low, h1, h2, h3⟩ := split_sum a b (n - 1 - 1 - k)
    rw [posSignal_bit n a b _ (by omega)] at hf
    rw [show n - 1 - k = (n - 1 - 1 - k) + 1 from by omega, ediv_succ, ediv_succ] at hinv
    rw [show n - 2 - k = n - 1 - 1 - k from by omega]
    have hp : (0 : ℤ) < 2 ^ (n - 1 - 1 - k) := by positivity
    have hg : 1 ≤ a / 2 ^ (n - 1 - 1 - k) + b / 2 ^ (n - 1 - 1 - k) := by
      generalize a / 2 ^ (n - 1 - 1 - k) = u at *
      generalize b / 2 ^ (n - 1 - 1 - k) = v at *
      have hneg : ¬ u + v ≤ -2 := by
        intro hc
        have : (u + v) * 2 ^ (n - 1 - 1 - k) ≤ (-2) * 2 ^ (n - 1 - 1 - k) := Int.mul_le_mul_of_nonneg_right hc hp.le
        omega
      by_cases c1 : u / 2 % 2 = 1 <;> by_cases c2 : v / 2 % 2 = 1 <;> by_cases c3 : u % 2 = 1 <;>
        by_cases c4 : v % 2 = 1 <;> simp [c1, c2, c3, c4] at hf <;> omega
    have hm : 1 * 2 ^ (n - 1 - 1 - k) ≤ (a / 2 ^ (n - 1 - 1 - k) + b / 2 ^ (n - 1 - 1 - k)) * 2 ^ (n - 1 - 1 - k) :=
      Int.mul_le_mul_of_nonneg_right hg hp.le
    have : ((2 ^ (n - 1 - 1 - k) : ℕ) : ℤ) ≤ a + b := by push_cast; omega
    omega
  · have hinv := pos_inv n a b ha hb hS k (n - 1 - k) (by omega) (fun j hj _ => hkb.1 j hj)
    obtain ⟨low, h1, h2, h3⟩ := split_sum a b (n - 1 - k)
    have hp : (0 : ℤ) < 2 ^ (n - 1 - k) := by positivity
    have hg : a / 2 ^ (n - 1 - k) + b / 2 ^ (n - 1 - k) ≤ 0 := by omega
    have hm : (a / 2 ^ (n - 1 - k) + b / 2 ^ (n - 1 - k)) * 2 ^ (n - 1 - k) ≤ 0 * 2 ^ (n - 1 - k) :=
      Int.mul_le_mul_of_nonneg_right hg hp.le
    have : a + b < ((2 ^ (n - k) : ℕ) : ℤ) := by
      rw [show n - k = (n - 1 - k) + 1 from by omega, pow_succ]
      push_cast
      omega
    omega

/-- **C42** (negative sum).  The anticipated count is the number of leading ones of the sum (the leading zeros of its
one's complement `-S-1`) on the common size, or one less. -/
theorem C42_neg {lw rw : ℕ} (ls rs : Bool) (l : BitVec lw) (r : BitVec rw) (hS : opVal ls l + opVal rs r < 0)
    (c : ℕ) (hc : IsLzc (commonSize lw rw) (-(opVal ls l + opVal rs r) - 1).toNat c) :
    negLzc ls rs l r = c ∨ negLzc ls rs l r + 1 = c := by
  have hn := commonSize_ge lw rw
  unfold negLzc
  generalize commonSize lw rw = n at *
  have ha := opVal_top ls l n hn.1
  have hb := opVal_top rs r n hn.2
  unfold lzaExt
  generalize opVal ls l = a at *
  generalize opVal rs r = b at *
  obtain ⟨hk, _⟩ := C35_lzc _ (negSignal n (BitVec.ofInt n a) (BitVec.ofInt n b))
  generalize hwLzc _ (negSignal n (BitVec.ofInt n a) (BitVec.ofInt n b)) = k at *
  have hkb := hk.bits
  have hkn := hk.1
  apply lzc_bracket hc (by omega)
  · intro hlt
    have hinv := neg_inv n a b ha hb hS k (n - 1 - k) (by omega) (fun j hj _ => hkb.1 j hj)
    have hf := hkb.2 (by omega)
    obtain ⟨low, h1, h2, h3⟩ := split_sum a b (n - 1 - 1 - k)
    rw [negSignal_bit n a b _ (by omega)] at hf
    rw [show n - 1 - k = (n - 1 - 1 - k) + 1 from by omega, ediv_succ, ediv_succ] at hinv
    rw [show n - 2 - k = n - 1 - 1 - k from by omega]
    have hp : (0 : ℤ) < 2 ^ (n - 1 - 1 - k) := by positivity
    have hg : a / 2 ^ (n - 1 - 1 - k) + b / 2 ^ (n - 1 - 1 - k) ≤ -3 := by
      generalize a / 2 ^ (n - 1 - 1 - k) = u at *
      generalize b / 2 ^ (n - 1 - 1 - k) = v at *
      have hneg : ¬ 0 ≤ u + v := by
        intro hc
        have : 0 ≤ (u + v) * 2 ^ (n - 1 - 1 - k) := Int.mul_nonneg hc hp.le
        omega
      by_cases c1 : u / 2 % 2 = 1 <;> by_cases c2 : v / 2 % 2 = 1 <;> by_cases c3 : u % 2 = 1 <;>
        by_cases c4 : v % 2 = 1 <;> simp [c1, c2, c3, c4] at hf <;> omega
    have hm : (a / 2 ^ (n - 1 - 1 - k) + b / 2 ^ (n - 1 - 1 - k)) * 2 ^ (n - 1 - 1 - k) ≤ (-3) * 2 ^ (n - 1 - 1 - k) :=
      Int.mul_le_mul_of_nonneg_right hg hp.le
    have : ((2 ^ (n - 1 - 1 - k) : ℕ) : ℤ) ≤ -(a + b) - 1 := by push_cast; omega
    omega
  · have hinv := neg_inv n a b ha hb hS k (n - 1 - k) (by omega) (fun j hj _ => hkb.1 j hj)
    obtain ⟨low, h1, h2, h3⟩ := split_sum a b (n - 1 - k)
    have hp : (0 : ℤ) < 2 ^ (n - 1 - k) := by positivity
    have hg : -2 ≤ a / 2 ^ (n - 1 - k) + b / 2 ^ (n - 1 - k) := by omega
    have hm : (-2) * 2 ^ (n - 1 - k) ≤ (a / 2 ^ (n - 1 - k) + b / 2 ^ (n - 1 - k)) * 2 ^ (n - 1 - k) :=
      Int.mul_le_mul_of_nonneg_right hg hp.le
    have : -(a + b) - 1 < ((2 ^ (n - k) : ℕ) : ℤ) := by
      rw [show n - k = (n - 1 - k) + 1 from by omega, pow_succ]
      push_cast
      omega
    omega

/-- **C42** (negative sum, as the test bench of lza.py:213-227, 250-284 reads it).  When the magnitude of the sum is not a
power of two, the anticipated count is the number of leading zeros of the magnitude, or one less.

Partial: on `-2 - 2` the anticipated count is one more (`C42_neg_power_wrong`). -/
theorem C42_neg_abs_partial {lw rw : ℕ} (ls rs : Bool) (l : BitVec lw) (r : BitVec rw) (hS : opVal ls l + opVal rs r < 0)
    (hpow : ∀ j, -(opVal ls l + opVal rs r) ≠ 2 ^ j)
    (c : ℕ) (hc : IsLzc (commonSize lw rw) (-(opVal ls l + opVal rs r)).toNat c) :
    negLzc ls rs l r = c ∨ negLzc ls rs l r + 1 = c := by
  apply C42_neg ls rs l r hS c
  have h1 : (-(opVal ls l + opVal rs r) - 1).toNat = (-(opVal ls l + opVal rs r)).toNat - 1 := by omega
  rw [h1]
  refine ⟨hc.1, ?_, ?_⟩
  · have := hc.2.1
    omega
  · intro hlt
    have h2 := hc.2.2 hlt
    have h3 := hpow (commonSize lw rw - 1 - c)
    have h4 : (-(opVal ls l + opVal rs r)).toNat ≠ 2 ^ (commonSize lw rw - 1 - c) := by
      intro he
      apply h3
      have : (((-(opVal ls l + opVal rs r)).toNat : ℕ) : ℤ) = ((2 ^ (commonSize lw rw - 1 - c) : ℕ) : ℤ) := by rw [he]
      rw [Int.toNat_of_nonneg (by omega)] at this
      rw [this]
      push_cast
      rfl
    omega

/-- `(-2) + (-2)` on 8 bits: six leading zeros in the magnitude on nine bits, seven anticipated; an error neither 0 nor
-1, so the check of the test bench fails. -/
theorem C42_neg_power_wrong :
    negLzc true true (-2 : BitVec 8) (-2 : BitVec 8) = 7 ∧ IsLzc 9 4 6 := by
  refine ⟨by decide +kernel, ?_⟩
  unfold IsLzc
  decide

/-- Cases that meet the hypotheses: a cancellation, a carry, and a negative sum. -/
example : posLzc true true (100 : BitVec 8) (-97 : BitVec 8) = 6 ∧ IsLzc 9 3 7 := by
  refine ⟨by decide +kernel, ?_⟩; unfold IsLzc; decide
example : posLzc false false (3 : BitVec 4) (1 : BitVec 4) = 2 ∧ IsLzc 5 4 2 := by
  refine ⟨by decide +kernel, ?_⟩; unfold IsLzc; decide
example : negLzc true true (-100 : BitVec 8) (95 : BitVec 8) = 6 ∧ IsLzc 9 5 6 := by
  refine ⟨by decide +kernel, ?_⟩; unfold IsLzc; decide

end Verif.HW
