import Verif.Legal.Lemmas
import Mathlib.Tactic.LinearCombination

/-!
# C33: fixed-point positions, bit fields, concatenation, slices of slices
-/

namespace Verif.Legal

/-! ## Positions -/

/-- Alignments of `FixedPointPosition` (advanced_operations.py:56-77). -/
inductive Align where
  | fromMSBToLSB | fromLSBToLSB | fromPointToLSB | fromPointToMSB

/-- `fixed_point_position_legalizer` (legalizer.py:185-222) for a format with the given integer and
fraction sizes (`get_bit_size` is their sum, ml_formats.py:838-839). -/
def positionLegalizer (int frac : ℤ) (position : ℤ) : Align → ℤ
  | .fromLSBToLSB => position
  | .fromMSBToLSB => int + frac - 1 - position
  | .fromPointToLSB => frac + position
  | .fromPointToMSB => int - position

/-- Specification: weight of bit `i` (counted from the LSB) of a fixed-point number. -/
def weight (frac i : ℤ) : ℚ := (2 : ℚ) ^ (i - frac)

/-- **C33** (positions).  The resolved index is the index, from the LSB, of the bit denoted: `p` places
above the LSB, `p` places below the MSB, or of weight `2^p`. -/
theorem C33_position_partial (int frac p i : ℤ) :
    (positionLegalizer int frac p .fromLSBToLSB = i ↔ weight frac i = 2 ^ p * weight frac 0) ∧
    (positionLegalizer int frac p .fromMSBToLSB = i ↔ weight frac (int + frac - 1) = 2 ^ p * weight frac i) ∧
    (positionLegalizer int frac p .fromPointToLSB = i ↔ weight frac i = 2 ^ p) := by
  have hinj : ∀ a b : ℤ, (2 : ℚ) ^ a = (2 : ℚ) ^ b ↔ a = b := fun a b =>
    zpow_right_inj₀ (by norm_num) (by norm_num)
  simp only [positionLegalizer, weight, ← Verif.Float.zadd, hinj]
  refine ⟨?_, ?_, ?_⟩ <;> constructor <;> intro h <;> linarith

example : positionLegalizer 3 5 1 .fromPointToLSB = 6 ∧ weight 5 6 = 2 := by
  refine ⟨rfl, ?_⟩; norm_num [weight]

/-- The fourth alignment is documented as the (negative or null) position counted from the MSB; the
code returns the number of bits from the position up to the MSB included instead, which is never the
documented value. -/
theorem C33_point_to_msb_wrong (int frac p : ℤ) :
    positionLegalizer int frac p .fromPointToMSB = (int + frac) - (frac + p) ∧
    positionLegalizer int frac p .fromPointToMSB ≠ (frac + p) - (int + frac - 1) := by
  simp only [positionLegalizer]
  constructor
  · ring
  · omega

/-! ## Bit fields -/

/-- The integer a fixed-point pattern stands for, in units of its last place. -/
def intVal {n : ℕ} (signed : Bool) (x : BitVec n) : ℤ := if signed then x.toInt else x.toNat

/-- `Conversion` between fixed-point formats: same value, rounded down if bits are lost, wrapped to
the destination width.  (Conversions are code-generation primitives; this is their value semantics.) -/
def convert {n : ℕ} (signed : Bool) (frac : ℤ) (m : ℕ) (frac' : ℤ) (x : BitVec n) : BitVec m :=
  BitVec.ofInt m (if frac ≤ frac' then intVal signed x * 2 ^ (frac' - frac).toNat
    else intVal signed x / 2 ^ (frac - frac').toNat)

/-- `generate_bitfield_extraction` (p_rtl_legalize.py:218-248) from an `n`-bit input to an `m`-bit fixed-point
format with `frac` fractional bits; `>>` is arithmetic on signed inputs.  Lines 222-229: the masked
integer is first reinterpreted with the fraction size of the target, so that the conversion of 247 does not
move the point. -/
def bitfieldExtraction {n : ℕ} (signed : Bool) (m : ℕ) (frac : ℤ) (x : BitVec n) (lo hi : ℕ) : BitVec m :=
  let shifted := if lo = 0 then x else if signed then x.sshiftRight lo else x >>> lo
  let masked := shifted &&& BitVec.ofNat n (2 ^ (hi - lo + 1) - 1)
  convert false frac m frac masked

theorem convert_same {n m : ℕ} (frac : ℤ) (y : BitVec n) :
    convert false frac m frac y = BitVec.ofNat m y.toNat := by
  simp [convert, intVal]

theorem masked_toNat {n : ℕ} (signed : Bool) (x : BitVec n) (lo hi : ℕ) (hlo : lo ≤ hi) (hhi : hi < n) :
    ((if lo = 0 then x else if signed then x.sshiftRight lo else x >>> lo) &&&
      BitVec.ofNat n (2 ^ (hi - lo + 1) - 1)).toNat = x.toNat / 2 ^ lo % 2 ^ (hi - lo + 1) := by
  have hle : hi - lo + 1 ≤ n := by omega
  have hm : (BitVec.ofNat n (2 ^ (hi - lo + 1) - 1)).toNat = 2 ^ (hi - lo + 1) - 1 := by
    rw [BitVec.toNat_ofNat, Nat.mod_eq_of_lt]
    have h1 : 2 ^ (hi - lo + 1) ≤ 2 ^ n := Nat.pow_le_pow_right (by decide) hle
    have := Nat.two_pow_pos (hi - lo + 1)
    omega
  apply Nat.eq_of_testBit_eq
  intro i
  rw [BitVec.toNat_and, hm, Nat.testBit_and, Nat.testBit_two_pow_sub_one, Nat.testBit_mod_two_pow,
    Nat.testBit_div_two_pow]
  by_cases hi' : i < hi - lo + 1
  · simp only [hi', decide_true, Bool.and_true, Bool.true_and]
    by_cases h0 : lo = 0
    · subst h0; simp
    · rw [if_neg h0]
      cases signed with
      | true =>
        show (x.sshiftRight lo).getLsbD i = _
        rw [BitVec.getLsbD_sshiftRight]
        have h1 : ¬ n ≤ i := by omega
        have h2 : lo + i < n := by omega
        simp only [h1, decide_false, Bool.not_false, Bool.true_and, if_pos h2]
        rw [Nat.add_comm lo i]; rfl
      | false =>
        show (x >>> lo).getLsbD i = _
        rw [BitVec.getLsbD_ushiftRight, Nat.add_comm lo i]; rfl
  · simp [hi']

/-- **C33** (bit fields).  For every width, signedness and pattern, the software lowering of the slice
`x[lo..hi]` (and of the selection of bit `lo = hi`) into a format wide enough has bit `lo + i` of `x` at
place `i`, and zeros above. -/
theorem C33_bitfield {n : ℕ} (signed : Bool) (m : ℕ) (frac : ℤ) (x : BitVec n) (lo hi : ℕ) (hlo : lo ≤ hi)
    (hhi : hi < n) (hm : hi - lo + 1 ≤ m) (i : ℕ) :
    (bitfieldExtraction signed m frac x lo hi).getLsbD i = (decide (lo + i ≤ hi) && x.getLsbD (lo + i)) := by
  unfold bitfieldExtraction
  rw [convert_same, masked_toNat signed x lo hi hlo hhi, BitVec.getLsbD_ofNat, Nat.testBit_mod_two_pow,
    Nat.testBit_div_two_pow]
  by_cases h : lo + i ≤ hi
  · have h1 : i < m := by omega
    have h2 : i < hi - lo + 1 := by omega
    simp only [h, h1, h2, decide_true, Bool.true_and]
    rw [Nat.add_comm lo i]; rfl
  · have h2 : ¬ i < hi - lo + 1 := by omega
    simp [h, h2]

example : bitfieldExtraction true 3 0 (0b10110100#8) 5 7 = 0b101#3 := by decide

/-! ## Concatenation -/

/-- `sw_legalize_concatenation` (p_rtl_legalize.py:279-291):
`(Conversion(lhs) << bit_size(rhs)) | Conversion(rhs)` in the node's format. -/
def concatenation {n k : ℕ} (sl sr : Bool) (fl fr : ℤ) (m : ℕ) (fm : ℤ) (x : BitVec n) (y : BitVec k) : BitVec m :=
  (convert sl fl m fm x <<< k) ||| convert sr fr m fm y

/-- **C33** (concatenation).  When the point is at the same place in the three formats and the right
operand is unsigned, the lowering is the concatenation of the bits.

Partial: for a signed right operand (`C33_concat_signed_wrong`), or when the point moves
(`C33_concat_fraction_wrong`), it is not. -/
theorem C33_concat_partial {n k : ℕ} (sl : Bool) (frac : ℤ) (x : BitVec n) (y : BitVec k) :
    concatenation sl false frac frac (n + k) frac x y = x ++ y := by
  unfold concatenation
  rw [convert_same]
  apply BitVec.eq_of_getLsbD_eq
  intro i hi
  rw [BitVec.getLsbD_or, BitVec.getLsbD_shiftLeft, BitVec.getLsbD_append, BitVec.getLsbD_ofNat]
  by_cases hk : i < k
  · simp only [hk, decide_true, Bool.not_true, Bool.and_false, Bool.false_and, Bool.false_or, if_true, hi,
      Bool.true_and]
    rfl
  · have hx : (convert sl frac (n + k) frac x).getLsbD (i - k) = x.getLsbD (i - k) := by
      have hin : i - k < n := by omega
      cases sl with
      | false =>
        rw [convert_same, BitVec.getLsbD_ofNat]
        have : i - k < n + k := by omega
        simp only [this, decide_true, Bool.true_and]; rfl
      | true =>
        have : convert true frac (n + k) frac x = x.signExtend (n + k) := by
          simp [convert, intVal, BitVec.signExtend]
        rw [this, BitVec.getLsbD_signExtend]
        have h1 : i - k < n + k := by omega
        simp [h1, hin]
    have hy : y.toNat.testBit i = false := y.getLsbD_of_ge i (by omega)
    simp [hk, hi, hx, hy]

example : concatenation true false 0 0 (3 + 2) 0 (0b101#3) (0b01#2) = 0b10101#5 := by decide

/-- A negative signed right operand is sign extended over the left one. -/
theorem C33_concat_signed_wrong :
    concatenation false true 0 0 (3 + 2) 0 (0b000#3) (0b11#2) = 0b11111#5 ∧
    (0b000#3 ++ 0b11#2 : BitVec 5) = 0b00011#5 := by decide

/-- A right operand with a fraction that the result has not is shifted out. -/
theorem C33_concat_fraction_wrong :
    concatenation false false 0 2 (3 + 2) 0 (0b101#3) (0b11#2) = 0b10100#5 ∧
    (0b101#3 ++ 0b11#2 : BitVec 5) = 0b10111#5 := by decide

/-! ## Slices of slices -/

/-- Signal expressions seen by the simplifier; every other kind of node is a `leaf`.  Indices are
the integers that `evaluate_cst_graph` returns. -/
inductive Sig where
  | leaf (name width : ℕ)
  | cst (v : ℤ) (frac : ℤ) (width : ℕ)
  | sub (x : Sig) (lo hi : ℕ)
  | bit (x : Sig) (i : ℕ)
  deriving DecidableEq

def Sig.size : Sig → ℕ
  | .leaf _ _ => 1
  | .cst _ _ _ => 1
  | .sub x _ _ => x.size + 1
  | .bit x _ => x.size + 1

/-- Specification: number of bits of a signal. -/
def Sig.width : Sig → ℕ
  | .leaf _ w => w
  | .cst _ _ w => w
  | .sub _ lo hi => hi - lo + 1
  | .bit _ _ => 1

/-- Specification: bit `i` of a signal, given the bits of the leaves.  A fixed-point constant `v` with
`frac` fractional bits is coded by the integer `v * 2^frac`. -/
def Sig.bits (env : ℕ → ℕ → Bool) : Sig → ℕ → Bool
  | .leaf a w, i => decide (i < w) && env a i
  | .cst v frac w, i => decide (i < w) && decide (v * 2 ^ frac.toNat / 2 ^ (-frac).toNat / 2 ^ i % 2 = 1)
  | .sub x lo hi, i => decide (lo + i ≤ hi) && x.bits env (lo + i)
  | .bit x j, i => decide (i = 0) && x.bits env j

/-- Slices and bits are taken inside their operand. -/
def Sig.Valid : Sig → Prop
  | .sub x lo hi => x.Valid ∧ lo ≤ hi ∧ hi < x.width
  | .bit x i => x.Valid ∧ i < x.width
  | _ => True

inductive SErr where
  | fuel
  /-- `ValueError: negative shift count` -/
  | negativeShift
  deriving DecidableEq

/-- Bit selection in a constant, p_simplify_rtl.py:85-92. -/
def cstBit (v frac : ℤ) (i : ℕ) : Except SErr Sig :=
  if (i : ℤ) + -frac < 0 then .error .negativeShift
  else .ok (.cst ((v >>> ((i : ℤ) + -frac).toNat) % 2) 0 1)

/-- `BasicSimplifier.simplify_node` (p_simplify_rtl.py:58-99), recursion bounded by `fuel`.
Memoization (63-64, 98) returns what the same call returned before and is left out. -/
def simplify : ℕ → Sig → Except SErr Sig
  | 0, _ => .error .fuel
  | n + 1, s =>
    match s with
    | .sub x lo hi =>
      match simplify n x with
      | .error e => .error e
      | .ok x' =>
        match x' with
        | .sub p plo _ =>
          match simplify n p with
          | .error e => .error e
          | .ok p' => .ok (.sub p' (plo + lo) (plo + hi))
        | _ => .ok s
    | .bit x i =>
      match simplify n x with
      | .error e => .error e
      | .ok x' =>
        match x' with
        | .sub p base _ => .ok (.bit p (base + i))
        | .cst v frac _ => cstBit v frac i
        | _ => .ok s
    | _ => .ok s

theorem shift_eq (v frac : ℤ) (i : ℕ) (h : ¬ ((i : ℤ) + -frac < 0)) :
    v >>> ((i : ℤ) + -frac).toNat = v * 2 ^ frac.toNat / 2 ^ (-frac).toNat / 2 ^ i := by
  rw [Int.shiftRight_eq_div_pow]
  push_cast
  rcases le_or_gt 0 frac with hf | hf
  · have h1 : (-frac).toNat = 0 := by omega
    have h2 : i = ((i : ℤ) + -frac).toNat + frac.toNat := by omega
    conv_rhs => rw [h2]
    rw [h1, pow_zero, Int.ediv_one, pow_add, Int.mul_ediv_mul_of_pos_left]
    positivity
  · have h1 : frac.toNat = 0 := by omega
    have h2 : ((i : ℤ) + -frac).toNat = (-frac).toNat + i := by omega
    rw [h1, pow_zero, mul_one, h2, pow_add, Int.ediv_ediv, if_neg (by rintro ⟨h3, _⟩; exact absurd h3 (not_lt.2 (by positivity))), sub_zero]

/-- What a result of the simplifier must satisfy. -/
structure Same (s r : Sig) : Prop where
  valid : r.Valid
  width : r.width = s.width
  bits : ∀ env i, r.bits env i = s.bits env i
  size : r.size ≤ s.size

theorem simplify_same : ∀ (n : ℕ) (s r : Sig), s.Valid → simplify n s = .ok r → Same s r := by
  intro n
  induction n with
  | zero => intro s r _ h; cases h
  | succ n ih =>
    intro s r hv h
    cases s with
    | leaf a w => cases h; exact ⟨hv, rfl, fun _ _ => rfl, le_refl _⟩
    | cst v f w => cases h; exact ⟨hv, rfl, fun _ _ => rfl, le_refl _⟩
    | sub x lo hi =>
      obtain ⟨hvx, hlo, hhi⟩ := hv
      rw [simplify] at h
      cases hx : simplify n x with
      | error e => simp [hx] at h
      | ok x' =>
        have hs := ih x x' hvx hx
        simp only [hx] at h
        cases x' with
        | sub p plo phi =>
          dsimp only at h
          obtain ⟨hvp, hp1, hp2⟩ := hs.valid
          cases hp : simplify n p with
          | error e => simp [hp] at h
          | ok p' =>
            simp only [hp] at h
            cases h
            have hs2 := ih p p' hvp hp
            have hw : phi - plo + 1 = x.width := hs.width
            refine ⟨⟨hs2.valid, by omega, by rw [hs2.width]; omega⟩, ?_, ?_, ?_⟩
            · simp only [Sig.width]; omega
            · intro env i
              simp only [Sig.bits]
              rw [hs2.bits, ← hs.bits]
              simp only [Sig.bits]
              by_cases hi' : lo + i ≤ hi
              · have h1 : plo + lo + i ≤ plo + hi := by omega
                have h2 : plo + (lo + i) ≤ phi := by omega
                simp only [hi', h1, h2, decide_true, Bool.true_and]
                rw [Nat.add_assoc]
              · have h1 : ¬ plo + lo + i ≤ plo + hi := by omega
                simp [hi', h1]
            · have h1 := hs.size
              have h2 := hs2.size
              simp only [Sig.size] at *
              omega
        | leaf a w => cases h; exact ⟨⟨hvx, hlo, hhi⟩, rfl, fun _ _ => rfl, le_refl _⟩
        | cst v f w => cases h; exact ⟨⟨hvx, hlo, hhi⟩, rfl, fun _ _ => rfl, le_refl _⟩
        | bit y j => cases h; exact ⟨⟨hvx, hlo, hhi⟩, rfl, fun _ _ => rfl, le_refl _⟩
    | bit x i =>
      obtain ⟨hvx, hi⟩ := hv
      rw [simplify] at h
      cases hx : simplify n x with
      | error e => simp [hx] at h
      | ok x' =>
        have hs := ih x x' hvx hx
        simp only [hx] at h
        cases x' with
        | sub p plo phi =>
          cases h
          obtain ⟨hvp, hp1, hp2⟩ := hs.valid
          have hw : phi - plo + 1 = x.width := hs.width
          refine ⟨⟨hvp, by omega⟩, rfl, ?_, ?_⟩
          · intro env j
            simp only [Sig.bits]
            rw [← hs.bits]
            simp only [Sig.bits]
            have h1 : plo + i ≤ phi := by omega
            simp [h1]
          · have h1 := hs.size
            simp only [Sig.size] at *
            omega
        | leaf a w => cases h; exact ⟨⟨hvx, hi⟩, rfl, fun _ _ => rfl, le_refl _⟩
        | bit y j => cases h; exact ⟨⟨hvx, hi⟩, rfl, fun _ _ => rfl, le_refl _⟩
        | cst v f w =>
          dsimp only [cstBit] at h
          split at h
          · cases h
          · rename_i hneg
            cases h
            refine ⟨trivial, rfl, ?_, ?_⟩
            · intro env j
              simp only [Sig.bits]
              rw [← hs.bits]
              simp only [Sig.bits]
              have hw : w = x.width := hs.width
              have h1 : i < w := by omega
              rw [shift_eq v f i hneg]
              by_cases hj : j = 0
              · subst hj
                simp [h1]
              · have h2 : ¬ j < 1 := by omega
                simp [hj]
            · simp [Sig.size]

/-- **C33** (slices).  Whenever the simplifier returns, on valid slices and bit selections, the result
has the same width and the same bits, for every value of the signals. -/
theorem C33_slices (n : ℕ) (s r : Sig) (hv : s.Valid) (h : simplify n s = .ok r) (env : ℕ → ℕ → Bool) (i : ℕ) :
    r.width = s.width ∧ r.bits env i = s.bits env i :=
  ⟨(simplify_same n s r hv h).width, (simplify_same n s r hv h).bits env i⟩

/-- The simplifier returns, or fails on a fractional bit of a fixed-point constant. -/
theorem C33_slices_terminate : ∀ (n : ℕ) (s : Sig), s.Valid → s.size ≤ n →
    (∃ r, simplify n s = .ok r) ∨ simplify n s = .error .negativeShift := by
  intro n
  induction n with
  | zero => intro s _ hn; cases s <;> simp [Sig.size] at hn
  | succ n ih =>
    intro s hv hn
    cases s with
    | leaf a w => exact Or.inl ⟨_, rfl⟩
    | cst v f w => exact Or.inl ⟨_, rfl⟩
    | sub x lo hi =>
      have hx := ih x hv.1 (by simp [Sig.size] at hn; omega)
      rw [simplify]
      rcases hx with ⟨x', hx⟩ | hx
      · have hs := simplify_same n x x' hv.1 hx
        simp only [hx]
        cases x' with
        | sub p plo phi =>
          have hsz := hs.size
          have := ih p hs.valid.1 (by simp [Sig.size] at hn hsz; omega)
          rcases this with ⟨p', hp⟩ | hp
          · simp only [hp]; exact Or.inl ⟨_, rfl⟩
          · simp only [hp]; exact Or.inr trivial
        | leaf a w => exact Or.inl ⟨_, rfl⟩
        | cst v f w => exact Or.inl ⟨_, rfl⟩
        | bit y j => exact Or.inl ⟨_, rfl⟩
      · simp only [hx]; exact Or.inr trivial
    | bit x i =>
      have hx := ih x hv.1 (by simp [Sig.size] at hn; omega)
      rw [simplify]
      rcases hx with ⟨x', hx⟩ | hx
      · simp only [hx]
        cases x' with
        | sub p plo phi => exact Or.inl ⟨_, rfl⟩
        | leaf a w => exact Or.inl ⟨_, rfl⟩
        | bit y j => exact Or.inl ⟨_, rfl⟩
        | cst v f w =>
          dsimp only [cstBit]
          split
          · exact Or.inr rfl
          · exact Or.inl ⟨_, rfl⟩
      · simp only [hx]; exact Or.inr trivial

example : simplify 5 (.bit (.sub (.sub (.leaf 0 32) 8 23) 4 11) 3) = .ok (.bit (.leaf 0 32) 15) := by decide
example : Sig.Valid (.bit (.sub (.sub (.leaf 0 32) 8 23) 4 11) 3) := by simp [Sig.Valid, Sig.width]

/-- Selecting a fractional bit of a fixed-point constant raises. -/
theorem C33_fractional_bit_raises : simplify 2 (.bit (.cst 3 4 8) 2) = .error .negativeShift := by decide

end Verif.Legal
