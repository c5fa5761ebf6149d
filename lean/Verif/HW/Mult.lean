import Verif.HW.Heap
import Verif.HW.Lza

/-!
# C37: partial products (mult_array.py:399-563, 736-783) and the whole multiplier array (713-870)
-/

namespace Verif.HW

/-- A fixed-point operand: its size, signedness, fraction size and bits. -/
structure Fx where
  w : ℕ
  signed : Bool
  frac : ℤ
  bits : BitVec w

/-- Specification: the number an operand stands for. -/
def Fx.val (x : Fx) : ℚ := (opVal x.signed x.bits : ℤ) * 2 ^ (-x.frac)

/-- One call to `insert_bit`: into the heap of negative bits or not, exponent, bit. -/
abbrev Ins := Bool × ℤ × Bool

/-- The heaps after a list of insertions. -/
def posHeap (l : List Ins) : Heap := (l.filter fun x => !x.1).map Prod.snd
def negHeap (l : List Ins) : Heap := (l.filter fun x => x.1).map Prod.snd

/-- `merge_product_in_heap`, without Booth recoding (745-766): bit `b_index` of `Select(bit_a_j = 1, b_i, 0)`, with weight
`pp_index - frac(a) + b_index`; negative when exactly one of the two bits is a sign bit. -/
def mergeProduct (a b : Fx) : List Ins :=
  (List.range a.w).flatMap fun j =>
    (List.range b.w).map fun k =>
      let aSigned := a.signed && decide (j = a.w - 1)
      let bSigned := b.signed && decide (k = b.w - 1)
      (aSigned ^^ bSigned, (j : ℤ) - a.frac + k, a.bits.getLsbD j && b.bits.getLsbD k)

/-- `merge_addition_in_heap` (768-783). -/
def mergeAddition (c : Fx) : List Ins :=
  (c.signed, (c.w : ℤ) - 1 - c.frac, c.bits.getLsbD (c.w - 1)) ::
    (List.range (c.w - 1)).map fun i : ℕ => (false, (i : ℤ) - c.frac, c.bits.getLsbD i)

/-- A Booth digit: bits `n+1`, `n`, `n-1` and its exponent. -/
abbrev Digit := (Bool × Bool × Bool) × ℕ

/-- The digits of the recoded operand (418-455). -/
def boothDigits (x : Fx) : List Digit :=
  let b := x.bits.getLsbD
  [((b 1, b 0, false), 0)] ++
  (List.range ((x.w - 1) / 2)).map (fun t =>
    let i := 2 * t + 2
    if i + 1 < x.w then ((b (i + 1), b i, b (i - 1)), i)
    else ((if x.signed then b (x.w - 1) else false, b i, b (i - 1)), i)) ++
  (if x.w % 2 = 0 ∧ x.signed = false then [((false, false, b (x.w - 1)), x.w)] else [])

/-- The partial product of one digit (467-563). -/
def boothPP (r : Fx) (d : Digit) : List Ins :=
  let (b2, b1, b0) := d.1
  let index : ℤ := d.2
  let b := r.bits.getLsbD
  let zero := (!b2 && !b1 && !b0) || (b2 && b1 && b0)
  let shifted := (!b2 && b1 && b0) || (b2 && !b1 && !b0)
  let neg := b2
  let carryin := neg && !zero
  let pp (digit : Bool) := if zero then false else if neg then !digit else digit
  [(false, index, pp (if shifted then false else b 0)), (false, index, carryin)] ++
  (List.range (r.w - 1)).map (fun k => (false, index + (k + 1 : ℕ), pp (if shifted then b k else b (k + 1)))) ++
  (let msb := pp (if shifted then b (r.w - 1) else if r.signed then b (r.w - 1) else false)
   if r.signed then [(true, index + r.w, msb)]
   else [(false, index + r.w, msb), (true, index + r.w + 1, carryin)])

/-- `booth_radix4_multiply` (399-563). -/
def boothMultiply (lhs rhs : Fx) : List Ins := (boothDigits lhs).flatMap (boothPP rhs)

/-! ## Values -/

/-- Value of a list of insertions. -/
def tval (l : List Ins) : ℚ := (l.map fun x => (if x.1 then -1 else 1) * bit x.2.2 * 2 ^ x.2.1).sum

theorem tval_heaps (l : List Ins) : hval (posHeap l) - hval (negHeap l) = tval l := by
  induction l with
  | nil => simp [posHeap, negHeap, hval, tval]
  | cons x t ih =>
    obtain ⟨s, w, b⟩ := x
    have hp : hval (posHeap ((s, w, b) :: t)) = (if s then 0 else bit b * 2 ^ w) + hval (posHeap t) := by
      cases s <;> simp [posHeap, hval]
    have hn : hval (negHeap ((s, w, b) :: t)) = (if s then bit b * 2 ^ w else 0) + hval (negHeap t) := by
      cases s <;> simp [negHeap, hval]
    have ht : tval ((s, w, b) :: t) = (if s then -1 else 1) * bit b * 2 ^ w + tval t := by simp [tval]
    rw [hp, hn, ht, ← ih]
    cases s <;> simp <;> ring

theorem tval_append (a b : List Ins) : tval (a ++ b) = tval a + tval b := by simp [tval]

theorem tval_nil : tval [] = 0 := rfl

theorem tval_cons (s : Bool) (w : ℤ) (b : Bool) (t : List Ins) :
    tval ((s, w, b) :: t) = (if s then -1 else 1) * bit b * 2 ^ w + tval t := by simp [tval]

theorem tval_flatMap {α : Type*} (l : List α) (f : α → List Ins) : tval (l.flatMap f) = (l.map fun x => tval (f x)).sum := by
  induction l with
  | nil => rfl
  | cons x t ih => rw [List.flatMap_cons, tval_append, List.map_cons, List.sum_cons, ih]

/-- Number written by the bits `f 0 .. f (n-1)`. -/
def bs (f : ℕ → Bool) : ℕ → ℚ
  | 0 => 0
  | n + 1 => bs f n + bit (f n) * 2 ^ n

theorem bs_congr {f g : ℕ → Bool} {n : ℕ} (h : ∀ i < n, f i = g i) : bs f n = bs g n := by
  induction n with
  | zero => rfl
  | succ n ih => rw [bs, bs, ih (fun i hi => h i (by omega)), h n (by omega)]

theorem bs_toNat {w : ℕ} (x : BitVec w) (n : ℕ) : bs x.getLsbD n = ((x.toNat % 2 ^ n : ℕ) : ℚ) := by
  induction n with
  | zero => simp [bs, Nat.mod_one]
  | succ n ih =>
    rw [bs, ih, pow_succ, Nat.mod_mul]
    push_cast
    congr 1
    rw [BitVec.getLsbD, Nat.testBit_eq_decide_div_mod_eq]
    have h : x.toNat / 2 ^ n % 2 = 0 ∨ x.toNat / 2 ^ n % 2 = 1 := by omega
    rcases h with h | h <;> rw [h] <;> simp [bit]

/-- An operand is the number of its bits, the top one counted negatively when signed. -/
theorem opVal_bs {w : ℕ} (s : Bool) (x : BitVec (w + 1)) :
    ((opVal s x : ℤ) : ℚ) = bs x.getLsbD w + (if s then -1 else 1) * bit (x.getLsbD w) * 2 ^ w := by
  have hfull : ((x.toNat : ℕ) : ℚ) = bs x.getLsbD w + bit (x.getLsbD w) * 2 ^ w := by
    have := bs_toNat x (w + 1)
    rw [Nat.mod_eq_of_lt x.isLt, bs] at this
    rw [this]
  cases s
  · simp only [opVal, Bool.false_eq_true, if_false, one_mul]
    rw [← hfull]
    simp
  · simp only [opVal, if_true]
    have hm : x.toInt = (x.toNat : ℤ) - (if x.getLsbD w then 2 ^ (w + 1) else 0) := by
      rw [BitVec.toInt_eq_msb_cond, BitVec.msb_eq_getLsbD_last]
      simp only [Nat.add_sub_cancel]
      split <;> simp
    rw [hm]
    cases hb : x.getLsbD w
    · rw [hb] at hfull
      simp [bit] at hfull ⊢
      exact hfull
    · rw [hb] at hfull
      simp [bit] at hfull ⊢
      rw [hfull, pow_succ]
      ring

theorem sum_range_zero (g : ℕ → ℚ) (n : ℕ) (h : ∀ i < n, g i = 0) : ((List.range n).map g).sum = 0 := by
  induction n with
  | zero => rfl
  | succ n ih => rw [List.range_succ, List.map_append, List.sum_append, ih (fun i hi => h i (by omega))]; simp [h n (by omega)]

/-- Signed sums over the bits of an operand. -/
theorem sum_bits {w : ℕ} (s : Bool) (x : BitVec (w + 1)) (c : ℚ) :
    ((List.range (w + 1)).map fun j =>
      (if s && decide (j = w + 1 - 1) then (-1 : ℚ) else 1) * bit (x.getLsbD j) * 2 ^ j * c).sum = ((opVal s x : ℤ) : ℚ) * c := by
  rw [List.range_succ, List.map_append, List.sum_append, opVal_bs]
  have h1 : ∀ n, n ≤ w → ((List.range n).map fun j =>
      (if s && decide (j = w + 1 - 1) then (-1 : ℚ) else 1) * bit (x.getLsbD j) * 2 ^ j * c).sum = bs x.getLsbD n * c := by
    intro n hn
    induction n with
    | zero => simp [bs]
    | succ n ih =>
      rw [List.range_succ, List.map_append, List.sum_append, ih (by omega), bs]
      have : decide (n = w + 1 - 1) = false := by rw [decide_eq_false_iff_not]; omega
      simp only [List.map_cons, List.map_nil, List.sum_cons, List.sum_nil, this, Bool.and_false, Bool.false_eq_true, if_false]
      ring
  rw [h1 w (Nat.le_refl _)]
  simp only [List.map_cons, List.map_nil, List.sum_cons, List.sum_nil, Nat.add_sub_cancel, decide_true, Bool.and_true]
  ring

theorem bit_and (a b : Bool) : bit (a && b) = bit a * bit b := by cases a <;> cases b <;> simp [bit]

theorem sign_xor (a b : Bool) : (if (a ^^ b) then (-1 : ℚ) else 1) = (if a then -1 else 1) * (if b then -1 else 1) := by
  cases a <;> cases b <;> simp

/-- **C37** (plain array).  For all sizes, signednesses, fraction sizes and values: the inserted bits sum to the value of the
left operand times the integer of the right operand.

So they sum to the product when the right operand has no fraction (`C37_product`); otherwise the fraction size of the right
operand is ignored (`C37_frac_wrong`). -/
theorem C37_product_partial (a b : Fx) (ha : 0 < a.w) (hb : 0 < b.w) :
    hval (posHeap (mergeProduct a b)) - hval (negHeap (mergeProduct a b)) = a.val * (opVal b.signed b.bits : ℤ) := by
  rw [tval_heaps]
  obtain ⟨wa, sa, fa, xa⟩ := a
  obtain ⟨wb, sb, fb, xb⟩ := b
  obtain ⟨wa, rfl⟩ : ∃ n, wa = n + 1 := ⟨wa - 1, by simp at ha; omega⟩
  obtain ⟨wb, rfl⟩ : ∃ n, wb = n + 1 := ⟨wb - 1, by simp at hb; omega⟩
  unfold mergeProduct Fx.val
  dsimp only
  rw [tval_flatMap]
  have hin : ∀ j : ℕ, tval ((List.range (wb + 1)).map fun k =>
      ((sa && decide (j = wa + 1 - 1)) ^^ (sb && decide (k = wb + 1 - 1)), (j : ℤ) - fa + k, xa.getLsbD j && xb.getLsbD k)) =
      (if sa && decide (j = wa + 1 - 1) then (-1 : ℚ) else 1) * bit (xa.getLsbD j) * 2 ^ j *
        (2 ^ (-fa) * ((opVal sb xb : ℤ) : ℚ)) := by
    intro j
    have := sum_bits sb xb ((if sa && decide (j = wa + 1 - 1) then (-1 : ℚ) else 1) * bit (xa.getLsbD j) * 2 ^ j * 2 ^ (-fa))
    rw [show (if sa && decide (j = wa + 1 - 1) then (-1 : ℚ) else 1) * bit (xa.getLsbD j) * 2 ^ j *
        (2 ^ (-fa) * ((opVal sb xb : ℤ) : ℚ)) = ((opVal sb xb : ℤ) : ℚ) *
        ((if sa && decide (j = wa + 1 - 1) then (-1 : ℚ) else 1) * bit (xa.getLsbD j) * 2 ^ j * 2 ^ (-fa)) from by ring, ← this]
    unfold tval
    rw [List.map_map]
    congr 1
    apply List.map_congr_left
    intro k _
    simp only [Function.comp]
    rw [sign_xor, bit_and, show (j : ℤ) - fa + k = (k : ℤ) + j + (-fa) from by ring, zpow_add₀ (by norm_num), zpow_add₀ (by norm_num),
      zpow_natCast, zpow_natCast]
    ring
  rw [List.map_congr_left (fun j _ => hin j), sum_bits]
  ring

/-- **C37** (plain array, right operand without fraction). -/
theorem C37_product (a b : Fx) (ha : 0 < a.w) (hb : 0 < b.w) (hf : b.frac = 0) :
    hval (posHeap (mergeProduct a b)) - hval (negHeap (mergeProduct a b)) = a.val * b.val := by
  rw [C37_product_partial a b ha hb, Fx.val, Fx.val, hf]
  simp

/-- `1.0 × 0.5` (FU1.0 x FU0.1) is accumulated as 1. -/
theorem C37_frac_wrong :
    let a : Fx := ⟨1, false, 0, 1⟩
    let b : Fx := ⟨1, false, 1, 1⟩
    a.val * b.val = 1 / 2 ∧
    hval (posHeap (mergeProduct a b)) - hval (negHeap (mergeProduct a b)) = 1 := by
  dsimp only
  rw [C37_product_partial _ _ (by decide) (by decide)]
  have h : opVal false (1 : BitVec 1) = 1 := by decide
  simp only [Fx.val, h]
  norm_num

/-- **C37** (additions). -/
theorem C37_addition (c : Fx) (hc : 0 < c.w) :
    hval (posHeap (mergeAddition c)) - hval (negHeap (mergeAddition c)) = c.val := by
  rw [tval_heaps]
  obtain ⟨w, s, f, x⟩ := c
  obtain ⟨w, rfl⟩ : ∃ n, w = n + 1 := ⟨w - 1, by simp at hc; omega⟩
  unfold mergeAddition Fx.val
  dsimp only
  rw [tval_cons, opVal_bs, Nat.add_sub_cancel]
  have h : ∀ n, tval ((List.range n).map fun i : ℕ => (false, (i : ℤ) - f, x.getLsbD i)) = bs x.getLsbD n * 2 ^ (-f) := by
    intro n
    induction n with
    | zero => simp [tval, bs]
    | succ n ih =>
      rw [List.range_succ, List.map_append, tval_append, ih, bs]
      simp only [List.map_cons, List.map_nil, tval_cons, tval_nil, Bool.false_eq_true, if_false]
      rw [sub_eq_add_neg, zpow_add₀ (by norm_num), zpow_natCast]
      ring
  rw [h, show ((w + 1 : ℕ) : ℤ) - 1 - f = (w : ℤ) + (-f) from by push_cast; ring, zpow_add₀ (by norm_num), zpow_natCast]
  ring

/-! ## Booth recoding -/

/-- The digit a triple of bits stands for. -/
def dval (d : Bool × Bool × Bool) : ℚ := -2 * bit d.1 + bit d.2.1 + bit d.2.2

theorem bs_not (f : ℕ → Bool) (n : ℕ) : bs (fun i => !f i) n = 2 ^ n - 1 - bs f n := by
  induction n with
  | zero => simp [bs]
  | succ n ih =>
    rw [bs, ih, bs, pow_succ]
    cases f n <;> simp [bit] <;> ring

/-- The bits of the multiple of the right operand that a digit selects. -/
def multBits (r : Fx) (shifted : Bool) (k : ℕ) : Bool :=
  if k < r.w then (if shifted then (if k = 0 then false else r.bits.getLsbD (k - 1)) else r.bits.getLsbD k)
  else (if shifted then r.bits.getLsbD (r.w - 1) else if r.signed then r.bits.getLsbD (r.w - 1) else false)

theorem bs_shift (f : ℕ → Bool) (n : ℕ) : bs (fun k => if k = 0 then false else f (k - 1)) (n + 1) = 2 * bs f n := by
  induction n with
  | zero => simp [bs, bit]
  | succ n ih =>
    rw [bs, ih, bs]
    simp only [Nat.add_eq_zero_iff, one_ne_zero, and_false, if_false, Nat.add_sub_cancel]
    rw [pow_succ]
    ring

/-- The selected multiple, its top bit counted negatively when signed, is once or twice the operand. -/
theorem multBits_val (w : ℕ) (s : Bool) (f : ℤ) (x : BitVec (w + 1)) (shifted : Bool) :
    bs (multBits ⟨w + 1, s, f, x⟩ shifted) (w + 1) +
      (if s then -1 else 1) * bit (multBits ⟨w + 1, s, f, x⟩ shifted (w + 1)) * 2 ^ (w + 1) =
      (if shifted then 2 else 1) * ((opVal s x : ℤ) : ℚ) := by
  rw [opVal_bs]
  have htop : multBits ⟨w + 1, s, f, x⟩ shifted (w + 1) = (if shifted then x.getLsbD w else if s then x.getLsbD w else false) := by
    simp [multBits]
  rw [htop]
  cases shifted
  · have : bs (multBits ⟨w + 1, s, f, x⟩ false) (w + 1) = bs x.getLsbD (w + 1) := by
      apply bs_congr
      intro i hi
      simp [multBits, hi]
    rw [this, bs]
    cases s
    · simp [bit]
    · simp only [Bool.false_eq_true, if_false, if_true]
      rw [pow_succ]
      ring
  · have : bs (multBits ⟨w + 1, s, f, x⟩ true) (w + 1) = 2 * bs x.getLsbD w := by
      rw [← bs_shift]
      apply bs_congr
      intro i hi
      simp [multBits, hi]
    rw [this]
    simp only [if_true]
    rw [pow_succ]
    ring

/-- The shape of a partial product, in terms of `multBits`. -/
theorem boothPP_tval (w : ℕ) (s : Bool) (f : ℤ) (x : BitVec (w + 1)) (b2 b1 b0 : Bool) (i : ℕ) :
    tval (boothPP ⟨w + 1, s, f, x⟩ ((b2, b1, b0), i)) =
      (let zero := (!b2 && !b1 && !b0) || (b2 && b1 && b0)
       let shifted := (!b2 && b1 && b0) || (b2 && !b1 && !b0)
       let g := fun k => if zero then false else if b2 then !multBits ⟨w + 1, s, f, x⟩ shifted k else multBits ⟨w + 1, s, f, x⟩ shifted k
       (bs g (w + 1) + bit (b2 && !zero) + (if s then -1 else 1) * bit (g (w + 1)) * 2 ^ (w + 1) -
         (if s then 0 else bit (b2 && !zero) * 2 ^ (w + 2))) * 2 ^ i) := by
  unfold boothPP
  dsimp only
  generalize hz : ((!b2 && !b1 && !b0) || (b2 && b1 && b0)) = zero
  generalize hs : ((!b2 && b1 && b0) || (b2 && !b1 && !b0)) = shifted
  rw [tval_append, tval_append, tval_cons, tval_cons, tval_nil, Nat.add_sub_cancel]
  have hmid : ∀ n, n ≤ w → tval ((List.range n).map (fun k => ((false, (i : ℤ) + (k + 1 : ℕ),
      if zero then false else if b2 then !(if shifted then x.getLsbD k else x.getLsbD (k + 1)) else
        (if shifted then x.getLsbD k else x.getLsbD (k + 1))) : Ins))) +
      bit (if zero then false else if b2 then !(if shifted then false else x.getLsbD 0) else (if shifted then false else x.getLsbD 0)) * 2 ^ (i : ℤ) =
      bs (fun k => if zero then false else if b2 then !multBits ⟨w + 1, s, f, x⟩ shifted k else multBits ⟨w + 1, s, f, x⟩ shifted k) (n + 1) * 2 ^ i := by
    intro n hn
    induction n with
    | zero =>
      simp [tval, bs, multBits]
    | succ n ih =>
      rw [List.range_succ, List.map_append, tval_append, bs, ← sub_eq_zero]
      have := ih (by omega)
      simp only [List.map_cons, List.map_nil, tval_cons, tval_nil, Bool.false_eq_true, if_false]
      have hm : multBits ⟨w + 1, s, f, x⟩ shifted (n + 1) = (if shifted then x.getLsbD n else x.getLsbD (n + 1)) := by
        simp [multBits, show n + 1 < w + 1 from by omega]
      rw [add_mul, ← this, hm, zpow_add₀ (by norm_num), zpow_natCast, zpow_natCast]
      ring
  have hmid := hmid w (Nat.le_refl _)
  have htop : multBits ⟨w + 1, s, f, x⟩ shifted (w + 1) = (if shifted then x.getLsbD w else if s then x.getLsbD w else false) := by
    simp [multBits]
  rw [htop]
  cases s
  · simp only [Bool.false_eq_true, if_false, tval_cons, tval_nil, if_true] at hmid ⊢
    rw [show (i : ℤ) + ((w + 1 : ℕ) : ℤ) + 1 = (i : ℤ) + ((w + 2 : ℕ) : ℤ) from by push_cast; ring,
      zpow_add₀ (by norm_num), zpow_add₀ (by norm_num), zpow_natCast, zpow_natCast, zpow_natCast] at *
    linear_combination hmid
  · simp only [Bool.false_eq_true, if_false, tval_cons, tval_nil, if_true] at hmid ⊢
    rw [zpow_add₀ (by norm_num), zpow_natCast, zpow_natCast] at *
    linear_combination hmid

/-- One partial product is the digit times the right operand. -/
theorem boothPP_val (r : Fx) (hr : 0 < r.w) (d : Digit) :
    tval (boothPP r d) = dval d.1 * ((opVal r.signed r.bits : ℤ) : ℚ) * 2 ^ d.2 := by
  obtain ⟨w, s, f, x⟩ := r
  obtain ⟨w, rfl⟩ : ∃ n, w = n + 1 := ⟨w - 1, by simp at hr; omega⟩
  obtain ⟨⟨b2, b1, b0⟩, i⟩ := d
  rw [boothPP_tval]
  have hm := multBits_val w s f x
  have hm1 := hm false
  have hm2 := hm true
  have hn1 := bs_not (multBits ⟨w + 1, s, f, x⟩ false) (w + 1)
  have hn2 := bs_not (multBits ⟨w + 1, s, f, x⟩ true) (w + 1)
  have hbn : ∀ b : Bool, bit (!b) = 1 - bit b := by intro b; cases b <;> simp [bit]
  have hz : ∀ n, bs (fun _ => false) n = 0 := by
    intro n
    induction n with
    | zero => rfl
    | succ n ih => simp [bs, ih, bit]
  simp only [Bool.false_eq_true, if_false, if_true] at hm1 hm2
  cases b2 <;> cases b1 <;> cases b0 <;> cases s <;>
    simp only [Bool.not_false, Bool.not_true, Bool.and_true, Bool.and_false, Bool.or_false, Bool.or_true, Bool.true_and,
      Bool.false_and, Bool.true_or, Bool.false_or, Bool.false_eq_true, if_true, if_false, hz, hn1, hn2, hbn, dval] at hm1 hm2 ⊢ <;>
    simp only [show bit false = 0 from rfl, show bit true = 1 from rfl] <;>
    first
      | (simp; done)
      | ring1
      | linear_combination (exp := 1) (2 : ℚ) ^ i * hm1
      | linear_combination (exp := 1) (2 : ℚ) ^ i * hm2
      | linear_combination (exp := 1) -(2 : ℚ) ^ i * hm1
      | linear_combination (exp := 1) -(2 : ℚ) ^ i * hm2

/-- Recoding of a bit string: the digits of the even positions below `2 n`. -/
theorem recode (f : ℕ → Bool) (n : ℕ) :
    ((List.range (n + 1)).map fun t => dval (f (2 * t + 1), f (2 * t), if t = 0 then false else f (2 * t - 1)) * 2 ^ (2 * t)).sum =
      bs f (2 * n + 1) - bit (f (2 * n + 1)) * 2 ^ (2 * n + 1) := by
  induction n with
  | zero => simp [dval, bs, show bit false = 0 from rfl]; ring
  | succ n ih =>
    rw [List.range_succ, List.map_append, List.sum_append, ih]
    simp only [List.map_cons, List.map_nil, List.sum_cons, List.sum_nil, Nat.add_eq_zero_iff, one_ne_zero, and_false, if_false, dval]
    have e : bs f (2 * n + 1 + 1 + 1) = bs f (2 * n + 1) + bit (f (2 * n + 1)) * 2 ^ (2 * n + 1) + bit (f (2 * n + 1 + 1)) * 2 ^ (2 * n + 1 + 1) := rfl
    rw [show 2 * (n + 1) + 1 = 2 * n + 1 + 1 + 1 from by ring, show 2 * (n + 1) = 2 * n + 1 + 1 from by ring, e, Nat.add_sub_cancel]
    generalize bs f (2 * n + 1) = z
    generalize f (2 * n + 1 + 1 + 1) = b3
    generalize f (2 * n + 1 + 1) = b2
    generalize f (2 * n + 1) = b1
    rw [pow_succ, pow_succ]
    ring

/-- The digits of an operand sum to it. -/
theorem boothDigits_val (x : Fx) (hx : 2 ≤ x.w) :
    ((boothDigits x).map fun d => dval d.1 * 2 ^ d.2).sum = ((opVal x.signed x.bits : ℤ) : ℚ) := by
  obtain ⟨w, s, fr, x⟩ := x
  dsimp only at hx ⊢
  obtain ⟨w, rfl⟩ : ∃ n, w = n + 1 := ⟨w - 1, by omega⟩
  have hov := opVal_bs s x
  -- the bits, extended
  let f : ℕ → Bool := fun k => if k < w + 1 then x.getLsbD k else if s then x.getLsbD w else false
  have hbs : bs f (w + 1) = bs x.getLsbD (w + 1) := bs_congr (fun i hi => by simp [f, hi])
  have hfix : ∀ k, k < w + 1 → f k = x.getLsbD k := fun k hk => by simp [f, hk]
  have hmain : ∀ n, 2 * n ≤ w → ((List.range (n + 1)).map fun t => dval (f (2 * t + 1), f (2 * t), if t = 0 then false else f (2 * t - 1)) * 2 ^ (2 * t)).sum =
      dval (x.getLsbD 1, x.getLsbD 0, false) * 2 ^ 0 + ((List.range n).map (fun t =>
        let d : Digit := (if 2 * t + 2 + 1 < w + 1 then ((x.getLsbD (2 * t + 2 + 1), x.getLsbD (2 * t + 2), x.getLsbD (2 * t + 2 - 1)), 2 * t + 2)
          else ((if s then x.getLsbD (w + 1 - 1) else false, x.getLsbD (2 * t + 2), x.getLsbD (2 * t + 2 - 1)), 2 * t + 2))
        dval d.1 * 2 ^ d.2)).sum := by
    intro n hn
    rw [List.range_succ_eq_map, List.map_cons, List.sum_cons, List.map_map]
    congr 1
    · simp [f, show 1 < w + 1 from by omega]
    · congr 1
      apply List.map_congr_left
      intro t ht
      have ht := List.mem_range.1 ht
      simp only [Function.comp, Nat.succ_eq_add_one]
      rw [show 2 * (t + 1) + 1 = 2 * t + 2 + 1 from by ring, show 2 * (t + 1) = 2 * t + 2 from by ring]
      rw [hfix (2 * t + 2) (by omega), hfix (2 * t + 2 - 1) (by omega)]
      by_cases hc : 2 * t + 2 + 1 < w + 1
      · rw [if_pos hc, hfix _ hc]; simp
      · rw [if_neg hc]
        have : f (2 * t + 2 + 1) = if s then x.getLsbD w else false := by simp only [f, if_neg hc]
        rw [this]
        simp
  unfold boothDigits
  dsimp only
  rw [List.map_append, List.map_append, List.sum_append, List.sum_append, List.map_map]
  simp only [List.map_cons, List.map_nil, List.sum_cons, List.sum_nil, add_zero, Nat.add_sub_cancel]
  have hm := hmain (w / 2) (by omega)
  simp only [Nat.add_sub_cancel] at hm
  rw [recode] at hm
  have e : ((fun d : Digit => dval d.1 * 2 ^ d.2) ∘ fun t : ℕ =>
      if 2 * t + 2 + 1 < w + 1 then ((x.getLsbD (2 * t + 2 + 1), x.getLsbD (2 * t + 2), x.getLsbD (2 * t + 2 - 1)), 2 * t + 2)
      else ((if s then x.getLsbD w else false, x.getLsbD (2 * t + 2), x.getLsbD (2 * t + 2 - 1)), 2 * t + 2)) = (fun t : ℕ =>
        dval (if 2 * t + 2 + 1 < w + 1 then ((x.getLsbD (2 * t + 2 + 1), x.getLsbD (2 * t + 2), x.getLsbD (2 * t + 2 - 1)), 2 * t + 2)
          else ((if s then x.getLsbD w else false, x.getLsbD (2 * t + 2), x.getLsbD (2 * t + 2 - 1)), 2 * t + 2) : Digit).1 *
        2 ^ (if 2 * t + 2 + 1 < w + 1 then ((x.getLsbD (2 * t + 2 + 1), x.getLsbD (2 * t + 2), x.getLsbD (2 * t + 2 - 1)), 2 * t + 2)
          else ((if s then x.getLsbD w else false, x.getLsbD (2 * t + 2), x.getLsbD (2 * t + 2 - 1)), 2 * t + 2) : Digit).2) := rfl
  rw [e, ← hm]
  rw [hov]
  have hpar : w % 2 = 0 ∨ w % 2 = 1 := by omega
  rcases hpar with hp | hp
  · -- odd size: one padded digit
    rw [if_neg (by intro h; have := h.1; omega), show 2 * (w / 2) = w from by omega]
    rw [hbs, bs]
    have : f (w + 1) = if s then x.getLsbD w else false := by simp [f]
    rw [this]
    cases s
    · simp [bit]
    · simp only [if_true, List.map_nil, List.sum_nil]
      rw [pow_succ]
      ring
  · rw [show 2 * (w / 2) + 1 = w from by omega, hfix w (by omega)]
    have hb' : bs f w = bs x.getLsbD w := bs_congr (fun i hi => hfix i (by omega))
    rw [hb']
    cases s
    · rw [if_pos ⟨by omega, rfl⟩]
      simp only [List.map_cons, List.map_nil, List.sum_cons, List.sum_nil, dval, Bool.false_eq_true, if_false]
      rw [show bit false = 0 from rfl, pow_succ]
      ring
    · rw [if_neg (by simp)]
      simp only [List.map_nil, List.sum_nil, if_true]
      ring

/-- **C37** (Booth).  For all sizes (at least two bits on the left, as the code asserts), signednesses and values: the
inserted bits sum to the product of the operands read as integers.  Fraction sizes are ignored on both sides, so this is the
product of the operands when both are zero. -/
theorem C37_booth_partial (a b : Fx) (ha : 2 ≤ a.w) (hb : 0 < b.w) :
    hval (posHeap (boothMultiply a b)) - hval (negHeap (boothMultiply a b)) =
      ((opVal a.signed a.bits : ℤ) : ℚ) * (opVal b.signed b.bits : ℤ) := by
  rw [tval_heaps]
  unfold boothMultiply
  rw [tval_flatMap, List.map_congr_left (fun d _ => boothPP_val b hb d), ← boothDigits_val a ha]
  induction boothDigits a with
  | nil => simp
  | cons d t ih =>
    rw [List.map_cons, List.sum_cons, ih, List.map_cons, List.sum_cons]
    ring

/-- **C37** (Booth, operands without fraction). -/
theorem C37_booth (a b : Fx) (ha : 2 ≤ a.w) (hb : 0 < b.w) (hfa : a.frac = 0) (hfb : b.frac = 0) :
    hval (posHeap (boothMultiply a b)) - hval (negHeap (boothMultiply a b)) = a.val * b.val := by
  rw [C37_booth_partial a b ha hb, Fx.val, Fx.val, hfa, hfb]
  simp

/-- Hypotheses met: -3 on five bits times -2 on three bits. -/
example : (⟨5, true, 0, -3⟩ : Fx).val * (⟨3, true, 0, -2⟩ : Fx).val = 6 := by
  have h1 : opVal true (-3 : BitVec 5) = -3 := by decide
  have h2 : opVal true (-2 : BitVec 3) = -2 := by decide
  simp only [Fx.val, h1, h2]
  norm_num

/-! ## The whole array -/

/-- What happens to the two heaps while the stages are processed (809-828): an operation is merged, or the heaps are reduced
to the height limit of the stage before a new stage starts. -/
inductive Event where
  | mul (a b : Fx)
  | add (c : Fx)
  | newStage (limit : ℕ)

/-- One event; the reduction loop runs as long as it needs (`C36_reduce`). -/
def Event.step (booth : Bool) (m : Method) (h : Heap × Heap) : Event → Option (Heap × Heap)
  | .mul a b =>
    let l := if booth then boothMultiply a b else mergeProduct a b
    some (h.1 ++ posHeap l, h.2 ++ negHeap l)
  | .add c => some (h.1 ++ posHeap (mergeAddition c), h.2 ++ negHeap (mergeAddition c))
  | .newStage limit => do
    let p ← reduceHeap m limit h.1.length h.1
    let n ← reduceHeap m limit h.2.length h.2
    pure (p, n)

def runEvents (booth : Bool) (m : Method) : List Event → Heap × Heap → Option (Heap × Heap)
  | [], h => some h
  | e :: t, h => (e.step booth m h).bind (runEvents booth m t)

/-- `generate_advanced_scheme` (728-862): the events, the final reduction to two bits per weight, the conversion to
operands, and the accumulator: sum of the positive operands minus sum of the negative ones (exact; the conversion to the
output format, 860, is not part of this). -/
def multArray (booth : Bool) (m : Method) (evs : List Event) : Option ℚ := do
  let h ← runEvents booth m evs ([], [])
  let p ← reduceHeap m 2 h.1.length h.1
  let n ← reduceHeap m 2 h.2.length h.2
  pure (((convertHeap p).map Operand.val).sum - ((convertHeap n).map Operand.val).sum)

/-- Specification (`numeric_emulate`, 888-905): the sum of the products and additions. -/
def emulate : List Event → ℚ
  | [] => 0
  | .mul a b :: t => a.val * b.val + emulate t
  | .add c :: t => c.val + emulate t
  | .newStage _ :: t => emulate t

/-- The inputs the multiplier handles: sizes at least one (two on the left for Booth), no fraction on the right operand
of a product (on either for Booth), and height limits of two or more. -/
def Event.Ok (booth : Bool) : Event → Prop
  | .mul a b => (if booth then 2 ≤ a.w ∧ a.frac = 0 else 0 < a.w) ∧ 0 < b.w ∧ b.frac = 0
  | .add c => 0 < c.w
  | .newStage limit => 2 ≤ limit

theorem reduceHeap_len (m : Method) (limit : ℕ) (hl : 2 ≤ limit) (h : Heap) :
    ∃ h', reduceHeap m limit h.length h = some h' ∧ hval h' = hval h := by
  obtain ⟨h', h1, h2, _⟩ := C36_reduce m limit hl h
  exact ⟨h', h1 _ (Nat.le_refl _), h2⟩

theorem runEvents_val (booth : Bool) (m : Method) (evs : List Event) (hok : ∀ e ∈ evs, e.Ok booth) (h : Heap × Heap) :
    ∃ h', runEvents booth m evs h = some h' ∧ hval h'.1 - hval h'.2 = hval h.1 - hval h.2 + emulate evs := by
  induction evs generalizing h with
  | nil => exact ⟨h, rfl, by simp [emulate]⟩
  | cons e t ih =>
    have hoke := hok e (List.mem_cons_self ..)
    have hstep : ∃ h1, e.step booth m h = some h1 ∧
        hval h1.1 - hval h1.2 + emulate t = hval h.1 - hval h.2 + emulate (e :: t) := by
      cases e with
      | mul a b =>
        refine ⟨_, rfl, ?_⟩
        dsimp only
        rw [hval_append, hval_append, emulate]
        obtain ⟨h1, h2, h3⟩ := hoke
        cases booth
        · have := C37_product a b h1 h2 h3
          simp only [Bool.false_eq_true, if_false]
          linarith
        · have := C37_booth a b h1.1 h2 h1.2 h3
          simp only [if_true]
          linarith
      | add c =>
        refine ⟨_, rfl, ?_⟩
        dsimp only
        rw [hval_append, hval_append, emulate]
        have := C37_addition c hoke
        linarith
      | newStage limit =>
        obtain ⟨p, hp, hp'⟩ := reduceHeap_len m limit hoke h.1
        obtain ⟨n, hn, hn'⟩ := reduceHeap_len m limit hoke h.2
        refine ⟨(p, n), ?_, ?_⟩
        · simp [Event.step, hp, hn]
        · dsimp only
          rw [hp', hn', emulate]
    obtain ⟨h1, he, hv⟩ := hstep
    obtain ⟨h2, hr, hv2⟩ := ih (fun e he => hok e (List.mem_cons_of_mem _ he)) h1
    exact ⟨h2, by rw [runEvents, he]; exact hr, by rw [hv2, ← hv]⟩

/-- **C37** (whole array).  For every reduction method, with or without Booth recoding, every list of products and additions
of any sizes, signednesses and values, and every placement of pipeline stages with height limits of two or more, generation
terminates and the accumulator is exactly the sum of the products and additions. -/
theorem C37_array (booth : Bool) (m : Method) (evs : List Event) (hok : ∀ e ∈ evs, e.Ok booth) :
    multArray booth m evs = some (emulate evs) := by
  obtain ⟨h, hr, hv⟩ := runEvents_val booth m evs hok ([], [])
  obtain ⟨p, hp, hp'⟩ := reduceHeap_len m 2 (by decide) h.1
  obtain ⟨n, hn, hn'⟩ := reduceHeap_len m 2 (by decide) h.2
  unfold multArray
  rw [hr]
  simp only [Option.bind_eq_bind, Option.bind_some, hp, hn, C36_convert, hp', hn']
  rw [hv]
  simp [hval]

/-- Hypotheses met: a signed product of 9 by 13 bits, a new stage, an addition with a fraction. -/
example : ∀ e ∈ [Event.mul ⟨9, true, 0, 0x1F3⟩ ⟨13, true, 0, 0x1ABC⟩, .newStage 3, .add ⟨6, false, 2, 0x2B⟩], e.Ok true := by
  simp [Event.Ok]

end Verif.HW
