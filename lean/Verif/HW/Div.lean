import Verif.HW.Lzc
import Mathlib.Tactic.Ring
import Mathlib.Tactic.Linarith
import Mathlib.Tactic.LinearCombination

/-!
# C39: integer divider (int_div.py:117-149)
-/

namespace Verif.HW.Div

/-- The state carried from one step to the next: quotient, remainder, shifted divisor and remaining step count. -/
structure St where
  q : ℕ
  r : ℕ
  nd : ℕ
  delta : ℤ
deriving DecidableEq

/-- One turn of the loop (int_div.py:135-144).  `w1`: width of the dividend (format of `r`), `rs`: width of the result
(format of `q`). -/
def step (w1 rs : ℕ) (s : St) : St :=
  let endOfLoop := decide (s.delta < 0)
  let test := decide (s.r ≥ s.nd) && !endOfLoop
  let digit := if test then 1 else 0
  { q := if endOfLoop then s.q else (2 * s.q + digit) % 2 ^ rs
    r := (s.r - if test then s.nd else 0) % 2 ^ w1
    nd := s.nd / 2
    delta := s.delta - 1 }

def steps (w1 rs : ℕ) : ℕ → St → St
  | 0, s => s
  | n + 1, s => steps w1 rs n (step w1 rs s)

/-- `BitLogicLeftShift(divisor, lzc_delta)`.  A shift by a negative amount has no meaning: the value is left open
(`junk`). -/
def normalized {w2 : ℕ} (junk : ℕ) (d : BitVec w2) (delta : ℤ) : ℕ :=
  if delta < 0 then junk else d.toNat * 2 ^ delta.toNat % 2 ^ w2

/-- State before the loop (int_div.py:129-134). -/
def start {w1 w2 : ℕ} (junk : ℕ) (n : BitVec w1) (d : BitVec w2) : St :=
  let delta : ℤ := (hwLzc w2 d : ℤ) - (hwLzc w1 n : ℤ)
  { q := 0, r := n.toNat, nd := normalized junk d delta, delta := delta }

/-- `generate_scheme_basic` (int_div.py:117-149). -/
def intDiv {w1 w2 : ℕ} (rs divByZero junk : ℕ) (n : BitVec w1) (d : BitVec w2) : ℕ :=
  let s := steps w1 rs rs (start junk n d)
  if d.toNat = 0 then divByZero else s.q

/-! ## Invariant -/

/-- The steps still to do: the divisor is shifted by `k` and the rest is below the double of it. -/
def Inv (n d : ℕ) (k : ℕ) (s : St) : Prop :=
  s.delta = (k : ℤ) - 1 ∧ n = s.q * d * 2 ^ k + s.r ∧ s.r < d * 2 ^ k ∧ (1 ≤ k → s.nd = d * 2 ^ (k - 1))

theorem step_inv (w1 rs n d k : ℕ) (s : St) (hn : n < 2 ^ w1) (hnr : n < 2 ^ rs) (hd : 0 < d) (h : Inv n d (k + 1) s) :
    Inv n d k (step w1 rs s) := by
  obtain ⟨h1, h2, h3, h4⟩ := h
  have h4 := h4 (by omega)
  simp only [Nat.add_sub_cancel] at h4
  have hdel : ¬ s.delta < 0 := by rw [h1]; push_cast; omega
  have hd2 : d * 2 ^ (k + 1) = 2 * (d * 2 ^ k) := by ring
  have h2' : n = 2 * s.q * (d * 2 ^ k) + s.r := by rw [h2]; ring
  have hX : 1 ≤ d * 2 ^ k := Nat.mul_pos hd (Nat.two_pow_pos _)
  rw [hd2] at h3
  unfold step
  dsimp only
  rw [decide_eq_false hdel, h4]
  generalize hXe : d * 2 ^ k = X at *
  simp only [Bool.not_false, Bool.and_true, Bool.false_eq_true, if_false]
  have hmod : ∀ c : ℕ, (2 * s.q + c) * X ≤ n → (2 * s.q + c) % 2 ^ rs = 2 * s.q + c := by
    intro c hc
    apply Nat.mod_eq_of_lt
    have : (2 * s.q + c) * 1 ≤ (2 * s.q + c) * X := Nat.mul_le_mul_left _ hX
    omega
  have hnd : 1 ≤ k → X / 2 = d * 2 ^ (k - 1) := by
    intro hk
    obtain ⟨k, rfl⟩ := Nat.exists_eq_add_of_le' hk
    rw [← hXe, Nat.add_sub_cancel, pow_succ, ← mul_assoc, Nat.mul_div_cancel _ (by decide)]
  by_cases ht : s.r ≥ X
  · rw [decide_eq_true ht]
    simp only [if_true]
    have hle : (2 * s.q + 1) * X ≤ n := by rw [h2']; nlinarith
    rw [hmod 1 hle, Nat.mod_eq_of_lt (show s.r - X < 2 ^ w1 by omega)]
    refine ⟨by dsimp only; rw [h1]; push_cast; ring, ?_, ?_, hnd⟩
    · dsimp only
      rw [mul_assoc, hXe, h2']
      obtain ⟨r', hr'⟩ := Nat.exists_eq_add_of_le ht
      rw [hr', Nat.add_sub_cancel_left]
      ring
    · dsimp only
      omega
  · rw [decide_eq_false ht]
    simp only [Bool.false_eq_true, if_false, Nat.sub_zero]
    have hle : (2 * s.q + 0) * X ≤ n := by rw [h2']; simp
    rw [hmod 0 hle, Nat.mod_eq_of_lt (show s.r < 2 ^ w1 by omega)]
    refine ⟨by dsimp only; rw [h1]; push_cast; ring, ?_, ?_, hnd⟩
    · dsimp only
      rw [mul_assoc, hXe, h2']; ring
    · dsimp only
      omega

/-- Once the count is negative the quotient and the rest do not change. -/
theorem steps_done (w1 rs m : ℕ) : ∀ s : St, s.delta < 0 → s.r < 2 ^ w1 →
    (steps w1 rs m s).q = s.q ∧ (steps w1 rs m s).r = s.r := by
  induction m with
  | zero => intro s _ _; exact ⟨rfl, rfl⟩
  | succ m ih =>
    intro s hs hr
    have hq : (step w1 rs s).q = s.q := by simp [step, hs]
    have hr' : (step w1 rs s).r = s.r := by simp [step, hs, Nat.mod_eq_of_lt hr]
    obtain ⟨h1, h2⟩ := ih (step w1 rs s) (by show s.delta - 1 < 0; omega) (by omega)
    rw [steps, h1, h2, hq, hr']
    exact ⟨rfl, rfl⟩

theorem inv_zero {n d : ℕ} {s : St} (hd : 0 < d) (h : Inv n d 0 s) : s.q = n / d ∧ s.r = n % d := by
  obtain ⟨_, h2, h3, _⟩ := h
  rw [pow_zero, mul_one] at h2 h3
  have h4 : n / d = s.q := by
    rw [Nat.div_eq_iff hd]
    constructor <;> omega
  refine ⟨h4.symm, ?_⟩
  have := Nat.div_add_mod n d
  rw [h4, mul_comm] at this
  omega

theorem steps_inv (w1 rs n d : ℕ) (hn : n < 2 ^ w1) (hnr : n < 2 ^ rs) (hd : 0 < d) (m : ℕ) :
    ∀ (k : ℕ) (s : St), k ≤ m → Inv n d k s → (steps w1 rs m s).q = n / d ∧ (steps w1 rs m s).r = n % d := by
  induction m with
  | zero =>
    intro k s hk h
    obtain rfl : k = 0 := by omega
    exact inv_zero hd h
  | succ m ih =>
    intro k s hk h
    cases k with
    | zero =>
      have hz := inv_zero hd h
      have := steps_done w1 rs (m + 1) s (by rw [h.1]; decide) (by have := Nat.mod_le n d; omega)
      omega
    | succ k =>
      rw [steps]
      exact ih k _ (by omega) (step_inv w1 rs n d k s hn hnr hd h)

/-- Final state of the loop. -/
theorem steps_start (w1 w2 rs junk : ℕ) (n : BitVec w1) (d : BitVec w2) (hw : w1 ≤ w2) (hrs : w2 ≤ rs) (hd : 0 < d.toNat) :
    (steps w1 rs rs (start junk n d)).q = n.toNat / d.toNat ∧ (steps w1 rs rs (start junk n d)).r = n.toNat % d.toNat := by
  obtain ⟨⟨a1, a2, a3⟩, _⟩ := C35_lzc w1 n
  obtain ⟨⟨b1, b2, b3⟩, _⟩ := C35_lzc w2 d
  generalize hln : hwLzc w1 n = ln at *
  generalize hld : hwLzc w2 d = ld at *
  have hnlt : n.toNat < 2 ^ w1 := n.isLt
  have hnrs : n.toNat < 2 ^ rs := lt_of_lt_of_le hnlt (Nat.pow_le_pow_right (by decide) (by omega))
  have hldw : ld < w2 := by
    by_contra hc
    have : w2 - ld = 0 := by omega
    rw [this] at b2
    simp at b2
    omega
  have b3 := b3 hldw
  by_cases hneg : (ld : ℤ) - ln < 0
  · obtain ⟨h1, h2⟩ := steps_done w1 rs rs (start junk n d) (by simp only [start, hln, hld]; exact hneg) hnlt
    rw [h1, h2]
    have hlt : n.toNat < d.toNat := by
      refine lt_of_lt_of_le a2 (le_trans ?_ b3)
      exact Nat.pow_le_pow_right (by decide) (by omega)
    exact ⟨(Nat.div_eq_of_lt hlt).symm, (Nat.mod_eq_of_lt hlt).symm⟩
  · have hle : ln ≤ ld := by omega
    apply steps_inv w1 rs _ _ hnlt hnrs hd rs (ld - ln + 1) _ (by omega)
    have hdel : (ld : ℤ) - ln = ((ld - ln : ℕ) : ℤ) := by omega
    refine ⟨?_, ?_, ?_, ?_⟩
    · simp only [start, hln, hld]; push_cast; omega
    · simp [start]
    · simp only [start]
      refine lt_of_lt_of_le a2 (le_trans ?_ (Nat.mul_le_mul_right _ b3))
      rw [← pow_add]
      exact Nat.pow_le_pow_right (by decide) (by omega)
    · intro _
      simp only [start, hln, hld, normalized]
      rw [if_neg hneg, hdel, Int.toNat_natCast, Nat.add_sub_cancel, Nat.mod_eq_of_lt]
      have : d.toNat * 2 ^ (ld - ln) < 2 ^ (w2 - ld) * 2 ^ (ld - ln) := (Nat.mul_lt_mul_right (Nat.two_pow_pos _)).2 b2
      rw [← pow_add] at this
      exact lt_of_lt_of_le this (Nat.pow_le_pow_right (by decide) (by omega))

/-- **C39.**  When the divisor is at least as wide as the dividend and the result at least as wide as the divisor (the
default: three equal widths), the divider returns the integer quotient for every dividend and non-zero divisor, and the
declared value for a divisor of zero. -/
theorem C39_div_partial (w1 w2 rs divByZero junk : ℕ) (n : BitVec w1) (d : BitVec w2) (hw : w1 ≤ w2) (hrs : w2 ≤ rs) :
    intDiv rs divByZero junk n d = if d.toNat = 0 then divByZero else n.toNat / d.toNat := by
  unfold intDiv
  dsimp only
  split
  · rfl
  · next hd0 => exact (steps_start w1 w2 rs junk n d hw hrs (by omega)).1

example : intDiv 8 255 0 (200#8) (7#8) = 28 := by decide +kernel

/-- A divisor narrower than the dividend: the leading-zero counts do not refer to the same width and the quotient is
wrong. -/
theorem C39_narrow_divisor_wrong : intDiv 8 255 0 (255#8) (1#4) ≠ 255 / 1 := by decide +kernel

/-- A result narrower than the operands: one turn may be missing even for a quotient that fits in the result (8 / 3 on a
two-bit result). -/
theorem C39_narrow_result_wrong : 8 / 3 < 2 ^ 2 ∧ intDiv 2 255 0 (8#4) (3#4) ≠ 8 / 3 := by decide +kernel

/-- What the remainder variable of the loop holds at the end, under the same conditions: the remainder of the division. -/
theorem C39_remainder_partial (w1 w2 rs junk : ℕ) (n : BitVec w1) (d : BitVec w2) (hw : w1 ≤ w2) (hrs : w2 ≤ rs) (hd : d.toNat ≠ 0) :
    (steps w1 rs rs (start junk n d)).r = n.toNat % d.toNat :=
  (steps_start w1 w2 rs junk n d hw hrs (by omega)).2

example : (steps 8 8 8 (start 0 (200#8) (7#8))).r = 4 := by decide +kernel

end Verif.HW.Div
