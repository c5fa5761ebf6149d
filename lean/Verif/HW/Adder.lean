import Mathlib.Tactic.Ring
import Mathlib.Tactic.Linarith
import Mathlib.Tactic.LinearCombination
import Mathlib.Data.Nat.Bitwise
import Mathlib.Tactic.Push

/-!
# C38: compound adder (compound_adder.py:134-251)
-/

namespace Verif.HW.Compound

/-- A bus: its width and the number its bits write. -/
structure Bus where
  w : ℕ
  v : ℕ
deriving DecidableEq

/-- `SubSignalSelection(op, lo, hi)`. -/
def Bus.slice (b : Bus) (lo hi : ℕ) : Bus := ⟨hi + 1 - lo, b.v / 2 ^ lo % 2 ^ (hi + 1 - lo)⟩

/-- `Concatenation(hi, lo)`. -/
def Bus.cat (hi lo : Bus) : Bus := ⟨hi.w + lo.w, hi.v * 2 ^ lo.w + lo.v⟩

/-- `subdivide(op, [s])` (175-198): the slice `0..min(s, n-1)`, then the slice `s+1..n-1`, or a padding constant without a
format (`none`) when the operand is too short. -/
def subdivide (op : Bus) (s : ℕ) : Bus × Option Bus :=
  let hi := min s (op.w - 1)
  (op.slice 0 hi, if hi < op.w - 1 then some (op.slice (s + 1) (op.w - 1)) else none)

/-- The base case (143-172).  One-bit operands are treated apart.  The wider case uses operands of the same size (the code
says so: "TODO/FIXME: padd when op_x's size does not match op_y' size"). -/
def base (x y : Bus) : Option (Bus × Bus × Bool × Bool) :=
  let n := max x.w y.w
  if n = 1 then
    let bx := x.v.testBit 0
    let by' := y.v.testBit 0
    some (⟨1, (bx ^^ by').toNat⟩, ⟨1, (!(bx ^^ by')).toNat⟩, bx && by', bx ^^ by')
  else if x.w ≠ y.w then none
  else
    let pre := x.v + y.v
    let prep1 := pre + 1
    some (⟨n, pre % 2 ^ n⟩, ⟨n, prep1 % 2 ^ n⟩, pre.testBit n, (List.range n).all fun i => (x.v ^^^ y.v).testBit i)

/-- `rec_add` (139-234), for two slices.  `none`: the generator fails (padding constant without a format, size mismatch) or
recurses without end (`lower_limit = 0`, where the split index is zero). -/
def recAdd (lim : ℕ) : ℕ → Bus → Bus → Option (Bus × Bus × Bool × Bool)
  | 0, _, _ => none
  | fuel + 1, x, y =>
    let n := max x.w y.w
    if n ≤ lim then base x y
    else
      let half := n / 2
      if half = 0 then none
      else
        let xs := subdivide x (half - 1)
        let ys := subdivide y (half - 1)
        match xs.2, ys.2 with
        | some xh, some yh => do
          let (a0, p10, g0, p0) ← recAdd lim fuel xs.1 ys.1
          let (a1, p11, g1, p1) ← recAdd lim fuel xh yh
          let cp := p1 && p0
          let cg := g1 || (p1 && g0)
          let add := if g0 then p11 else a1
          let addp1 := if p0 || g0 then p11 else a1
          pure (add.cat a0, addp1.cat p10, cg, cp)
        | _, _ => none

/-- `generate_scheme` (134-251): the final carries are concatenated; the conversion to the output format keeps the low
`outW` bits when it is narrower. -/
def compoundAdder (lim outW : ℕ) (x y : Bus) : Option (ℕ × ℕ) := do
  let (a, p1, g, p) ← recAdd lim (max x.w y.w) x y
  let add := Bus.cat ⟨1, g.toNat⟩ a
  let addp1 := Bus.cat ⟨1, (g || p).toNat⟩ p1
  pure (add.v % 2 ^ outW, addp1.v % 2 ^ outW)

/-- What the quadruple must be. -/
structure Ok (n x y : ℕ) (r : Bus × Bus × Bool × Bool) : Prop where
  w0 : r.1.w = n
  w1 : r.2.1.w = n
  l0 : r.1.v < 2 ^ n
  l1 : r.2.1.v < 2 ^ n
  add : r.1.v + 2 ^ n * r.2.2.1.toNat = x + y
  addp1 : r.2.1.v + 2 ^ n * (r.2.2.1 || r.2.2.2).toNat = x + y + 1
  prop : r.2.2.2 = true ↔ x + y + 1 = 2 ^ n

theorem xor_all (n : ℕ) : ∀ x y : ℕ, x < 2 ^ n → y < 2 ^ n →
    ((∀ i < n, (x ^^^ y).testBit i = true) ↔ x + y + 1 = 2 ^ n) := by
  induction n with
  | zero => intro x y hx hy; simp at hx hy; subst hx; subst hy; simp
  | succ n ih =>
    intro x y hx hy
    have hx' : x / 2 < 2 ^ n := by rw [pow_succ] at hx; omega
    have hy' : y / 2 < 2 ^ n := by rw [pow_succ] at hy; omega
    have h := ih (x / 2) (y / 2) hx' hy'
    have hs : ∀ i, (x ^^^ y).testBit (i + 1) = (x / 2 ^^^ y / 2).testBit i := by
      intro i
      rw [Nat.testBit_succ, Nat.xor_div_two]
    have h0 : (x ^^^ y).testBit 0 = true ↔ (x + y) % 2 = 1 := by
      rw [Nat.testBit_xor, Nat.testBit_zero, Nat.testBit_zero]
      by_cases hx : x % 2 = 1 <;> by_cases hy : y % 2 = 1 <;> simp [hx, hy] <;> omega
    constructor
    · intro hall
      have h1 := h.1 (fun i hi => by rw [← hs]; exact hall (i + 1) (by omega))
      have h2 := h0.1 (hall 0 (by omega))
      rw [pow_succ]
      omega
    · intro he i hi
      rw [pow_succ] at he
      cases i with
      | zero => exact h0.2 (by omega)
      | succ i => rw [hs]; exact h.2 (by omega) i (by omega)

theorem base_ok (n x y : ℕ) (hn : 1 ≤ n) (hx : x < 2 ^ n) (hy : y < 2 ^ n) :
    ∃ r, base ⟨n, x⟩ ⟨n, y⟩ = some r ∧ Ok n x y r := by
  unfold base
  dsimp only
  rw [Nat.max_self]
  by_cases h1 : n = 1
  · subst h1
    rw [if_pos rfl]
    refine ⟨_, rfl, ?_⟩
    have hx2 : x = 0 ∨ x = 1 := by simp at hx; omega
    have hy2 : y = 0 ∨ y = 1 := by simp at hy; omega
    rcases hx2 with rfl | rfl <;> rcases hy2 with rfl | rfl <;>
      exact ⟨by decide, by decide, by decide, by decide, by decide, by decide, by decide⟩
  · rw [if_neg h1, if_neg (by simp)]
    refine ⟨_, rfl, ?_⟩
    have hp := Nat.two_pow_pos n
    have hg : (x + y).testBit n = decide (2 ^ n ≤ x + y) := by
      rw [Nat.testBit_eq_decide_div_mod_eq]
      congr 1
      apply propext
      by_cases hc : 2 ^ n ≤ x + y
      · have : (x + y) / 2 ^ n = 1 := by
          rw [Nat.div_eq_iff hp]; omega
        rw [this]; simp [hc]
      · rw [Nat.div_eq_of_lt (by omega)]; simp [hc]
    have hpr : ((List.range n).all fun i => (x ^^^ y).testBit i) = true ↔ x + y + 1 = 2 ^ n := by
      rw [List.all_eq_true, ← xor_all n x y hx hy]
      simp [List.mem_range]
    refine ⟨rfl, rfl, Nat.mod_lt _ hp, Nat.mod_lt _ hp, ?_, ?_, hpr⟩
    · dsimp only
      rw [hg]
      by_cases hc : 2 ^ n ≤ x + y
      · rw [decide_eq_true hc, Nat.mod_eq_sub_mod hc, Nat.mod_eq_of_lt (by omega)]
        simp; omega
      · rw [decide_eq_false hc, Nat.mod_eq_of_lt (by omega)]; simp
    · dsimp only
      rw [hg]
      by_cases hc : 2 ^ n ≤ x + y
      · rw [decide_eq_true hc, Nat.mod_eq_sub_mod (by omega), Nat.mod_eq_of_lt (by omega)]
        simp; omega
      · rw [decide_eq_false hc, Bool.false_or]
        by_cases hp1 : x + y + 1 = 2 ^ n
        · rw [hpr.2 hp1, hp1]; simp
        · have : ((List.range n).all fun i => (x ^^^ y).testBit i) = false := by
            rw [Bool.eq_false_iff]; exact fun h => hp1 (hpr.1 h)
          rw [this, Nat.mod_eq_of_lt (by omega)]; simp

theorem split_eq (L H xl yl xh yh : ℕ) (hL : 0 < L) (hv : xl + yl + 1 < 2 * L) :
    (xh + yh + 1 = H ∧ xl + yl + 1 = L) ↔ xh * L + xl + (yh * L + yl) + 1 = L * H := by
  constructor
  · rintro ⟨rfl, h⟩
    linear_combination h
  · intro he
    have he' : (xh + yh) * L + (xl + yl + 1) = L * H := by linear_combination he
    have hd : L ∣ xl + yl + 1 := by
      have h1 : L ∣ (xh + yh) * L + (xl + yl + 1) := by rw [he']; exact Dvd.intro _ rfl
      exact (Nat.dvd_add_right (Dvd.intro_left _ rfl)).1 h1
    obtain ⟨k, hk⟩ := hd
    have hk1 : k = 1 := by
      have : k ≠ 0 := by rintro rfl; simp at hk
      have : k < 2 := by
        by_contra hc
        have : L * 2 ≤ L * k := Nat.mul_le_mul_left _ (by omega)
        omega
      omega
    subst hk1
    rw [mul_one] at hk
    refine ⟨?_, hk⟩
    have : (xh + yh + 1) * L = H * L := by rw [hk] at he'; linear_combination he'
    exact Nat.eq_of_mul_eq_mul_right hL this

/-- Putting two slices together. -/
theorem Ok.combine {l h xl yl xh yh : ℕ} {a0 p10 a1 p11 : Bus} {g0 p0 g1 p1 : Bool}
    (o0 : Ok l xl yl (a0, p10, g0, p0)) (o1 : Ok h xh yh (a1, p11, g1, p1)) :
    Ok (l + h) (xh * 2 ^ l + xl) (yh * 2 ^ l + yl)
      ((if g0 then p11 else a1).cat a0, (if p0 || g0 then p11 else a1).cat p10, g1 || (p1 && g0), p1 && p0) := by
  obtain ⟨w0, w1, l0, l1, e0, e1, q0⟩ := o0
  obtain ⟨w0', w1', l0', l1', e0', e1', q1⟩ := o1
  dsimp only at *
  obtain ⟨a0w, a0⟩ := a0
  obtain ⟨p10w, p10⟩ := p10
  obtain ⟨a1w, a1⟩ := a1
  obtain ⟨p11w, p11⟩ := p11
  dsimp only at *
  subst w0 w0'
  subst w1
  subst w1'
  generalize hL : 2 ^ p10w = L at *
  generalize hH : 2 ^ p11w = H at *
  have hpw : 2 ^ (p10w + p11w) = L * H := by rw [pow_add, hL, hH]
  have hLp : 0 < L := by rw [← hL]; exact Nat.two_pow_pos _
  have hHp : 0 < H := by rw [← hH]; exact Nat.two_pow_pos _
  have hlt : ∀ u v : ℕ, u < H → v < L → u * L + v < L * H := by
    intro u v hu hv
    have : (u + 1) * L ≤ H * L := Nat.mul_le_mul_right _ hu
    nlinarith
  have key : ∀ c : Bool, (if c then p11 else a1) + H * (g1 || (p1 && c)).toNat = xh + yh + c.toNat := by
    intro c
    cases c
    · simpa using e0'
    · simpa using e1'
  refine ⟨?_, ?_, ?_, ?_, ?_, ?_, ?_⟩
  · cases g0 <;> simp [Bus.cat] <;> omega
  · cases p0 <;> cases g0 <;> simp [Bus.cat] <;> omega
  · rw [hpw]
    cases g0 <;> simp only [Bus.cat, if_true, Bool.false_eq_true, if_false, hL] <;> exact hlt _ _ (by assumption) l0
  · rw [hpw]
    cases p0 <;> cases g0 <;> simp only [Bus.cat, if_true, Bool.false_eq_true, if_false, hL, Bool.or_true, Bool.or_false, Bool.true_or, Bool.or_self] <;>
      exact hlt _ _ (by assumption) l1
  · have k := key g0
    have e : (if g0 = true then (⟨p11w, p11⟩ : Bus) else ⟨p11w, a1⟩).v = if g0 then p11 else a1 := by cases g0 <;> rfl
    rw [hpw]
    simp only [Bus.cat, hL]
    rw [e]
    linear_combination L * k + e0
  · have k := key (p0 || g0)
    have e : (if (p0 || g0) = true then (⟨p11w, p11⟩ : Bus) else ⟨p11w, a1⟩).v = if (p0 || g0) then p11 else a1 := by
      cases p0 <;> cases g0 <;> rfl
    have e2 : (g1 || p1 && g0 || p1 && p0) = (g1 || (p1 && (p0 || g0))) := by cases g1 <;> cases p1 <;> cases p0 <;> cases g0 <;> rfl
    have e3 : (g0 || p0) = (p0 || g0) := Bool.or_comm _ _
    rw [e3] at e1
    rw [hpw, e2]
    simp only [Bus.cat, hL]
    rw [e]
    linear_combination L * k + e1
  · have hv : xl + yl + 1 < 2 * L := by
      have : g0.toNat ≤ 1 := Bool.toNat_le g0
      have h2 : L * g0.toNat ≤ L := by simpa using Nat.mul_le_mul_left L this
      have h3 : (g0 || p0).toNat ≤ 1 := Bool.toNat_le _
      by_contra hc
      have h4 : L * (g0 || p0).toNat ≤ L := by simpa using Nat.mul_le_mul_left L h3
      omega
    rw [hpw, Bool.and_eq_true, q0, q1]
    exact split_eq L H _ _ _ _ hLp hv

theorem recAdd_ok (lim : ℕ) (hlim : 1 ≤ lim) (fuel : ℕ) : ∀ n x y : ℕ, 1 ≤ n → n ≤ fuel → x < 2 ^ n → y < 2 ^ n →
    ∃ r, recAdd lim fuel ⟨n, x⟩ ⟨n, y⟩ = some r ∧ Ok n x y r := by
  induction fuel with
  | zero => intro n x y h1 h2; omega
  | succ fuel ih =>
    intro n x y hn hf hx hy
    rw [recAdd]
    dsimp only
    rw [Nat.max_self]
    by_cases hc : n ≤ lim
    · rw [if_pos hc]
      exact base_ok n x y hn hx hy
    · rw [if_neg hc, if_neg (show ¬ n / 2 = 0 by omega)]
      have hsub : ∀ v : ℕ, v < 2 ^ n → subdivide ⟨n, v⟩ (n / 2 - 1) =
          (⟨n / 2, v % 2 ^ (n / 2)⟩, some ⟨n - n / 2, v / 2 ^ (n / 2)⟩) := by
        intro v hv
        unfold subdivide Bus.slice
        dsimp only
        rw [show min (n / 2 - 1) (n - 1) = n / 2 - 1 from by omega, if_pos (show n / 2 - 1 < n - 1 by omega)]
        rw [show n / 2 - 1 + 1 = n / 2 from by omega, show n - 1 + 1 = n from by omega]
        rw [Nat.sub_zero, pow_zero, Nat.div_one]
        have : v / 2 ^ (n / 2) % 2 ^ (n - n / 2) = v / 2 ^ (n / 2) := by
          apply Nat.mod_eq_of_lt
          rw [Nat.div_lt_iff_lt_mul (Nat.two_pow_pos _), ← pow_add]
          rwa [show n - n / 2 + n / 2 = n from by omega]
        rw [this]
      rw [hsub x hx, hsub y hy]
      dsimp only
      have hd : ∀ v : ℕ, v < 2 ^ n → v / 2 ^ (n / 2) < 2 ^ (n - n / 2) := by
        intro v hv
        rw [Nat.div_lt_iff_lt_mul (Nat.two_pow_pos _), ← pow_add]
        rwa [show n - n / 2 + n / 2 = n from by omega]
      obtain ⟨⟨a0, p10, g0, p0⟩, hr0, o0⟩ := ih (n / 2) (x % 2 ^ (n / 2)) (y % 2 ^ (n / 2)) (by omega) (by omega)
        (Nat.mod_lt _ (Nat.two_pow_pos _)) (Nat.mod_lt _ (Nat.two_pow_pos _))
      obtain ⟨⟨a1, p11, g1, p1⟩, hr1, o1⟩ := ih (n - n / 2) (x / 2 ^ (n / 2)) (y / 2 ^ (n / 2)) (by omega) (by omega)
        (hd x hx) (hd y hy)
      rw [hr0, hr1]
      refine ⟨_, rfl, ?_⟩
      have := o0.combine o1
      rwa [show n / 2 + (n - n / 2) = n from by omega, Nat.div_add_mod', Nat.div_add_mod'] at this

/-- **C38.**  For every width `n ≥ 1`, every recursion cut-off `≥ 1`, every pair of operands and every output width that
holds the carry, the two results are `x + y` and `x + y + 1`.

The second result needs one more condition only if it reaches `2^(n+1)`: it does not, as `x + y + 1 < 2^(n+1)`. -/
theorem C38_compound (lim outW n x y : ℕ) (hlim : 1 ≤ lim) (hn : 1 ≤ n) (hx : x < 2 ^ n) (hy : y < 2 ^ n) (hw : n + 1 ≤ outW) :
    compoundAdder lim outW ⟨n, x⟩ ⟨n, y⟩ = some (x + y, x + y + 1) := by
  unfold compoundAdder
  dsimp only
  rw [Nat.max_self]
  obtain ⟨⟨a, p1, g, p⟩, hr, o⟩ := recAdd_ok lim hlim n n x y hn (Nat.le_refl _) hx hy
  rw [hr]
  have h1 := o.add
  have h2 := o.addp1
  have hw0 := o.w0
  have hw1 := o.w1
  dsimp only at h1 h2 hw0 hw1
  have hp : 2 ^ (n + 1) ≤ 2 ^ outW := Nat.pow_le_pow_right (by decide) hw
  rw [pow_succ] at hp
  show some _ = some _
  simp only [Bus.cat, hw0, hw1]
  rw [show g.toNat * 2 ^ n + a.v = x + y from by rw [← h1]; ring, show (g || p).toNat * 2 ^ n + p1.v = x + y + 1 from by rw [← h2]; ring,
    Nat.mod_eq_of_lt (by omega), Nat.mod_eq_of_lt (by omega)]

example : compoundAdder 1 34 ⟨32, 0x244f40a⟩ ⟨32, 0x8a768c6d⟩ = some (0x244f40a + 0x8a768c6d, 0x244f40a + 0x8a768c6d + 1) := by
  decide +kernel

/-- Operands of different widths: generation fails (the padding constant has no format, or the sizes of the exclusive or
differ). -/
theorem C38_width_mismatch : compoundAdder 1 34 ⟨3, 5⟩ ⟨2, 1⟩ = none ∧ compoundAdder 2 34 ⟨2, 3⟩ ⟨1, 1⟩ = none := by
  decide +kernel

/-- A cut-off of zero (the option takes any integer): the recursion has no end, whatever the fuel. -/
theorem C38_limit_zero (fuel n x y : ℕ) (hn : 1 ≤ n) : recAdd 0 fuel ⟨n, x⟩ ⟨n, y⟩ = none := by
  induction fuel generalizing n x y with
  | zero => rfl
  | succ fuel ih =>
    rw [recAdd]
    dsimp only
    rw [Nat.max_self, if_neg (show ¬ n ≤ 0 by omega)]
    by_cases hh : n / 2 = 0
    · rw [if_pos hh]
    · rw [if_neg hh]
      have hs : ∀ v, (subdivide ⟨n, v⟩ (n / 2 - 1)).1.w = n / 2 := by
        intro v
        simp only [subdivide, Bus.slice]
        omega
      split
      · have := ih (n / 2) (subdivide ⟨n, x⟩ (n / 2 - 1)).1.v (subdivide ⟨n, y⟩ (n / 2 - 1)).1.v (by omega)
        have e : ∀ v, (⟨n / 2, (subdivide ⟨n, v⟩ (n / 2 - 1)).1.v⟩ : Bus) = (subdivide ⟨n, v⟩ (n / 2 - 1)).1 := by
          intro v
          have h := hs v
          generalize (subdivide ⟨n, v⟩ (n / 2 - 1)).1 = b at h ⊢
          rw [← h]
        rw [e, e] at this
        rw [this]
        rfl
      · rfl

end Verif.HW.Compound
