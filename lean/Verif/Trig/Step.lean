import Verif.Trig.Red

/-! # The loop -/

namespace Verif.Trig

open Verif.Float (Fmt Val)
open Verif.Check
open Verif.Elem
open Verif.Rem (truncQ rr)

variable {c : ℚ} {n k : ℕ} {x : Val}

theorem excl_eq (c : ℚ) (x : Val) (i : ℕ) : preExcludeHi c x i = vxExp x - 25 + wt c i := by
  unfold preExcludeHi wt; rw [cs_eq, hs_eq]; ring

theorem tmod_spec (a : ℤ) (k : ℕ) : ∃ q : ℤ, a = q * 2 ^ (k + 1) + a.tmod (2 ^ (k + 1)) ∧ |a.tmod (2 ^ (k + 1))| < 2 ^ (k + 1) := by
  refine ⟨a.tdiv (2 ^ (k + 1)), ?_, ?_⟩
  · have := Int.mul_tdiv_add_tmod a (2 ^ (k + 1)); linarith
  · have hp : (0 : ℤ) < 2 ^ (k + 1) := by positivity
    have h1 := Int.tmod_lt_of_pos a hp
    have h2 := Int.lt_tmod_of_pos a hp
    exact abs_lt.2 ⟨h2, h1⟩

/-- the integer part of a product that is not excluded, and what is left -/
theorem hi_part {y : Val} {B : ℚ} {w : ℤ} (hy : Fin' b64 y) (hB : w ≤ k → |numOf y| ≤ B) (hB0 : 0 ≤ B) (hB1 : B ≤ 2 ^ 62) {M : ℤ} (hM : numOf y = M * (2 : ℚ) ^ w) :
    ∃ r : Val × ℤ, hiPart k w y = some r ∧
      Fin' b64 r.1 ∧ |numOf r.1| ≤ 1 / 2 ∧ |(r.2 : ℚ)| ≤ B + 1 / 2 ∧ ∃ m : ℤ, numOf y = m * 2 ^ (k + 1) + r.2 + numOf r.1 := by
  unfold hiPart
  by_cases hw : w ≤ k
  · obtain ⟨z, h1, h2, h3, h4⟩ := near_split hy (le_trans (hB hw) hB1)
    refine ⟨(fsub b64 y (ofInt z), z), by rw [if_pos hw, h1]; rfl, h3, by rw [h4]; exact h2, ?_, 0, by rw [h4]; simp⟩
    have := abs_sub_abs_le_abs_sub (z : ℚ) (numOf y)
    rw [abs_sub_comm] at this
    have := hB hw
    show |(z : ℚ)| ≤ _
    linarith
  · obtain ⟨m, hm⟩ := grid_coarse M (show ((k + 1 : ℕ) : ℤ) ≤ w by push_cast; omega)
    refine ⟨(.plusZero, 0), by rw [if_neg hw], ⟨trivial, rfl, rfl⟩, by simp [numOf], by simp; linarith, m, ?_⟩
    rw [hM, hm, zpow_natCast]; simp [numOf]

theorem unb_half : Unbounded b64 (3 / 2) ∧ Unbounded b64 1 := by
  constructor
  · have := unb (m := 3) (q := -1) (by norm_num) (by norm_num)
    norm_num at this ⊢
    convert this using 1
  · have := unb (m := 1) (q := 0) (by norm_num) (by norm_num)
    simpa using this

/-- an iteration adds the product of the argument by the chunk, modulo `2^(k+1)` -/
theorem Ctx.step (h : Ctx c n k x) {i : ℕ} (hi : 24 * (i : ℤ) ≤ cstMsb c + vxExp x + n + 4) (hw : vxExp x + wt c i ≤ k + 50)
    {B B' : ℚ} (hB0 : 0 ≤ B) (hB : vxExp x - 25 + wt c i ≤ k → |numOf (vxHi x) * localCst c (tmpCst c i) i| ≤ B)
    (hB' : |numOf (vxLo x) * localCst c (tmpCst c i) i| ≤ B') (hBB : B + B' ≤ 2 ^ 62)
    {s : Val × ℤ} (hs : Fin' b64 s.1) (hs1 : |numOf s.1| ≤ 1 / 2) (hs2 : |s.2| ≤ 2 ^ (k + 1) + 2) :
    ∃ s', body c k x i s = some s' ∧ Fin' b64 s'.1 ∧ |numOf s'.1| ≤ 1 / 2 ∧ |s'.2| ≤ 2 ^ (k + 1) + 2 ∧
      ∃ m : ℤ, |(s.2 + numOf s.1 + numOf x * localCst c (tmpCst c i) i) - (m * 2 ^ (k + 1) + (s'.2 + numOf s'.1))| ≤ 3 * (2 : ℚ) ^ (-54 : ℤ) := by
  obtain ⟨cl, sl, l1, l2, hcl, hsl, ecl, esl⟩ := h.loads hi
  obtain ⟨H, L, hH, hL, fh, fl, eh, el, esum, oh, ol⟩ := h.split
  obtain ⟨ph, qh⟩ := h.product hi hw hcl hsl ecl esl fh (A := H) (t := 25) (by norm_num at hH ⊢; omega) (Or.inl ⟨rfl, hH⟩) eh oh
  obtain ⟨pl, ql⟩ := h.product hi hw hcl hsl ecl esl fl (A := L) (t := 52) hL (Or.inr rfl) el ol
  have hB'0 : 0 ≤ B' := le_trans (abs_nonneg _) hB'
  set hiM := fmul b64 (fmul b64 (vxHi x) sl) (fmul b64 cl sl) with hhiM
  set loM := fmul b64 (fmul b64 (vxLo x) sl) (fmul b64 cl sl) with hloM
  obtain ⟨C, hC, -, -, -⟩ := chunk_bits h.hc i
  obtain ⟨r, r1, r2, r3, r4, mh, r5⟩ := hi_part (k := k) (w := vxExp x - 25 + wt c i) ph (by rw [qh]; exact hB) hB0 (by linarith) (M := H * C)
    (by rw [qh, eh, hC, Float.zadd]; push_cast; ring)
  obtain ⟨z, z1, z2, z3, z4⟩ := near_split pl (by rw [ql]; linarith)
  have hz : |(z : ℚ)| ≤ B' + 1 / 2 := by
    have := abs_sub_abs_le_abs_sub (z : ℚ) (numOf loM)
    rw [abs_sub_comm, ql] at this
    rw [ql] at z2
    linarith
  have hk61 : (2 : ℤ) ^ (k + 1) ≤ 2 ^ 61 := pow_le_pow_right₀ (by norm_num) (by have := h.hk; omega)
  have hs2q : |(s.2 : ℚ)| ≤ 2 ^ 61 + 2 := by
    have : |s.2| ≤ 2 ^ 61 + 2 := by omega
    exact_mod_cast this
  have i1 : int64 (s.2 + r.2) = some (s.2 + r.2) := int64_some (by
    have : |((s.2 + r.2 : ℤ) : ℚ)| < 2 ^ 63 := by
      push_cast
      refine lt_of_le_of_lt (abs_add_le _ _) ?_
      norm_num at *; linarith
    exact_mod_cast this)
  have i2 : int64 (s.2 + r.2 + z) = some (s.2 + r.2 + z) := int64_some (by
    have : |((s.2 + r.2 + z : ℤ) : ℚ)| < 2 ^ 63 := by
      push_cast
      refine lt_of_le_of_lt (abs_add_three _ _ _) ?_
      norm_num at *; linarith
    exact_mod_cast this)
  -- the accumulator
  obtain ⟨u1, u2⟩ := unb_half
  have hsum1 : |numOf s.1 + numOf r.1| ≤ 1 := le_trans (abs_add_le _ _) (by linarith)
  obtain ⟨a1, a2, a3⟩ := add_err (j := 0) hs r2 u2 hsum1 (by norm_num) (by norm_num) (by norm_num)
  have hred : |numOf (fsub b64 loM (ofInt z))| ≤ 1 / 2 := by rw [z4]; exact z2
  have hsum2 : |numOf (fadd b64 s.1 r.1) + numOf (fsub b64 loM (ofInt z))| ≤ 3 / 2 := le_trans (abs_add_le _ _) (by linarith)
  obtain ⟨b1, b2, b3⟩ := add_err (j := 1) a1 z3 u1 hsum2 (by norm_num) (by norm_num) (by norm_num)
  set acc := fadd b64 (fadd b64 s.1 r.1) (fsub b64 loM (ofInt z)) with hacc
  obtain ⟨y, y1, y2, y3, y4⟩ := near_split b1 (le_trans b2 (by norm_num))
  have hy : |y| ≤ 2 := by
    have h1 : |(y : ℚ)| ≤ 2 := by
      have := abs_sub_abs_le_abs_sub (y : ℚ) (numOf acc)
      rw [abs_sub_comm] at this
      linarith
    exact_mod_cast h1
  obtain ⟨q, hq1, hq2⟩ := tmod_spec (s.2 + r.2 + z) k
  set t := (s.2 + r.2 + z).tmod (2 ^ (k + 1)) with ht
  have hty : |t + y| ≤ 2 ^ (k + 1) + 2 := by
    refine le_trans (abs_add_le _ _) ?_; omega
  have i3 : int64 (t + y) = some (t + y) := int64_some (by norm_num at *; omega)
  refine ⟨(fsub b64 acc (ofInt y), t + y), ?_, y3, by rw [y4]; exact y2, hty, mh + q, ?_⟩
  · unfold body
    rw [l1, l2, excl_eq]
    simp only [Option.bind_eq_bind, Option.bind_some, ← hhiM, ← hloM]
    rw [r1]
    simp only [Option.bind_some, z1, i1, i2, ← hacc, y1, ← ht, i3]
    rfl
  · have e : numOf x * localCst c (tmpCst c i) i = numOf hiM + numOf loM := by rw [qh, ql, ← esum]; ring
    have eq : (s.2 : ℚ) + r.2 + z = q * 2 ^ (k + 1) + t := by exact_mod_cast hq1
    show |_ - (((mh + q : ℤ) : ℚ) * 2 ^ (k + 1) + (((t + y : ℤ) : ℚ) + numOf (fsub b64 acc (ofInt y))))| ≤ _
    rw [e, y4, r5]
    rw [z4] at b3
    push_cast
    have e2 : (s.2 : ℚ) + numOf s.1 + (mh * 2 ^ (k + 1) + r.2 + numOf r.1 + numOf loM) - ((mh + q) * 2 ^ (k + 1) + (t + y + (numOf acc - y))) =
        -((numOf (fadd b64 s.1 r.1) - (numOf s.1 + numOf r.1)) + (numOf acc - (numOf (fadd b64 s.1 r.1) + (numOf loM - z)))) := by
      linear_combination eq
    rw [e2, abs_neg]
    refine le_trans (abs_add_le _ _) ?_
    have : (2 : ℚ) ^ ((0 : ℤ) - 54) + (2 : ℚ) ^ ((1 : ℤ) - 54) = 3 * (2 : ℚ) ^ (-54 : ℤ) := by norm_num
    linarith

/-- the loop, from the chunk of an index on -/
theorem Ctx.loop (h : Ctx c n k x) (m : ℕ) : ∀ (i : ℕ) (s : Val × ℤ), 24 * ((i : ℤ) + m - 1) ≤ cstMsb c + vxExp x + n + 4 → vxExp x + wt c i ≤ k + 50 →
    (∀ j : ℕ, i ≤ j → j < i + m → ∃ B B' : ℚ, 0 ≤ B ∧ (vxExp x - 25 + wt c j ≤ k → |numOf (vxHi x) * localCst c (tmpCst c j) j| ≤ B) ∧
      |numOf (vxLo x) * localCst c (tmpCst c j) j| ≤ B' ∧ B + B' ≤ 2 ^ 62) →
    Fin' b64 s.1 → |numOf s.1| ≤ 1 / 2 → |s.2| ≤ 2 ^ (k + 1) + 2 →
    ∃ s', Verif.Trig.loop c k x m i s = some s' ∧ Fin' b64 s'.1 ∧ |numOf s'.1| ≤ 1 / 2 ∧ |s'.2| ≤ 2 ^ (k + 1) + 2 ∧
      ∃ q : ℤ, |(s.2 + numOf s.1 + numOf x * (tmpCst c i - tmpCst c (i + m))) - (q * 2 ^ (k + 1) + (s'.2 + numOf s'.1))| ≤ 3 * m * (2 : ℚ) ^ (-54 : ℤ) := by
  induction m with
  | zero =>
    intro i s _ _ _ h1 h2 h3
    exact ⟨s, rfl, h1, h2, h3, 0, by simp⟩
  | succ m ih =>
    intro i s hi hw hno h1 h2 h3
    obtain ⟨B, B', n1, n2, n3, n4⟩ := hno i le_rfl (by omega)
    obtain ⟨s', e1, e2, e3, e4, q, e5⟩ := h.step (i := i) (by push_cast at hi; omega) hw n1 n2 n3 n4 h1 h2 h3
    obtain ⟨s'', f1, f2, f3, f4, q', f5⟩ := ih (i + 1) s' (by push_cast at hi ⊢; omega) (by unfold wt at hw ⊢; push_cast; omega)
      (fun j hj hj' => hno j (by omega) (by omega)) e2 e3 e4
    refine ⟨s'', ?_, f2, f3, f4, q + q', ?_⟩
    · show (body c k x i s).bind _ = _
      rw [e1]
      simp only [Option.bind_some]
      push_cast at f1
      exact f1
    · rw [show i + 1 + m = i + (m + 1) by ring] at f5
      have ht : tmpCst c (i + 1) = tmpCst c i - localCst c (tmpCst c i) i := rfl
      rw [ht] at f5
      push_cast
      have e : (s.2 : ℚ) + numOf s.1 + numOf x * (tmpCst c i - tmpCst c (i + (m + 1))) - ((q + q') * 2 ^ (k + 1) + (s''.2 + numOf s''.1)) =
          ((s.2 + numOf s.1 + numOf x * localCst c (tmpCst c i) i) - (q * 2 ^ (k + 1) + (s'.2 + numOf s'.1))) +
          ((s'.2 + numOf s'.1 + numOf x * (tmpCst c i - localCst c (tmpCst c i) i - tmpCst c (i + (m + 1)))) - (q' * 2 ^ (k + 1) + (s''.2 + numOf s''.1))) := by ring
      rw [e]
      refine le_trans (abs_add_le _ _) ?_
      linarith

end Verif.Trig
