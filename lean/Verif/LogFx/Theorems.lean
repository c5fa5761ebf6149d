import Verif.LogFx.Model
import Mathlib.Analysis.SpecialFunctions.Log.Basic
import Mathlib.Analysis.Complex.ExponentialBounds
import Mathlib.Tactic.Linarith
import Mathlib.Tactic.Ring
import Mathlib.Tactic.FieldSimp
import Mathlib.Tactic.Positivity
import Mathlib.Tactic.NormNum

namespace Verif.LogFx

theorem pow2_pos (k : ℕ) : (0 : ℚ) < 2 ^ k := by positivity

theorem dn_le (k : ℕ) (v : ℚ) : dn k v ≤ v := by
  unfold dn
  rw [div_le_iff₀ (pow2_pos k)]
  exact Int.floor_le _

theorem lt_dn (k : ℕ) (v : ℚ) : v < dn k v + 1 / 2 ^ k := by
  unfold dn
  rw [← add_div, lt_div_iff₀ (pow2_pos k)]
  exact Int.lt_floor_add_one _

theorem le_up (k : ℕ) (v : ℚ) : v ≤ up k v := by
  unfold up
  rw [le_div_iff₀ (pow2_pos k)]
  exact Int.le_ceil _

theorem up_lt (k : ℕ) (v : ℚ) : up k v < v + 1 / 2 ^ k := by
  unfold up
  rw [div_lt_iff₀ (pow2_pos k), add_mul, one_div, inv_mul_cancel₀ (pow2_pos k).ne']
  exact Int.ceil_lt_add_one _

theorem dn_grid (k : ℕ) (v : ℚ) (h : OnGrid k v) : dn k v = v := by
  obtain ⟨n, rfl⟩ := h
  unfold dn
  rw [div_mul_cancel₀ _ (pow2_pos k).ne', Int.floor_intCast]

theorem up_onGrid (k : ℕ) (v : ℚ) : OnGrid k (up k v) := ⟨_, rfl⟩

theorem up_le_grid (k : ℕ) (v w : ℚ) (hw : OnGrid k w) (h : v ≤ w) : up k v ≤ w := by
  obtain ⟨n, rfl⟩ := hw
  unfold up
  apply div_le_div_of_nonneg_right _ (pow2_pos k).le
  have : ⌈v * 2 ^ k⌉ ≤ n := by
    apply Int.ceil_le.2
    rwa [le_div_iff₀ (pow2_pos k)] at h
  exact_mod_cast this

theorem one_onGrid (k : ℕ) : OnGrid k 1 := ⟨2 ^ k, by push_cast; rw [div_self (pow2_pos k).ne']⟩

theorem OnGrid.mul {a b : ℕ} {x y : ℚ} (hx : OnGrid a x) (hy : OnGrid b y) : OnGrid (a + b) (x * y) := by
  obtain ⟨n, rfl⟩ := hx
  obtain ⟨m, rfl⟩ := hy
  refine ⟨n * m, ?_⟩
  rw [pow_add]; push_cast
  rw [div_mul_div_comm]

theorem OnGrid.add {a : ℕ} {x y : ℚ} (hx : OnGrid a x) (hy : OnGrid a y) : OnGrid a (x + y) := by
  obtain ⟨n, rfl⟩ := hx
  obtain ⟨m, rfl⟩ := hy
  exact ⟨n + m, by push_cast; rw [add_div]⟩

theorem OnGrid.sub {a : ℕ} {x y : ℚ} (hx : OnGrid a x) (hy : OnGrid a y) : OnGrid a (x - y) := by
  obtain ⟨n, rfl⟩ := hx
  obtain ⟨m, rfl⟩ := hy
  exact ⟨n - m, by push_cast; rw [sub_div]⟩

theorem OnGrid.mono {a b : ℕ} (hab : a ≤ b) {x : ℚ} (hx : OnGrid a x) : OnGrid b x := by
  obtain ⟨n, rfl⟩ := hx
  obtain ⟨c, rfl⟩ := Nat.exists_eq_add_of_le hab
  refine ⟨n * 2 ^ c, ?_⟩
  rw [pow_add]; push_cast
  rw [mul_div_mul_right _ _ (pow2_pos c).ne']

theorem IsInverse.unique {s p n : ℕ} {i k : ℚ} (h : IsInverse s p n i) (h' : IsInverse s p n k) : i = k :=
  le_antisymm (h.2.2 k h'.1 h'.2.1) (h'.2.2 i h.1 h.2.1)

theorem IsIndex.unique {s n m : ℕ} {x : ℚ} (h : IsIndex s x n) (h' : IsIndex s x m) : n = m := by
  have a := lt_of_le_of_lt h.1 h'.2
  have b := lt_of_le_of_lt h'.1 h.2
  have a' : (n : ℚ) < m + 1 := by
    have := (add_lt_add_iff_left 1).1 a
    rwa [div_lt_div_iff_of_pos_right (pow2_pos s)] at this
  have b' : (m : ℚ) < n + 1 := by
    have := (add_lt_add_iff_left 1).1 b
    rwa [div_lt_div_iff_of_pos_right (pow2_pos s)] at this
  have a'' : n < m + 1 := by exact_mod_cast a'
  have b'' : m < n + 1 := by exact_mod_cast b'
  omega

/-- one step of the reduction -/
theorem step (s p : ℕ) (x : ℚ) (hx : 1 ≤ x) :
    ∃ n : ℕ, IsIndex s x n ∧ dn s x = 1 + (n : ℚ) / 2 ^ s ∧ IsInverse s p n (up p (1 / dn s x)) ∧ 0 < up p (1 / dn s x) ∧
      1 ≤ x * up p (1 / dn s x) ∧ x * up p (1 / dn s x) - 1 < 1 / 2 ^ s + x / 2 ^ p := by
  have hf : (2 : ℤ) ^ s ≤ ⌊x * 2 ^ s⌋ := by
    apply Int.le_floor.2
    push_cast
    have := mul_le_mul_of_nonneg_right hx (pow2_pos s).le
    linarith
  obtain ⟨n, hn⟩ := Int.eq_ofNat_of_zero_le (sub_nonneg.2 hf)
  have e : dn s x = 1 + (n : ℚ) / 2 ^ s := by
    unfold dn
    have : ⌊x * 2 ^ s⌋ = 2 ^ s + (n : ℤ) := by linarith
    rw [this]; push_cast
    rw [add_div, div_self (pow2_pos s).ne']
  have h1 : 1 ≤ dn s x := by
    rw [e]
    have : (0 : ℚ) ≤ (n : ℚ) / 2 ^ s := by positivity
    linarith
  have h0 : 0 < dn s x := by linarith
  have hi : 1 / dn s x ≤ up p (1 / dn s x) := le_up _ _
  have hi' : up p (1 / dn s x) < 1 / dn s x + 1 / 2 ^ p := up_lt _ _
  have hl := dn_le s x
  have hu := lt_dn s x
  have hp : 0 < up p (1 / dn s x) := lt_of_lt_of_le (by positivity) hi
  have hq := pow2_pos p
  have hs := pow2_pos s
  refine ⟨n, ⟨e ▸ hl, ?_⟩, e, ⟨up_onGrid _ _, ?_, ?_⟩, hp, ?_, ?_⟩
  · rw [e] at hu
    rw [add_div]
    linarith
  · rw [← e]
    exact (div_le_iff₀ h0).1 hi
  · intro k hk hk1
    rw [← e] at hk1
    exact up_le_grid _ _ _ hk ((div_le_iff₀ h0).2 hk1)
  · have := mul_le_mul hl hi (by positivity) (by linarith)
    rwa [mul_one_div_cancel h0.ne'] at this
  · have a : x * up p (1 / dn s x) < x * (1 / dn s x + 1 / 2 ^ p) := mul_lt_mul_of_pos_left hi' (by linarith)
    have b : x * (1 / dn s x) < 1 + 1 / 2 ^ s := by
      rw [mul_one_div, div_lt_iff₀ h0]
      have : (1 : ℚ) / 2 ^ s * 1 ≤ 1 / 2 ^ s * dn s x := mul_le_mul_of_nonneg_left h1 (by positivity)
      linarith
    have c : x * (1 / 2 ^ p) = x / 2 ^ p := by rw [mul_one_div]
    rw [mul_add, c] at a
    linarith

/-- **C131.** For every size and precision of the two tables and every significand: the indices are the leading bits, the factors the rounded up
inverses, nothing is lost on the way, the logarithm is the sum of three, and the reduced argument stays positive and below its bound. -/
theorem C131_reduction (s1 p1 s2 p2 : ℕ) (dx : ℚ) (h0 : 0 ≤ dx) (h1 : dx < 1) (hg : OnGrid 52 dx) :
    ∃ n m : ℕ, (reduce s1 p1 s2 p2 dx).s = n ∧ IsIndex s1 (1 + dx) n ∧ n < 2 ^ s1 ∧
      IsInverse s1 p1 n (reduce s1 p1 s2 p2 dx).invX ∧
      (reduce s1 p1 s2 p2 dx).t = m ∧ IsIndex s2 ((1 + dx) * (reduce s1 p1 s2 p2 dx).invX) m ∧
      IsInverse s2 p2 m (reduce s1 p1 s2 p2 dx).invY ∧
      (reduce s1 p1 s2 p2 dx).dy = (1 + dx) * (reduce s1 p1 s2 p2 dx).invX - 1 ∧
      (reduce s1 p1 s2 p2 dx).dz = (1 + dx) * (reduce s1 p1 s2 p2 dx).invX * (reduce s1 p1 s2 p2 dx).invY - 1 ∧
      LogSplit (1 + dx) (reduce s1 p1 s2 p2 dx).invX (reduce s1 p1 s2 p2 dx).invY (1 + (reduce s1 p1 s2 p2 dx).dz) ∧
      OnGrid (52 + p1) (reduce s1 p1 s2 p2 dx).dy ∧ OnGrid (52 + p1 + p2) (reduce s1 p1 s2 p2 dx).dz ∧
      0 ≤ (reduce s1 p1 s2 p2 dx).dy ∧ (reduce s1 p1 s2 p2 dx).dy < 1 / 2 ^ s1 + 2 / 2 ^ p1 ∧
      0 ≤ (reduce s1 p1 s2 p2 dx).dz ∧
      (reduce s1 p1 s2 p2 dx).dz < 1 / 2 ^ s2 + (1 + (reduce s1 p1 s2 p2 dx).dy) / 2 ^ p2 := by
  have hx : (1 : ℚ) ≤ dx + 1 := by linarith
  obtain ⟨n, n1, n2, n3, n4, n5, n6⟩ := step s1 p1 (dx + 1) hx
  obtain ⟨m, m1, m2, m3, m4, m5, m6⟩ := step s2 p2 ((dx + 1) * up p1 (1 / dn s1 (dx + 1))) n5
  have hc : 1 + dx = dx + 1 := add_comm _ _
  have ei : (reduce s1 p1 s2 p2 dx).invX = up p1 (1 / dn s1 (dx + 1)) := rfl
  have ej : (reduce s1 p1 s2 p2 dx).invY = up p2 (1 / dn s2 ((dx + 1) * up p1 (1 / dn s1 (dx + 1)))) := rfl
  have ey : (reduce s1 p1 s2 p2 dx).dy = (dx + 1) * up p1 (1 / dn s1 (dx + 1)) - 1 := rfl
  have ez : (reduce s1 p1 s2 p2 dx).dz =
      (dx + 1) * up p1 (1 / dn s1 (dx + 1)) * up p2 (1 / dn s2 ((dx + 1) * up p1 (1 / dn s1 (dx + 1)))) - 1 := rfl
  have es : (reduce s1 p1 s2 p2 dx).s = (dn s1 (dx + 1) - 1) * 2 ^ s1 := rfl
  have et : (reduce s1 p1 s2 p2 dx).t = (dn s2 ((dx + 1) * up p1 (1 / dn s1 (dx + 1))) - 1) * 2 ^ s2 := rfl
  have hgx : OnGrid 52 (dx + 1) := hg.add (one_onGrid _)
  have hgy := hgx.mul (up_onGrid p1 (1 / dn s1 (dx + 1)))
  have hgz := hgy.mul (up_onGrid p2 (1 / dn s2 ((dx + 1) * up p1 (1 / dn s1 (dx + 1)))))
  rw [ei, ej, ey, ez, es, et, hc]
  generalize up p2 (1 / dn s2 ((dx + 1) * up p1 (1 / dn s1 (dx + 1)))) = j at *
  generalize up p1 (1 / dn s1 (dx + 1)) = i at *
  refine ⟨n, m, ?_, n1, ?_, n3, ?_, m1, m3, rfl, rfl, ?_, hgy.sub (one_onGrid _), hgz.sub (one_onGrid _), by linarith, ?_, by linarith, ?_⟩
  · rw [n2, add_sub_cancel_left, div_mul_cancel₀ _ (pow2_pos s1).ne']
  · have : 1 + (n : ℚ) / 2 ^ s1 < 2 := lt_of_le_of_lt n1.1 (by linarith)
    have : (n : ℚ) / 2 ^ s1 < 1 := by linarith
    rw [div_lt_one (pow2_pos s1)] at this
    exact_mod_cast this
  · rw [m2, add_sub_cancel_left, div_mul_cancel₀ _ (pow2_pos s2).ne']
  · unfold LogSplit
    have x0 : ((dx + 1 : ℚ) : ℝ) ≠ 0 := by
      have : (dx + 1 : ℚ) ≠ 0 := by linarith
      exact_mod_cast this
    have i0 : (i : ℝ) ≠ 0 := by exact_mod_cast n4.ne'
    have j0 : (j : ℝ) ≠ 0 := by exact_mod_cast m4.ne'
    have e : ((1 + ((dx + 1) * i * j - 1) : ℚ) : ℝ) = ((dx + 1 : ℚ) : ℝ) * i * j := by push_cast; ring
    rw [e, Real.log_mul (mul_ne_zero x0 i0) j0, Real.log_mul x0 i0]
    ring
  · refine lt_of_lt_of_le n6 ?_
    have : (dx + 1) / 2 ^ p1 ≤ 2 / 2 ^ p1 := div_le_div_of_nonneg_right (by linarith) (pow2_pos p1).le
    linarith
  · have e : 1 + ((dx + 1) * i - 1) = (dx + 1) * i := by ring
    rw [e]
    exact m6

example : ∃ dx : ℚ, 0 ≤ dx ∧ dx < 1 ∧ OnGrid 52 dx ∧ 0 < dx := ⟨1 / 2, by norm_num, by norm_num, ⟨2 ^ 51, by norm_num⟩, by norm_num⟩

/-- **C131.** The table lengths taken from any true upper bound of the indices leave no index outside. -/
theorem C131_table_length (hi q : ℚ) (n : ℕ) (hq : q = n) (h : q ≤ hi) : (n : ℤ) < tableLength hi := by
  unfold tableLength
  have : (n : ℤ) ≤ ⌊hi⌋ := Int.le_floor.2 (by subst hq; exact_mod_cast h)
  omega

example : (66 : ℤ) < tableLength (133 / 2) := C131_table_length (133 / 2) 66 66 (by norm_num) (by norm_num)

/-- **C131.** The single step evaluated with any input interval: reduced argument and index for every argument up to the given end. -/
theorem C131_one_step (sup dx : ℚ) (s p : ℕ) (h0 : 0 ≤ dx) (h1 : dx ≤ sup) :
    ∃ (n : ℕ) (i : ℚ), IsIndex s (1 + dx) n ∧ IsInverse s p n i ∧ (reduceOne sup s p dx).1 = (1 + dx) * i - 1 ∧
      (n : ℤ) < (reduceOne sup s p dx).2 ∧ 0 ≤ (reduceOne sup s p dx).1 ∧ (reduceOne sup s p dx).1 < 1 / 2 ^ s + (1 + sup) / 2 ^ p := by
  have hx : (1 : ℚ) ≤ dx + 1 := by linarith
  obtain ⟨n, n1, n2, n3, n4, n5, n6⟩ := step s p (dx + 1) hx
  have hc : 1 + dx = dx + 1 := add_comm _ _
  have e1 : (reduceOne sup s p dx).1 = (dx + 1) * up p (1 / dn s (dx + 1)) - 1 := rfl
  have e2 : (reduceOne sup s p dx).2 = 1 + ⌊sup * 2 ^ s⌋ := rfl
  rw [e1, e2, hc]
  refine ⟨n, _, n1, n3, rfl, ?_, by linarith, ?_⟩
  · have : (n : ℤ) ≤ ⌊sup * 2 ^ s⌋ := by
      apply Int.le_floor.2
      have a : (n : ℚ) / 2 ^ s ≤ sup := by linarith [n1.1]
      rw [div_le_iff₀ (pow2_pos s)] at a
      exact_mod_cast a
    omega
  · refine lt_of_lt_of_le n6 ?_
    have : (dx + 1) / 2 ^ p ≤ (1 + sup) / 2 ^ p := div_le_div_of_nonneg_right (by linarith) (pow2_pos p).le
    linarith

example : ∃ sup dx : ℚ, 0 ≤ dx ∧ dx ≤ sup := ⟨1 / 4, 1 / 8, by norm_num, by norm_num⟩

/-- the inverses of the first table, in units of the last place -/
theorem first_table (n : ℕ) (hn : n < 64) :
    65536 ≤ (65536 + 63 + n) / (64 + n) * (64 + n) ∧ (65 + n) * ((65536 + 63 + n) / (64 + n)) ≤ 65536 + 1072 := by
  revert n
  decide

/-- **C131.** With the parameters the generator uses: 64 and 67 entries are enough, the tables fit the memory limit, and the reduced argument is
a number of 64 bits. -/
theorem C131_parameters (dx : ℚ) (h0 : 0 ≤ dx) (h1 : dx < 1) (hg : OnGrid 52 dx) :
    params = (6, 10, 12, 13) ∧ (reduce 6 10 12 13 dx).s ≤ 63 ∧ (reduce 6 10 12 13 dx).t ≤ 66 ∧
      (reduce 6 10 12 13 dx).dz < 1 / 2 ^ 11 ∧
      (∃ k : ℕ, k < 2 ^ 64 ∧ (reduce 6 10 12 13 dx).dz = k / 2 ^ (52 + 10 + 13)) ∧
      ∃ a b, sizeofTable (tableLength 63) 10 = some a ∧ sizeofTable (tableLength 66) 13 = some b ∧ a + b ≤ memoryLimit := by
  obtain ⟨n, m, a1, a2, a3, a4, a5, a6, a7, a8, a9, -, -, b3, b4, b5, b6, b7⟩ := C131_reduction 6 10 12 13 dx h0 h1 hg
  generalize reduce 6 10 12 13 dx = r at *
  have hn : n < 64 := by simpa using a3
  obtain ⟨c1, c2⟩ := first_table n hn
  obtain ⟨K, hK⟩ : ∃ K, K = (65536 + 63 + n) / (64 + n) := ⟨_, rfl⟩
  rw [← hK] at c1 c2
  have hi : r.invX ≤ (K : ℚ) / 1024 := by
    refine a4.2.2 _ ⟨K, by norm_num⟩ ?_
    have : (65536 : ℚ) ≤ K * (64 + n) := by exact_mod_cast c1
    linarith
  have hy : (1 + dx) * r.invX < 1 + 67 / 4096 := by
    have p0 : (0 : ℚ) ≤ r.invX := by
      by_contra hneg
      have := a4.2.1
      have : r.invX * (1 + (n : ℚ) / 2 ^ 6) ≤ 0 := mul_nonpos_of_nonpos_of_nonneg (by linarith) (by positivity)
      linarith
    have hx : 1 + dx < 1 + ((n : ℚ) + 1) / 2 ^ 6 := a2.2
    have ppos : 0 < r.invX := by
      rcases p0.lt_or_eq with h | h
      · exact h
      · have := a4.2.1
        rw [← h] at this
        norm_num at this
    have s1 : (1 + dx) * r.invX < (1 + ((n : ℚ) + 1) / 2 ^ 6) * r.invX := mul_lt_mul_of_pos_right hx ppos
    have s2 : (1 + ((n : ℚ) + 1) / 2 ^ 6) * r.invX ≤ (1 + ((n : ℚ) + 1) / 2 ^ 6) * (K / 1024) :=
      mul_le_mul_of_nonneg_left hi (by positivity)
    have s3 : ((65 + n) * K : ℚ) ≤ 65536 + 1072 := by exact_mod_cast c2
    linarith
  have ht : (m : ℚ) ≤ 66 := by
    have := a6.1
    have : (m : ℚ) < 67 := by
      have e : (m : ℚ) / 2 ^ 12 < 67 / 4096 := by linarith
      rw [div_lt_iff₀ (by positivity)] at e
      linarith
    have : m < 67 := by exact_mod_cast this
    have : m ≤ 66 := by omega
    exact_mod_cast this
  have hz : r.dz < 1 / 2 ^ 11 := by
    have : r.dy < 67 / 4096 := by linarith
    norm_num at b7 ⊢
    linarith
  refine ⟨rfl, ?_, ?_, hz, ?_, ?_⟩
  · rw [a1]
    have : n ≤ 63 := by omega
    exact_mod_cast this
  · rw [a5]; exact ht
  · obtain ⟨k, hk⟩ := b3
    have k0 : 0 ≤ k := by
      rw [hk] at b6
      have : (0 : ℚ) ≤ k := by
        by_contra hneg
        have : (k : ℚ) / 2 ^ (52 + 10 + 13) < 0 := div_neg_of_neg_of_pos (by linarith) (by positivity)
        linarith
      exact_mod_cast this
    obtain ⟨k', rfl⟩ := Int.eq_ofNat_of_zero_le k0
    refine ⟨k', ?_, by rw [hk]; norm_num⟩
    rw [hk, div_lt_div_iff₀ (by positivity) (by positivity)] at hz
    norm_num at hz
    have : k' * 2048 < 37778931862957161709568 := by exact_mod_cast hz
    omega
  · have e1 : tableLength 63 = 64 := by unfold tableLength; norm_num
    have e2 : tableLength 66 = 67 := by unfold tableLength; norm_num
    have f1 : Fixed.cBitSize 1 10 = some 16 := by decide
    have f2 : Fixed.cBitSize 1 13 = some 16 := by decide
    refine ⟨64 * 18, 67 * 18, ?_, ?_, ?_⟩
    · rw [e1]; unfold sizeofTable; rw [show ((10 : ℕ) : ℤ) = 10 from rfl, f1]; norm_num
    · rw [e2]; unfold sizeofTable; rw [show ((13 : ℕ) : ℤ) = 13 from rfl, f2]; norm_num
    · unfold memoryLimit; norm_num

/-- the last entry of the second table is needed -/
example : (reduce 6 10 12 13 (1 / 64 + 1 / 64 - 1 / 2 ^ 52)).t = 66 := by
  norm_num [reduce, dn, up]

theorem keep_eq (int : ℤ) (frac : ℕ) (v w : ℚ) (a : ℤ) (hg : OnGrid frac v) (e : v = 2 ^ int * a + w) (h0 : 0 ≤ w) (h1 : w < 2 ^ int) :
    keep int frac v = w := by
  unfold keep
  have hp : (0 : ℚ) < 2 ^ int := zpow_pos (by norm_num) _
  have : ⌊v / 2 ^ int⌋ = a := by
    rw [Int.floor_eq_iff]
    constructor
    · rw [le_div_iff₀ hp, e]; linarith
    · rw [div_lt_iff₀ hp, e]; linarith
  simp only [dn_grid _ _ hg]
  rw [this, e]
  ring

/-- **C131.** When the tables hold the inverses, the datapath of the generated code computes the reduced argument without any error, although
the leading one is dropped twice and `dz` is cut to 64 bits. Needs `prec1 ≤ prec2`. -/
theorem C131_datapath_partial (s1 p1 s2 p2 L : ℕ) (T1 T2 : ℕ → Option ℚ) (dx : ℚ) (h0 : 0 ≤ dx) (h1 : dx < 1) (hg : OnGrid 52 dx)
    (hp : p1 ≤ p2) (hpp : 12 ≤ p1 + p2)
    (hT1 : ∀ n < 2 ^ s1, ∃ i, T1 n = some i ∧ IsInverse s1 p1 n i)
    (hT2 : ∀ m < L, ∃ j, T2 m = some j ∧ IsInverse s2 p2 m j)
    (hL : (reduce s1 p1 s2 p2 dx).t < L) (hdy : (reduce s1 p1 s2 p2 dx).dy < 1)
    (hdz : (reduce s1 p1 s2 p2 dx).dz < (2 : ℚ) ^ ((64 : ℤ) - 52 - p1 - p2)) :
    datapath s1 p1 s2 p2 T1 T2 dx = some (reduce s1 p1 s2 p2 dx).dz := by
  obtain ⟨n, m, a1, a2, a3, a4, a5, a6, a7, a8, a9, -, b2, b3, b4, b5, b6, b7⟩ := C131_reduction s1 p1 s2 p2 dx h0 h1 hg
  generalize reduce s1 p1 s2 p2 dx = r at *
  obtain ⟨i, t1, i1⟩ := hT1 n a3
  have : m < L := by
    rw [a5] at hL
    exact_mod_cast hL
  obtain ⟨j, t2, j1⟩ := hT2 m this
  obtain rfl := i1.unique a4
  obtain rfl := j1.unique a7
  have fl : ∀ (s : ℕ) (d : ℚ) (k : ℕ), IsIndex s (1 + d) k → ⌊d * 2 ^ s⌋.toNat = k := by
    intro s d k hk
    have : ⌊d * 2 ^ s⌋ = (k : ℤ) := by
      rw [Int.floor_eq_iff]
      constructor
      · have := (add_le_add_iff_left 1).1 hk.1
        rw [div_le_iff₀ (pow2_pos s)] at this
        exact_mod_cast this
      · have := (add_lt_add_iff_left 1).1 hk.2
        rw [lt_div_iff₀ (pow2_pos s)] at this
        exact_mod_cast this
    rw [this]; rfl
  have e1 : ⌊dx * 2 ^ s1⌋.toNat = n := fl _ _ _ a2
  have k1 : keep 1 52 (dx + 1) = dx + 1 :=
    keep_eq 1 52 _ _ 0 (hg.add (one_onGrid _)) (by simp) (by linarith) (by norm_num; linarith)
  have hc : dx + 1 = 1 + dx := add_comm _ _
  have gy : OnGrid (52 + p1) ((dx + 1) * r.invX) := (hg.add (one_onGrid _)).mul a4.1
  have k2 : keep 0 (52 + p1) ((dx + 1) * r.invX) = r.dy :=
    keep_eq 0 _ _ _ 1 gy (by rw [a8, hc]; simp) b4 (by simpa using hdy)
  have ey : (1 + dx) * r.invX = 1 + r.dy := by rw [a8]; ring
  have e2 : ⌊r.dy * 2 ^ s2⌋.toNat = m := fl _ _ _ (ey ▸ a6)
  have gd : OnGrid (52 + p2) (r.dy + 1) := (b2.mono (by omega)).add (one_onGrid _)
  have k3 : keep 1 (52 + p2) (r.dy + 1) = r.dy + 1 :=
    keep_eq 1 _ _ _ 0 gd (by simp) (by linarith) (by norm_num; linarith)
  have ez : (r.dy + 1) * r.invY = 1 + r.dz := by rw [a9, ey]; ring
  have k4 : keep (64 - 52 - p1 - p2) (52 + p1 + p2) ((r.dy + 1) * r.invY) = r.dz := by
    refine keep_eq _ _ _ _ (2 ^ (p1 + p2 - 12)) (by rw [ez]; exact (one_onGrid _).add b3) ?_ b6 hdz
    rw [ez]
    have : (2 : ℚ) ^ ((64 : ℤ) - 52 - p1 - p2) * ((2 ^ (p1 + p2 - 12) : ℤ) : ℚ) = 1 := by
      push_cast
      rw [← zpow_natCast, ← zpow_add₀ (by norm_num)]
      have : (12 : ℤ) - p1 - p2 + ((p1 + p2 - 12 : ℕ) : ℤ) = 0 := by omega
      norm_num [this]
    rw [this]
  unfold datapath
  simp only [e1, t1, k1, k2, e2, t2, k3, k4]

/-- **C131.** The same for the parameters the generator uses, for every significand. -/
theorem C131_datapath_parameters (T1 T2 : ℕ → Option ℚ) (dx : ℚ) (h0 : 0 ≤ dx) (h1 : dx < 1) (hg : OnGrid 52 dx)
    (hT1 : ∀ n < 64, ∃ i, T1 n = some i ∧ IsInverse 6 10 n i) (hT2 : ∀ m < 67, ∃ j, T2 m = some j ∧ IsInverse 12 13 m j) :
    datapath 6 10 12 13 T1 T2 dx = some (reduce 6 10 12 13 dx).dz := by
  obtain ⟨-, -, a3, a4, -⟩ := C131_parameters dx h0 h1 hg
  obtain ⟨n, m, -, -, -, -, -, -, -, -, -, -, -, -, b4, b5, -, -⟩ := C131_reduction 6 10 12 13 dx h0 h1 hg
  refine C131_datapath_partial 6 10 12 13 67 T1 T2 dx h0 h1 hg (by omega) (by omega) (by simpa using hT1) hT2 ?_ ?_ ?_
  · exact lt_of_le_of_lt a3 (by norm_num)
  · refine lt_trans b5 (by norm_num)
  · refine lt_of_lt_of_le a4 (by norm_num [zpow_neg])

/-- tables that hold the inverses exist -/
theorem exists_inverse (s p n : ℕ) : IsInverse s p n (up p (1 / (1 + (n : ℚ) / 2 ^ s))) := by
  obtain ⟨k, k1, k2, k3, -⟩ := step s p (1 + (n : ℚ) / 2 ^ s) (by linarith [show (0 : ℚ) ≤ (n : ℚ) / 2 ^ s by positivity])
  have hn : IsIndex s (1 + (n : ℚ) / 2 ^ s) n := by
    refine ⟨le_refl _, ?_⟩
    have := (div_lt_div_iff_of_pos_right (pow2_pos s)).2 (show (n : ℚ) < n + 1 by linarith)
    linarith
  obtain rfl := k1.unique hn
  rwa [k2] at k3

example : ∃ T1 T2 : ℕ → Option ℚ, (∀ n < 64, ∃ i, T1 n = some i ∧ IsInverse 6 10 n i) ∧ (∀ m < 67, ∃ j, T2 m = some j ∧ IsInverse 12 13 m j) :=
  ⟨fun n => some (up 10 (1 / (1 + (n : ℚ) / 2 ^ 6))), fun n => some (up 13 (1 / (1 + (n : ℚ) / 2 ^ 12))),
    fun n _ => ⟨_, rfl, exists_inverse _ _ _⟩, fun n _ => ⟨_, rfl, exists_inverse _ _ _⟩⟩

/-- **C131, a disagreement.** When the second inverses have fewer bits than the first ones, `y` is cut on the way although the comment says that
nothing is lost: the format of `v_y` has `prec2` instead of `prec1`. -/
theorem C131_cut_wrong : ∃ (s1 p1 s2 p2 : ℕ) (T1 T2 : ℕ → Option ℚ) (dx : ℚ), 0 ≤ dx ∧ dx < 1 ∧ OnGrid 52 dx ∧
    (∀ n, ∃ i, T1 n = some i ∧ IsInverse s1 p1 n i) ∧ (∀ m, ∃ j, T2 m = some j ∧ IsInverse s2 p2 m j) ∧
    (reduce s1 p1 s2 p2 dx).dz < (2 : ℚ) ^ ((64 : ℤ) - 52 - p1 - p2) ∧
    datapath s1 p1 s2 p2 T1 T2 dx ≠ some (reduce s1 p1 s2 p2 dx).dz := by
  refine ⟨1, 12, 1, 0, fun n => some (up 12 (1 / (1 + (n : ℚ) / 2 ^ 1))), fun n => some (up 0 (1 / (1 + (n : ℚ) / 2 ^ 1))),
    1 / 2 + 1 / 2 ^ 52, by norm_num, by norm_num, ⟨2 ^ 51 + 1, by norm_num⟩, fun n => ⟨_, rfl, exists_inverse _ _ _⟩,
    fun n => ⟨_, rfl, exists_inverse _ _ _⟩, ?_, ?_⟩
  · norm_num [reduce, dn, up]
  · norm_num [reduce, datapath, keep, dn, up]

theorem inverse_le_one {s p n : ℕ} {i : ℚ} (h : IsInverse s p n i) : i ≤ 1 :=
  h.2.2 1 (one_onGrid _) (by linarith [show (0 : ℚ) ≤ (n : ℚ) / 2 ^ s by positivity])

theorem entry_big (p : ℕ) (hp : 1 ≤ p) (x : ℚ) (hx : 0 < x) : (1 : ℚ) < ⌈(2 : ℚ) ^ p / x⌉ * 2 ^ p := by
  have a : (1 : ℤ) ≤ ⌈(2 : ℚ) ^ p / x⌉ := Int.one_le_ceil_iff.2 (by positivity)
  have a' : (1 : ℚ) ≤ ⌈(2 : ℚ) ^ p / x⌉ := by exact_mod_cast a
  have b : (2 : ℚ) ^ 1 ≤ 2 ^ p := pow_le_pow_right₀ (by norm_num) hp
  nlinarith

/-- **C131, a disagreement.** None of the entries the generator writes into the two tables is the inverse it stands for, whatever the sizes, and
the last entry of each is left unset; the entries of the second do not even depend on the index. -/
theorem C131_tables_wrong (l1 s1 p1 l2 s2 p2 : ℕ) (h1 : 1 ≤ p1) (h2 : 1 ≤ p2) :
    (∀ i v, invTable1 l1 s1 p1 i = some v → ¬ IsInverse s1 p1 i v) ∧
      (∀ i v, invTable2 l1 s1 l2 p2 i = some v → ¬ IsInverse s2 p2 i v) ∧
      invTable1 l1 s1 p1 (l1 - 1) = none ∧ invTable2 l1 s1 l2 p2 (l2 - 1) = none ∧
      (∀ i j, i < l2 - 1 → j < l2 - 1 → invTable2 l1 s1 l2 p2 i = invTable2 l1 s1 l2 p2 j) := by
  refine ⟨?_, ?_, ?_, ?_, ?_⟩
  · intro i v h hi
    unfold invTable1 at h
    split at h
    · have := Option.some.inj h
      subst this
      have := inverse_le_one hi
      have := entry_big p1 h1 (1 + (i : ℚ) / 2 * s1) (by positivity)
      linarith
    · cases h
  · intro i v h hi
    unfold invTable2 lastX1 at h
    split at h
    · split at h
      · cases h
      · rename_i x hx
        split at hx
        · cases hx
        · have hx' := Option.some.inj hx
          have := Option.some.inj h
          subst this
          have := inverse_le_one hi
          have := entry_big p2 h2 x (by rw [← hx']; positivity)
          linarith
    · cases h
  · unfold invTable1; rw [if_neg (by omega)]
  · unfold invTable2; rw [if_neg (by omega)]
  · intro i j hi hj
    unfold invTable2
    rw [if_pos hi, if_pos hj]

example : invTable1 64 6 10 1 = some (256 * 1024) ∧ invTable2 64 6 67 13 5 = some (44 * 8192) := by
  constructor <;> norm_num [invTable1, invTable2, lastX1]

/-- **C131, a disagreement.** The exponent of the argument is not used: whatever the tables and the polynomial, every significand for which a
value is returned has an argument in the format whose result is more than 700 away from the logarithm. -/
theorem C131_exponent_wrong (s1 p1 s2 p2 : ℕ) (T1 T2 : ℕ → Option ℚ) (P : ℚ → ℚ) (dx r : ℚ) (h0 : 0 ≤ dx)
    (e0 : ℤ) (h : logFixed s1 p1 s2 p2 T1 T2 P (.normal e0 dx) = .value r) :
    ∃ e : ℤ, -1022 ≤ e ∧ e ≤ 1023 ∧ logFixed s1 p1 s2 p2 T1 T2 P (.normal e dx) = .value r ∧ 700 < logError e (1 + dx) r := by
  have same : ∀ e : ℤ, logFixed s1 p1 s2 p2 T1 T2 P (.normal e dx) = .value r := fun e => h
  have hx : (0 : ℝ) < ((1 + dx : ℚ) : ℝ) := by
    have : (0 : ℚ) < 1 + dx := by linarith
    exact_mod_cast this
  have hl : ∀ e : ℤ, Real.log ((2 : ℝ) ^ e * ((1 + dx : ℚ) : ℝ)) = e * Real.log 2 + Real.log ((1 + dx : ℚ) : ℝ) := by
    intro e
    rw [Real.log_mul (zpow_pos (by norm_num) _).ne' hx.ne', Real.log_zpow]
  have h2 := Real.log_two_gt_d9
  by_contra hcon
  have small : ∀ e : ℤ, -1022 ≤ e → e ≤ 1023 → logError e (1 + dx) r ≤ 700 := by
    intro e a b
    by_contra hbig
    exact hcon ⟨e, a, b, same e, lt_of_not_ge hbig⟩
  have A := small (-1022) (by omega) (by omega)
  have B := small 1023 (by omega) (by omega)
  unfold logError at A B
  rw [hl] at A B
  have A' := (abs_le.1 A).2
  have B' := (abs_le.1 B).1
  push_cast at A' B'
  linarith

example : logFixed 6 10 12 13 (fun n => some (up 10 (1 / (1 + (n : ℚ) / 2 ^ 6)))) (fun n => some (up 13 (1 / (1 + (n : ℚ) / 2 ^ 12))))
    (fun d => d) (.normal 3 0) = .value 0 := by
  norm_num [logFixed, datapath, keep, dn, up]

/-- **C131.** Special arguments: NaNs are treated as the standard asks; for every other one (zero, infinities, negative and subnormal numbers) the
function ends without returning a value. The full statement (values and flags of IEEE-754 clause 9.2) fails for these. -/
theorem C131_special_partial (s1 p1 s2 p2 : ℕ) (T1 T2 : ℕ → Option ℚ) (P : ℚ → ℚ) :
    logFixed s1 p1 s2 p2 T1 T2 P .qNaN = .nan false ∧ logFixed s1 p1 s2 p2 T1 T2 P .sNaN = .nan true ∧
      ∀ a ∈ [Input.zero, .plusInf, .minusInf, .negative, .subnormal], logFixed s1 p1 s2 p2 T1 T2 P a = .nothing := by
  refine ⟨rfl, rfl, ?_⟩
  intro a ha
  simp only [List.mem_cons, List.not_mem_nil, or_false] at ha
  rcases ha with rfl | rfl | rfl | rfl | rfl <;> rfl

end Verif.LogFx
