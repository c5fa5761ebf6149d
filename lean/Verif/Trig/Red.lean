import Verif.Trig.Lemmas

/-! # The chunks of the constant, the parts of the argument and an iteration of the loop -/

namespace Verif.Trig

open Verif.Float (Fmt Val)
open Verif.Check
open Verif.Elem
open Verif.Rem (truncQ rr up up_grid up_lt)

theorem cs_eq : chunkSize = 24 := by decide
theorem hs_eq : halfSize = 27 := by decide
theorem p_eq : p = 52 := by decide

theorem trunc_abs (v : ℚ) : |(truncQ v : ℚ)| ≤ |v| := by
  unfold truncQ
  split_ifs with h
  · have h1 : (⌈v⌉ : ℚ) ≤ 0 := by exact_mod_cast Int.ceil_le.2 (by push_cast; exact h.le)
    rw [abs_of_nonpos h1, abs_of_neg h]
    have := Int.le_ceil v; linarith
  · have h0 : 0 ≤ v := not_lt.1 h
    have h1 : (0 : ℚ) ≤ ⌊v⌋ := by exact_mod_cast Int.floor_nonneg.2 h0
    rw [abs_of_nonneg h1, abs_of_nonneg h0]
    exact Int.floor_le v

theorem trunc_rest (v : ℚ) : |v - truncQ v| < 1 ∧ |v - truncQ v| ≤ |v| := by
  unfold truncQ
  split_ifs with h
  · have h1 : (⌈v⌉ : ℚ) ≤ 0 := by exact_mod_cast Int.ceil_le.2 (by push_cast; exact h.le)
    have h2 := Int.le_ceil v
    have h3 := Int.ceil_lt_add_one v
    rw [abs_of_nonpos (by linarith : v - (⌈v⌉ : ℚ) ≤ 0), abs_of_neg h]
    constructor <;> linarith
  · have h0 : 0 ≤ v := not_lt.1 h
    have h1 : (0 : ℚ) ≤ ⌊v⌋ := by exact_mod_cast Int.floor_nonneg.2 h0
    have h2 := Int.floor_le v
    have h3 := Int.lt_floor_add_one v
    rw [abs_of_nonneg (by linarith : 0 ≤ v - (⌊v⌋ : ℚ)), abs_of_nonneg h0]
    constructor <;> linarith

/-- weight of the last bit of a chunk -/
def wt (c : ℚ) (i : ℕ) : ℤ := cstMsb c - 24 * (i + 1)

theorem local_eq {c t : ℚ} (ht : 0 ≤ t) (i : ℕ) : localCst c t i = ⌊t / (2 : ℚ) ^ wt c i⌋ * (2 : ℚ) ^ wt c i := by
  unfold localCst
  have e : chunkSize * ((i : ℤ) + 1) - cstMsb c = -wt c i := by rw [cs_eq]; unfold wt; ring
  rw [e, zpow_neg, div_inv_eq_mul, ← div_eq_mul_inv]
  unfold truncQ
  rw [if_neg (not_lt.2 (div_nonneg ht (Float.zp _).le))]

theorem local_cut {c t : ℚ} (ht : 0 ≤ t) (i : ℕ) : 0 ≤ t - localCst c t i ∧ t - localCst c t i < (2 : ℚ) ^ wt c i := by
  rw [local_eq ht]
  have hp := Float.zp (wt c i)
  have h1 := Int.floor_le (t / (2 : ℚ) ^ wt c i)
  have h2 := Int.lt_floor_add_one (t / (2 : ℚ) ^ wt c i)
  rw [le_div_iff₀ hp] at h1
  rw [div_lt_iff₀ hp] at h2
  constructor <;> linarith

theorem tmp_nonneg {c : ℚ} (hc : 0 < c) (i : ℕ) : 0 ≤ tmpCst c i := by
  induction i with
  | zero => exact hc.le
  | succ i ih => exact (local_cut ih i).1

theorem tmp_lt {c : ℚ} (hc : 0 < c) (i : ℕ) : tmpCst c (i + 1) < (2 : ℚ) ^ wt c i := (local_cut (tmp_nonneg hc i) i).2

/-- what has been extracted is a multiple of the weight of the last chunk -/
theorem tmp_mult {c : ℚ} (hc : 0 < c) (i : ℕ) : ∃ D : ℤ, c - tmpCst c (i + 1) = D * (2 : ℚ) ^ wt c i := by
  induction i with
  | zero =>
    refine ⟨⌊c / (2 : ℚ) ^ wt c 0⌋, ?_⟩
    have := local_eq (c := c) hc.le 0
    simp only [tmpCst]
    rw [this]; ring
  | succ i ih =>
    obtain ⟨D, hD⟩ := ih
    obtain ⟨D', hD'⟩ := grid_coarse D (show wt c (i + 1) ≤ wt c i by unfold wt; push_cast; omega)
    have := local_eq (c := c) (tmp_nonneg hc (i + 1)) (i + 1)
    refine ⟨D' + ⌊tmpCst c (i + 1) / (2 : ℚ) ^ wt c (i + 1)⌋, ?_⟩
    rw [show tmpCst c (i + 1 + 1) = tmpCst c (i + 1) - localCst c (tmpCst c (i + 1)) (i + 1) from rfl, this]
    push_cast
    linear_combination hD + hD'

theorem msb_bounds {c : ℚ} (hc : 0 < c) : (2 : ℚ) ^ cstMsb c ≤ c ∧ c < (2 : ℚ) ^ (cstMsb c + 1) := by
  have h1 := Float.pow_log_le (abs_pos.2 hc.ne')
  have h2 : |c| < (2 : ℚ) ^ (Int.log 2 |c| + 1) := Float.lt_pow_log
  rw [abs_of_pos hc] at h1 h2
  unfold cstMsb
  rw [abs_of_pos hc]
  exact ⟨h1, h2⟩

/-- the chunk of an index: at most 24 bits, 25 for the first -/
theorem chunk_bits {c : ℚ} (hc : 0 < c) (i : ℕ) : ∃ C : ℤ, localCst c (tmpCst c i) i = C * (2 : ℚ) ^ wt c i ∧ 0 ≤ C ∧ C < 2 ^ 25 ∧ (1 ≤ i → C < 2 ^ 24) := by
  have ht := tmp_nonneg hc i
  refine ⟨_, local_eq ht i, Int.floor_nonneg.2 (div_nonneg ht (Float.zp _).le), ?_, ?_⟩
  · rw [Int.floor_lt, div_lt_iff₀ (Float.zp _)]
    have : tmpCst c i < (2 : ℚ) ^ (cstMsb c - 24 * i + 1) := by
      cases i with
      | zero => simpa [tmpCst] using (msb_bounds hc).2
      | succ i =>
        refine lt_of_lt_of_le (tmp_lt hc i) (Float.zle ?_)
        unfold wt; push_cast; omega
    rw [show cstMsb c - 24 * (i : ℤ) + 1 = 25 + wt c i by unfold wt; ring, Float.zadd] at this
    push_cast
    exact_mod_cast this
  · intro hi
    rw [Int.floor_lt, div_lt_iff₀ (Float.zp _)]
    obtain ⟨j, rfl⟩ : ∃ j, i = j + 1 := ⟨i - 1, by omega⟩
    have := tmp_lt hc j
    rw [show wt c j = 24 + wt c (j + 1) by unfold wt; push_cast; ring, Float.zadd] at this
    push_cast
    exact_mod_cast this

/-- the domain: a finite argument of magnitude at least one, reads inside the tables -/
structure Ctx (c : ℚ) (n k : ℕ) (x : Val) : Prop where
  hx : Fin' b64 x
  h1 : 1 ≤ |numOf x|
  hc : 0 < c
  m0 : 0 ≤ cstMsb c
  m1 : cstMsb c ≤ 100
  hn : n ≤ 900
  hE : vxExp x + n ≤ 1093
  hk : k ≤ 60

variable {c : ℚ} {n k : ℕ} {x : Val}

theorem Ctx.exp_nonneg (h : Ctx c n k x) : 0 ≤ vxExp x := by
  unfold vxExp
  have : (0 : ℤ) = Int.log 2 (1 : ℚ) := by simp
  rw [this]
  exact Int.log_mono_right one_pos h.h1

theorem Ctx.x_ne (h : Ctx c n k x) : numOf x ≠ 0 := by
  intro h0; have := h.h1; rw [h0, abs_zero] at this; norm_num at this

theorem Ctx.x_int (h : Ctx c n k x) : ∃ X : ℤ, numOf x = X * (2 : ℚ) ^ (vxExp x - 52) ∧ |X| < 2 ^ 53 := by
  obtain ⟨hu, -⟩ := fin_unb h.hx
  obtain ⟨X, hX⟩ := up_grid hu h.x_ne
  have hlt := up_lt (F := b64) (Y := numOf x)
  have e : up b64 (numOf x) = vxExp x - 52 := by
    have := h.exp_nonneg
    unfold up
    rw [emin_eq, f_eq]
    unfold vxExp at *
    push_cast; omega
  rw [e] at hX hlt
  refine ⟨X, hX, ?_⟩
  rw [hX, abs_mul, abs_of_pos (Float.zp _), f_eq] at hlt
  have := lt_of_mul_lt_mul_right hlt (Float.zp _).le
  exact_mod_cast this

/-- the two parts of the argument -/
theorem Ctx.split (h : Ctx c n k x) : ∃ H L : ℤ, |H| < 2 ^ 26 ∧ |L| < 2 ^ 27 ∧ Fin' b64 (vxHi x) ∧ Fin' b64 (vxLo x) ∧
    numOf (vxHi x) = H * (2 : ℚ) ^ (vxExp x - 25) ∧ numOf (vxLo x) = L * (2 : ℚ) ^ (vxExp x - 52) ∧ numOf (vxHi x) + numOf (vxLo x) = numOf x ∧
    |numOf (vxHi x)| ≤ Float.omega b64 ∧ |numOf (vxLo x)| ≤ Float.omega b64 := by
  obtain ⟨X, hX, hX53⟩ := h.x_int
  obtain ⟨-, hom⟩ := fin_unb h.hx
  have hE := h.exp_nonneg
  set E := vxExp x with hEd
  have hp := Float.zp (E - 25)
  set v := numOf x / (2 : ℚ) ^ (E - 25) with hv
  have hxv : numOf x = v * (2 : ℚ) ^ (E - 25) := by rw [hv]; field_simp
  have hvX : v * 2 ^ 27 = X := by
    have e : (2 : ℚ) ^ (E - 25) = 2 ^ 27 * (2 : ℚ) ^ (E - 52) := by
      rw [show E - 25 = 27 + (E - 52) by ring, Float.zadd]; norm_cast
    have hq := Float.zp (E - 52)
    rw [hX, e] at hxv
    have : ((X : ℚ) - v * 2 ^ 27) * (2 : ℚ) ^ (E - 52) = 0 := by linear_combination hxv
    rcases mul_eq_zero.1 this with h0 | h0
    · linarith
    · exact absurd h0 hq.ne'
  have hX' : |(X : ℚ)| < 2 ^ 53 := by exact_mod_cast hX53
  have hvl : |v| < 2 ^ 26 := by
    have : |v| * 2 ^ 27 = |(X : ℚ)| := by rw [← hvX, abs_mul]; norm_num
    nlinarith
  have t1 := trunc_abs v
  obtain ⟨t2, t3⟩ := trunc_rest v
  set H := truncQ v with hH
  have hHl : |H| < 2 ^ 26 := by
    have : |(H : ℚ)| < 2 ^ 26 := lt_of_le_of_lt t1 hvl
    exact_mod_cast this
  have hhi : |(H : ℚ) * (2 : ℚ) ^ (E - 25)| ≤ Float.omega b64 := by
    refine le_trans ?_ hom
    rw [hxv, abs_mul, abs_mul]
    exact mul_le_mul_of_nonneg_right t1 (abs_nonneg _)
  obtain ⟨a1, a2⟩ := cst_exact (v := H * (2 : ℚ) ^ (E - 25)) (unb (by norm_num at hHl ⊢; omega) (by omega)) hhi
  have hdef : vxHi x = cst b64 ((H * (2 : ℚ) ^ (E - 25) : ℚ) : ℝ) := by
    unfold vxHi; rw [← hEd, p_eq, hs_eq, show E - 52 + 27 = E - 25 by ring]
  rw [← hdef] at a1 a2
  set L := X - H * 2 ^ 27 with hL
  have hLq : numOf x - numOf (vxHi x) = L * (2 : ℚ) ^ (E - 52) := by
    rw [a2, hL, hX, show E - 25 = 27 + (E - 52) by ring, Float.zadd]
    push_cast; ring
  have hLv : (L : ℚ) = (v - H) * 2 ^ 27 := by rw [hL]; push_cast; rw [← hvX]; ring
  have hLl : |L| < 2 ^ 27 := by
    have : |(L : ℚ)| < 2 ^ 27 := by rw [hLv, abs_mul]; norm_num; nlinarith [abs_nonneg (v - (H : ℚ))]
    exact_mod_cast this
  have hlo : |(L : ℚ) * (2 : ℚ) ^ (E - 52)| ≤ Float.omega b64 := by
    refine le_trans ?_ hom
    rw [← hLq, a2, hxv, ← sub_mul, abs_mul, abs_mul]
    exact mul_le_mul_of_nonneg_right t3 (abs_nonneg _)
  obtain ⟨b1, b2⟩ := sub_exact h.hx a1 hLq (unb (by norm_num at hLl ⊢; omega) (by omega)) hlo
  refine ⟨H, L, hHl, hLl, a1, b1, a2, b2, ?_, by rw [a2]; exact hhi, by unfold vxLo; rw [b2]; exact hlo⟩
  unfold vxLo
  rw [b2, ← hLq]; ring

theorem scale_eq (i : ℕ) : localScale i = (2 : ℚ) ^ (-(12 * (i : ℤ))) := by
  unfold localScale
  rw [cs_eq, ← zpow_natCast, ← zpow_mul]
  congr 1

theorem chunk_number (c : ℚ) : cstMsb c + 1098 ≤ 24 * chunkNumber c := by
  unfold chunkNumber
  have h := Int.le_ceil (((cstExpRange c + chunkSize - 1 : ℤ) : ℚ) / chunkSize)
  set N := ⌈((cstExpRange c + chunkSize - 1 : ℤ) : ℚ) / chunkSize⌉
  rw [cs_eq, div_le_iff₀ (by norm_num)] at h
  have h' : cstExpRange c + 24 - 1 ≤ N * 24 := by exact_mod_cast h
  unfold cstExpRange at h'
  rw [emin_eq, f_eq] at h'
  push_cast at h'
  omega

theorem Ctx.loads (h : Ctx c n k x) {i : ℕ} (hi : 24 * (i : ℤ) ≤ cstMsb c + vxExp x + n + 4) :
    ∃ cl sl, cstLoad c i = some cl ∧ scaLoad c i = some sl ∧ Fin' b64 cl ∧ Fin' b64 sl ∧
      numOf cl = localCst c (tmpCst c i) i * (2 : ℚ) ^ (24 * (i : ℤ)) ∧ numOf sl = (2 : ℚ) ^ (-(12 * (i : ℤ))) := by
  have hE := h.hE
  have hN := chunk_number c
  have hm0 := h.m0
  have hm1 := h.m1
  have hlt : (0 : ℤ) ≤ i ∧ (i : ℤ) < chunkNumber c := ⟨by omega, by omega⟩
  obtain ⟨C, hC, C0, C25, -⟩ := chunk_bits h.hc i
  have e1 : localCst c (tmpCst c i) i / localScale i ^ 2 = localCst c (tmpCst c i) i * (2 : ℚ) ^ (24 * (i : ℤ)) := by
    rw [scale_eq, div_eq_mul_inv]
    congr 1
    rw [← zpow_natCast, ← zpow_mul, ← zpow_neg]
    congr 1; push_cast; ring
  have e2 : localCst c (tmpCst c i) i * (2 : ℚ) ^ (24 * (i : ℤ)) = C * (2 : ℚ) ^ (cstMsb c - 24) := by
    rw [hC, mul_assoc, ← Float.zadd]
    congr 2; unfold wt; ring
  have hv : |(C : ℚ) * (2 : ℚ) ^ (cstMsb c - 24)| ≤ Float.omega b64 := by
    refine le_trans ?_ omega_big
    rw [abs_of_nonneg (mul_nonneg (by exact_mod_cast C0) (Float.zp _).le)]
    calc (C : ℚ) * (2 : ℚ) ^ (cstMsb c - 24) ≤ (2 : ℚ) ^ (25 : ℤ) * (2 : ℚ) ^ (cstMsb c - 24) :=
          mul_le_mul_of_nonneg_right (by exact_mod_cast C25.le) (Float.zp _).le
      _ = (2 : ℚ) ^ (25 + (cstMsb c - 24)) := (Float.zadd _ _).symm
      _ ≤ _ := Float.zle (by omega)
  obtain ⟨a1, a2⟩ := cst_exact (unb (m := C) (q := cstMsb c - 24) (by rw [abs_of_nonneg C0]; norm_num at C25 ⊢; omega) (by omega)) hv
  have hs : Unbounded b64 ((2 : ℚ) ^ (-(12 * (i : ℤ)))) := unb_pow (by rw [emin_eq, f_eq]; push_cast; omega)
  obtain ⟨b1, b2⟩ := cst_exact hs (by rw [abs_of_pos (Float.zp _)]; exact le_trans (Float.zle (by omega)) omega_big)
  refine ⟨_, _, by unfold cstLoad; rw [if_pos hlt], by unfold scaLoad; rw [if_pos hlt], ?_, ?_, ?_, ?_⟩
  · rw [Int.toNat_natCast, e1, e2]; exact a1
  · rw [Int.toNat_natCast, scale_eq]; exact b1
  · rw [Int.toNat_natCast, e1, e2]; exact a2
  · rw [Int.toNat_natCast, scale_eq]; exact b2

/-- the product of a part of the argument and of a chunk is exact -/
theorem Ctx.product (h : Ctx c n k x) {i : ℕ} (hi : 24 * (i : ℤ) ≤ cstMsb c + vxExp x + n + 4) (hw : vxExp x + wt c i ≤ k + 50)
    {cl sl a : Val} (hcl : Fin' b64 cl) (hsl : Fin' b64 sl) (ecl : numOf cl = localCst c (tmpCst c i) i * (2 : ℚ) ^ (24 * (i : ℤ)))
    (esl : numOf sl = (2 : ℚ) ^ (-(12 * (i : ℤ)))) (ha : Fin' b64 a) {A : ℤ} {t : ℤ} (hA : |A| < 2 ^ 27) (ht : t = 25 ∧ |A| < 2 ^ 26 ∨ t = 52)
    (ea : numOf a = A * (2 : ℚ) ^ (vxExp x - t)) (hom : |numOf a| ≤ Float.omega b64) :
    Fin' b64 (fmul b64 (fmul b64 a sl) (fmul b64 cl sl)) ∧ numOf (fmul b64 (fmul b64 a sl) (fmul b64 cl sl)) = numOf a * localCst c (tmpCst c i) i := by
  have hE := h.hE
  have hE0 := h.exp_nonneg
  have hm0 := h.m0
  have hm1 := h.m1
  have hn := h.hn
  have hk := h.hk
  obtain ⟨C, hC, C0, C25, -⟩ := chunk_bits h.hc i
  have ht' : t = 25 ∨ t = 52 := by rcases ht with h | h <;> omega
  have hs1 : (2 : ℚ) ^ (-(12 * (i : ℤ))) ≤ 1 := by
    have := Float.zle (show -(12 * (i : ℤ)) ≤ 0 by omega); rwa [zpow_zero] at this
  -- the scaled part
  have u1 : numOf a * numOf sl = A * (2 : ℚ) ^ (vxExp x - t - 12 * i) := by
    rw [ea, esl, mul_assoc, ← Float.zadd]; congr 2
  obtain ⟨p1, q1⟩ := mul_exact ha hsl u1 (unb (by norm_num at hA ⊢; omega) (by omega)) (by
    rw [← u1, abs_mul, esl, abs_of_pos (Float.zp _)]
    exact le_trans (mul_le_of_le_one_right (abs_nonneg _) hs1) hom)
  -- the scaled chunk
  have u2 : numOf cl * numOf sl = C * (2 : ℚ) ^ (cstMsb c - 24 - 12 * i) := by
    rw [ecl, esl, hC, mul_assoc, mul_assoc, ← Float.zadd, ← Float.zadd]; congr 2; unfold wt; ring
  have C25q : (C : ℚ) ≤ (2 : ℚ) ^ (25 : ℤ) := by exact_mod_cast C25.le
  obtain ⟨p2, q2⟩ := mul_exact hcl hsl u2 (unb (by rw [abs_of_nonneg C0]; norm_num at C25 ⊢; omega) (by omega)) (by
    rw [abs_of_nonneg (mul_nonneg (by exact_mod_cast C0) (Float.zp _).le)]
    refine le_trans ?_ omega_big
    refine le_trans (mul_le_mul_of_nonneg_right C25q (Float.zp _).le) ?_
    rw [← Float.zadd]; exact Float.zle (by omega))
  -- the product
  have u3 : numOf (fmul b64 a sl) * numOf (fmul b64 cl sl) = (A * C : ℤ) * (2 : ℚ) ^ (vxExp x - t + wt c i) := by
    rw [q1, q2, show vxExp x - t + wt c i = (vxExp x - t - 12 * i) + (cstMsb c - 24 - 12 * i) by unfold wt; ring, Float.zadd]
    push_cast; ring
  have hAC : |A * C| ≤ 2 ^ 53 := by
    rw [abs_mul, abs_of_nonneg C0]
    calc |A| * C ≤ 2 ^ 27 * 2 ^ 25 := mul_le_mul hA.le C25.le C0 (by norm_num)
      _ ≤ 2 ^ 53 := by norm_num
  obtain ⟨p3, q3⟩ := mul_exact p1 p2 u3 (unb hAC (by unfold wt at hw ⊢; omega)) (by
    rw [abs_mul, abs_of_pos (Float.zp _)]
    refine le_trans ?_ omega_big
    have : |((A * C : ℤ) : ℚ)| ≤ (2 : ℚ) ^ (53 : ℤ) := by exact_mod_cast hAC
    refine le_trans (mul_le_mul_of_nonneg_right this (Float.zp _).le) ?_
    rw [← Float.zadd]; exact Float.zle (by omega))
  refine ⟨p3, ?_⟩
  rw [q3, ea, hC, Float.zadd]; push_cast; ring

end Verif.Trig
