import Verif.Vhdl.Lemmas

/-! # The fixed-point operations of generated circuits (property C116) -/

namespace Verif.Vhdl

open Verif.Fixed

/-! ## Addition and subtraction -/

/-- What the format of the result may be for the addition (or subtraction) to be right: no wider than one bit more than
the widest operand, or unsigned, or the operands are both signed, or both unsigned and subtracted, or one of them is
unsigned and it has fewer integer bits than the signed one. -/
def Enough (sub : Bool) (lf rf o : Fmt) : Prop :=
  o.int ≤ max lf.int rf.int + 1 ∨ o.signed = false ∨ (lf.signed = true ∧ rf.signed = true) ∨
    (sub = true ∧ lf.signed = false ∧ rf.signed = false) ∨
    (lf.signed = true ∧ rf.signed = false ∧ rf.int < lf.int) ∨
    (lf.signed = false ∧ rf.signed = true ∧ lf.int < rf.int)

/-- The sum or the difference. -/
def pm (sub : Bool) (x y : ℚ) : ℚ := if sub then x - y else x + y

theorem pow_mono2 {m n : ℕ} (h : m ≤ n) : (2 : ℤ) ^ m ≤ 2 ^ n := pow_le_pow_right₀ (by norm_num) h

theorem pow_succ2 {m n : ℕ} (h : m + 1 ≤ n) : 2 * (2 : ℤ) ^ m ≤ 2 ^ n := by
  have := pow_mono2 h
  rw [pow_succ] at this; linarith

/-- A code that is not negative comes from a number that is not negative. -/
theorem nonneg_of_floor {I rf fo : ℤ} (h : 0 ≤ ⌊(I : ℚ) * (2 : ℚ) ^ (-rf) * (2 : ℚ) ^ fo⌋) : 0 ≤ I := by
  rw [code_shift] at h
  by_contra c
  split_ifs at h
  · nlinarith [p2 (fo - rf).toNat]
  · have := Int.ediv_neg_of_neg_of_pos (not_le.mp c) (p2 (rf - fo).toNat)
    omega

/-- C116: the circuit of an addition or a subtraction computes the exact sum or difference of the two numbers, without the
fraction bits that the format of the result does not have, whenever that format can hold it, whatever the formats of the
two operands, under the condition `Enough` on the formats. (The condition on the sizes excludes results all of whose
bits are below the last bit of both operands, for which the selection of bits is empty.)

Missing from the full property: a signed result more than one bit wider than the operands when `Enough` does not hold; see
`C116_add_mixed_wrong` and `C116_add_unsigned_wrong`. -/
theorem C116_addsub_partial (sub : Bool) (lf rf o : Fmt) (a b : Vec) (ha : Is lf a) (hb : Is rf b)
    (hsize : 0 < o.int + o.frac) (hlow : 0 < o.int + max lf.frac rf.frac) (he : Enough sub lf rf o)
    (hh : o.Holds (cut o.frac (pm sub (value lf a) (value rf b)))) :
    ∃ r, addsub sub lf rf o a b = some r ∧ Stands o r (cut o.frac (pm sub (value lf a) (value rf b))) := by
  obtain ⟨fr, hfr⟩ : ∃ fr, fr = max lf.frac rf.frac := ⟨_, rfl⟩
  obtain ⟨ri, hri⟩ : ∃ ri, ri = max lf.int rf.int + 1 := ⟨_, rfl⟩
  have l1 : lf.frac ≤ fr := by omega
  have r1 : rf.frac ≤ fr := by omega
  have l2 : lf.int ≤ ri := by omega
  have r2 : rf.int ≤ ri := by omega
  obtain ⟨sa, ra⟩ := operand_rep ha l1 l2
  obtain ⟨sb, rb⟩ := operand_rep hb r1 r2
  have qa := operand_range ha l1
  have qb := operand_range hb r1
  rw [operand_value (v := a) l1, operand_value (v := b) r1] at hh ⊢
  generalize hA : a.num lf.signed * 2 ^ (fr - lf.frac).toNat = A at *
  generalize hB : b.num rf.signed * 2 ^ (fr - rf.frac).toNat = B at *
  have sizes : (operand lf ri fr a).size = (operand rf ri fr b).size := by omega
  obtain ⟨n, hn⟩ : ∃ n, n = (operand lf ri fr a).size := ⟨_, rfl⟩
  have hn' : (n : ℤ) = ri + fr := by omega
  have a0 := ha.1
  have a1 := ha.2.1
  have b0 := hb.1
  have b1 := hb.2.1
  have na : (lf.int + fr).toNat + 1 ≤ n := by omega
  have nb : (rf.int + fr).toNat + 1 ≤ n := by omega
  obtain ⟨I, hI⟩ : ∃ I : ℤ, I = if sub then A - B else A + B := ⟨_, rfl⟩
  have hval : pm sub ((A : ℚ) * (2 : ℚ) ^ (-fr)) ((B : ℚ) * (2 : ℚ) ^ (-fr)) = (I : ℚ) * (2 : ℚ) ^ (-fr) := by
    rw [hI]; unfold pm
    cases sub <;> simp <;> ring
  rw [hval] at hh ⊢
  unfold cut at hh ⊢
  have hrep : Rep (if sub then subV (operand lf ri fr a) (operand rf ri fr b)
      else addV (operand lf ri fr a) (operand rf ri fr b)) I := by
    rw [hI]
    cases sub
    · exact rep_add ra rb sizes
    · exact rep_sub ra rb sizes
  have hsz : (if sub then subV (operand lf ri fr a) (operand rf ri fr b)
      else addV (operand lf ri fr a) (operand rf ri fr b)).size = n := by
    cases sub <;> simp [addV, subV, hn]
  have hN := (holds_iff (n := (o.int + o.frac).toNat) (by omega) _).mp hh
  have ma := pow_succ2 na
  have mb := pow_succ2 nb
  have range : ri < o.int → InR o.signed n I := by
    intro hlt
    have qa' := qa
    have qb' := qb
    unfold InR at qa qb hN ⊢
    cases hos : o.signed
    · rw [hos] at hN
      simp only [Bool.false_eq_true, if_false] at hN ⊢
      refine ⟨nonneg_of_floor hN.1, ?_⟩
      rw [hI]
      cases sub <;> cases hl : lf.signed <;> cases hr : rf.signed <;> rw [hl] at qa <;> rw [hr] at qb <;>
        simp only [Bool.false_eq_true, if_false, if_true] at qa qb ⊢ <;>
        linarith [p2 (lf.int + fr).toNat, p2 (rf.int + fr).toNat]
    · simp only [if_true]
      rw [hI]
      unfold Enough at he
      rcases he with h | h | ⟨h1, h2⟩ | ⟨h0, h1, h2⟩ | ⟨h1, h2, h3⟩ | ⟨h1, h2, h3⟩
      · omega
      · rw [h] at hos; exact absurd hos (by decide)
      · rw [h1] at qa; rw [h2] at qb
        simp only [if_true] at qa qb
        cases sub <;> simp only [Bool.false_eq_true, if_false, if_true] <;> constructor <;> linarith
      · rw [h1] at qa; rw [h2] at qb; subst h0
        simp only [Bool.false_eq_true, if_false, if_true] at qa qb ⊢
        constructor <;> linarith
      · rw [h1] at qa; rw [h2] at qb
        have hb2 : (2 : ℤ) * 2 ^ (rf.int + fr).toNat ≤ 2 ^ (lf.int + fr).toNat := pow_succ2 (by omega)
        simp only [Bool.false_eq_true, if_false, if_true] at qa qb
        cases sub <;> simp only [Bool.false_eq_true, if_false, if_true] <;> constructor <;> linarith
      · rw [h1] at qa; rw [h2] at qb
        have hb2 : (2 : ℤ) * 2 ^ (lf.int + fr).toNat ≤ 2 ^ (rf.int + fr).toNat := pow_succ2 (by omega)
        simp only [Bool.false_eq_true, if_false, if_true] at qa qb
        cases sub <;> simp only [Bool.false_eq_true, if_false, if_true] <;> constructor <;> linarith
  obtain ⟨r, h1, h2, h3⟩ := adapt_rep hrep (by rw [hsz]; exact hn') hsize (by omega) (by rw [hsz]; exact range)
  refine ⟨r, ?_, stands_of_rep h2 (by omega) h3 hh⟩
  rw [← h1]
  unfold addsub
  rw [hfr, hri]

/-- 3.5 + (-1) with two different formats. -/
example : Is ⟨4, 2, false⟩ ⟨6, 14⟩ ∧ Is ⟨5, 0, true⟩ ⟨5, 31⟩ ∧ Enough false ⟨4, 2, false⟩ ⟨5, 0, true⟩ ⟨9, 1, true⟩ ∧
    addsub false ⟨4, 2, false⟩ ⟨5, 0, true⟩ ⟨9, 1, true⟩ ⟨6, 14⟩ ⟨5, 31⟩ = some ⟨10, 5⟩ := by
  refine ⟨by unfold Is; decide, by unfold Is; decide, by unfold Enough; decide, by decide⟩

/-- C116, where it fails: a signed and an unsigned operand of four bits, with a signed result of eight bits. The circuit
of `7 + 15` computes `-10`. -/
theorem C116_add_mixed_wrong :
    ∃ (lf rf o : Fmt) (a b r : Vec), Is lf a ∧ Is rf b ∧ lf.signed = true ∧ rf.signed = false ∧
      o.Holds (value lf a + value rf b) ∧ addsub false lf rf o a b = some r ∧
      value lf a + value rf b = 22 ∧ value o r = -10 := by
  refine ⟨⟨4, 0, true⟩, ⟨4, 0, false⟩, ⟨8, 0, true⟩, ⟨4, 7⟩, ⟨4, 15⟩, ⟨8, 246⟩, by unfold Is; decide,
    by unfold Is; decide, rfl, rfl, ?_, by decide, ?_, ?_⟩
  · refine ⟨⟨22, ?_⟩, ?_⟩ <;> norm_num [value, Vec.num, Vec.sgn]
  · norm_num [value, Vec.num, Vec.sgn]
  · norm_num [value, Vec.num, Vec.sgn]

/-- C116, where it fails: two unsigned operands of four bits with a signed result of eight bits. The circuit of `15 + 15`
computes `-2`. -/
theorem C116_add_unsigned_wrong :
    ∃ (lf rf o : Fmt) (a b r : Vec), Is lf a ∧ Is rf b ∧ lf.signed = false ∧ rf.signed = false ∧
      o.Holds (value lf a + value rf b) ∧ addsub false lf rf o a b = some r ∧
      value lf a + value rf b = 30 ∧ value o r = -2 := by
  refine ⟨⟨4, 0, false⟩, ⟨4, 0, false⟩, ⟨8, 0, true⟩, ⟨4, 15⟩, ⟨4, 15⟩, ⟨8, 254⟩, by unfold Is; decide,
    by unfold Is; decide, rfl, rfl, ?_, by decide, ?_, ?_⟩
  · refine ⟨⟨30, ?_⟩, ?_⟩ <;> norm_num [value, Vec.num, Vec.sgn]
  · norm_num [value, Vec.num, Vec.sgn]
  · norm_num [value, Vec.num, Vec.sgn]

/-! ## Multiplication -/

theorem inR_abs {s : Bool} {n : ℕ} {N : ℤ} (h : InR s n N) : |N| ≤ 2 ^ n ∧ (s = true → 2 * |N| ≤ 2 ^ n) ∧
    (s = false → |N| < 2 ^ n ∧ 0 ≤ N) := by
  have hp := p2 n
  unfold InR at h
  cases s
  · simp only [Bool.false_eq_true, if_false] at h
    rw [abs_of_nonneg h.1]
    exact ⟨h.2.le, (fun c => absurd c (by decide)), fun _ => ⟨h.2, h.1⟩⟩
  · simp only [if_true] at h
    have h2 : 2 * |N| ≤ 2 ^ n := by
      rcases abs_cases N with ⟨e, _⟩ | ⟨e, _⟩ <;> rw [e] <;> linarith
    exact ⟨by linarith [abs_nonneg N], fun _ => h2, fun c => absurd c (by decide)⟩

/-- C116: the circuit of a multiplication computes the exact product of the two numbers, without the fraction bits that
the format of the result does not have, whenever that format can hold it, unless the operands are both unsigned and the
result is signed with more integer bits than the operands have together; see `C116_mul_wrong` for that case. -/
theorem C116_mul_partial (lf rf o : Fmt) (a b : Vec) (ha : Is lf a) (hb : Is rf b)
    (hsize : 0 < o.int + o.frac) (hlow : 0 < o.int + (lf.frac + rf.frac))
    (he : o.int ≤ lf.int + rf.int ∨ o.signed = false ∨ lf.signed = true ∨ rf.signed = true)
    (hh : o.Holds (cut o.frac (value lf a * value rf b))) :
    ∃ r, mul lf rf o a b = some r ∧ Stands o r (cut o.frac (value lf a * value rf b)) := by
  obtain ⟨a0, a1, a2⟩ := ha
  obtain ⟨b0, b1, b2⟩ := hb
  have qa := num_inR lf.signed a2
  have qb := num_inR rf.signed b2
  have hrep := rep_mul lf.signed rf.signed a b
  have hval : value lf a * value rf b =
      ((a.num lf.signed * b.num rf.signed : ℤ) : ℚ) * (2 : ℚ) ^ (-(lf.frac + rf.frac)) := by
    unfold value
    rw [neg_add, zpow_add2]; push_cast; ring
  rw [hval] at hh ⊢
  unfold cut at hh ⊢
  have hN := (holds_iff (n := (o.int + o.frac).toNat) (by omega) _).mp hh
  have hsz : ((mulV lf.signed rf.signed a b).size : ℤ) =
      lf.int + rf.int + (if lf.signed != rf.signed then 1 else 0) + (lf.frac + rf.frac) := by
    simp only [mulV]
    split_ifs <;> push_cast <;> omega
  obtain ⟨p1, p2', p3⟩ := inR_abs qa
  obtain ⟨r1, r2', r3⟩ := inR_abs qb
  generalize a.num lf.signed = A at *
  generalize b.num rf.signed = B at *
  have hm : |A * B| = |A| * |B| := abs_mul A B
  have key : lf.int + rf.int + (if lf.signed != rf.signed then 1 else 0) < o.int →
      InR o.signed (mulV lf.signed rf.signed a b).size (A * B) := by
    intro hlt
    have hpa := p2 a.size
    have hpb := p2 b.size
    have na := abs_nonneg A
    have nb := abs_nonneg B
    have hle := le_abs_self (A * B)
    have hge := neg_abs_le (A * B)
    have prod : |A| * |B| ≤ 2 ^ a.size * 2 ^ b.size := mul_le_mul p1 r1 nb hpa.le
    unfold InR at hN ⊢
    simp only [mulV, pow_add]
    cases hos : o.signed
    · rw [hos] at hN
      simp only [Bool.false_eq_true, if_false] at hN ⊢
      have i0 := nonneg_of_floor hN.1
      refine ⟨i0, ?_⟩
      have hpp := mul_pos hpa hpb
      cases hl : lf.signed <;> cases hr : rf.signed
      · have := mul_lt_mul'' (p3 hl).1 (r3 hr).1 na nb
        simp only [bne_self_eq_false, Bool.false_eq_true, if_false, pow_zero, mul_one]
        linarith
      · simp only [show (false != true) = true from rfl, if_true, pow_one]
        linarith
      · simp only [show (true != false) = true from rfl, if_true, pow_one]
        linarith
      · have := mul_le_mul (p2' hl) r1 nb hpa.le
        simp only [bne_self_eq_false, Bool.false_eq_true, if_false, pow_zero, mul_one]
        linarith
    · simp only [if_true]
      cases hl : lf.signed <;> cases hr : rf.signed
      · exfalso
        rcases he with h | h | h | h
        · rw [hl, hr] at hlt; simp at hlt; omega
        · rw [h] at hos; exact absurd hos (by decide)
        · rw [h] at hl; exact absurd hl (by decide)
        · rw [h] at hr; exact absurd hr (by decide)
      · have t1 := mul_le_mul p1 (r2' hr) (by linarith) hpa.le
        have hpp := mul_pos hpa hpb
        simp only [show (false != true) = true from rfl, if_true, pow_one]
        constructor <;> linarith
      · have t1 := mul_le_mul (p2' hl) r1 nb hpa.le
        have hpp := mul_pos hpa hpb
        simp only [show (true != false) = true from rfl, if_true, pow_one]
        constructor <;> linarith
      · have t1 := mul_le_mul (p2' hl) (r2' hr) (by linarith) hpa.le
        have hpp := mul_pos hpa hpb
        simp only [bne_self_eq_false, Bool.false_eq_true, if_false, pow_zero, mul_one]
        constructor <;> linarith
  obtain ⟨r, h1, h2, h3⟩ := adapt_rep hrep hsz hsize hlow key
  exact ⟨r, h1, stands_of_rep h2 (by omega) h3 hh⟩

/-- -3 times 2.5. -/
example : Is ⟨4, 0, true⟩ ⟨4, 13⟩ ∧ Is ⟨3, 1, false⟩ ⟨4, 5⟩ ∧
    mul ⟨4, 0, true⟩ ⟨3, 1, false⟩ ⟨12, 0, true⟩ ⟨4, 13⟩ ⟨4, 5⟩ = some ⟨12, 4096 - 8⟩ := by
  refine ⟨by unfold Is; decide, by unfold Is; decide, by decide⟩

/-- C116, where it fails: two unsigned operands of four bits with a signed result of twelve bits. The circuit of `15 × 15`
computes `-31`. -/
theorem C116_mul_wrong :
    ∃ (lf rf o : Fmt) (a b r : Vec), Is lf a ∧ Is rf b ∧ o.Holds (value lf a * value rf b) ∧
      mul lf rf o a b = some r ∧ value lf a * value rf b = 225 ∧ value o r = -31 := by
  refine ⟨⟨4, 0, false⟩, ⟨4, 0, false⟩, ⟨12, 0, true⟩, ⟨4, 15⟩, ⟨4, 15⟩, ⟨12, 4065⟩, by unfold Is; decide,
    by unfold Is; decide, ?_, by decide, ?_, ?_⟩
  · refine ⟨⟨225, ?_⟩, ?_⟩ <;> norm_num [value, Vec.num, Vec.sgn]
  · norm_num [value, Vec.num, Vec.sgn]
  · norm_num [value, Vec.num, Vec.sgn]

/-! ## Conversion and negation -/

/-- C116: the circuit of a conversion computes the number it is given, without the fraction bits that the format of the
result does not have, whenever that format can hold it, for all formats. -/
theorem C116_conversion (f o : Fmt) (v : Vec) (hv : Is f v) (hsize : 0 < o.int + o.frac)
    (hlow : 0 < o.int + f.frac) (hh : o.Holds (cut o.frac (value f v))) :
    ∃ r, conv f o v = some r ∧ Stands o r (cut o.frac (value f v)) := by
  obtain ⟨r, h1, h2, h3⟩ := conv_rep hv hsize hlow
  exact ⟨r, h1, stands_of_rep h2 (by omega) h3 hh⟩

example : Is ⟨4, 2, true⟩ ⟨6, 55⟩ ∧ conv ⟨4, 2, true⟩ ⟨6, 1, true⟩ ⟨6, 55⟩ = some ⟨7, 123⟩ ∧
    value ⟨4, 2, true⟩ ⟨6, 55⟩ = -9 / 4 ∧ value ⟨6, 1, true⟩ ⟨7, 123⟩ = -5 / 2 := by
  refine ⟨by unfold Is; decide, by decide, ?_, ?_⟩ <;> norm_num [value, Vec.num, Vec.sgn]

/-- C116: the circuit of a negation computes the negation of the number it is given, that number being first cut to the
fraction bits of the result, whenever the format of the result can hold it, for all formats. -/
theorem C116_negation (f o : Fmt) (v : Vec) (hv : Is f v) (hsize : 0 < o.int + o.frac)
    (hlow : 0 < o.int + f.frac) (hh : o.Holds (-cut o.frac (value f v))) :
    ∃ r, neg f o v = some r ∧ Stands o r (-cut o.frac (value f v)) := by
  obtain ⟨r, h1, h2, h3⟩ := conv_rep hv hsize hlow
  have e : -cut o.frac (value f v) =
      ((-⌊value f v * (2 : ℚ) ^ o.frac⌋ : ℤ) : ℚ) * (2 : ℚ) ^ (-o.frac) := by
    unfold cut; push_cast; ring
  rw [e] at hh ⊢
  refine ⟨negV r, ?_, stands_of_rep (r := negV r) h2 (show 0 < r.size by omega) (rep_neg h3) hh⟩
  unfold neg; rw [h1]; rfl

example : neg ⟨4, 0, false⟩ ⟨5, 1, true⟩ ⟨4, 15⟩ = some ⟨6, 34⟩ ∧ value ⟨5, 1, true⟩ ⟨6, 34⟩ = -15 := by
  refine ⟨by decide, ?_⟩
  norm_num [value, Vec.num, Vec.sgn]

/-! ## Comparison -/

theorem inR_mono {s : Bool} {m n : ℕ} {N : ℤ} (h : m ≤ n) (hq : InR s m N) : InR s n N := by
  have hm := pow_mono2 h
  unfold InR at *
  cases s
  · simp only [Bool.false_eq_true, if_false] at *
    exact ⟨hq.1, by linarith [hq.2]⟩
  · simp only [if_true] at *
    exact ⟨by linarith [hq.1], by linarith [hq.2]⟩

/-- A conversion to a format with at least as many integer and fraction bits keeps the number, read with the signedness it
had. -/
theorem conv_wide {f u : Fmt} {v : Vec} (hv : Is f v) (hi : f.int ≤ u.int) (hf : f.frac ≤ u.frac) :
    ∃ r, convIfNeeded f u v = some r ∧ (r.num f.signed : ℚ) * (2 : ℚ) ^ (-u.frac) = value f v := by
  have h0 := hv.1
  have h1 := hv.2.1
  unfold convIfNeeded
  split_ifs with c
  · exact ⟨v, rfl, by rw [← c]; rfl⟩
  · obtain ⟨r, e1, e2, e3⟩ := conv_rep (o := u) hv (by omega) (by omega)
    refine ⟨r, e1, ?_⟩
    have hq := operand_range hv hf
    have hval := operand_value (f := f) (rf := u.frac) (v := v) hf
    rw [hval, code_shift, if_pos (by omega), show (u.frac - u.frac).toNat = 0 by omega, pow_zero, mul_one] at e3
    rw [hval]
    congr 2
    refine num_of_rep e3 ?_
    exact inR_mono (by omega) hq

theorem order_scale (c : Order) (x y : ℤ) (k : ℤ) :
    c.on x y = c.on ((x : ℚ) * (2 : ℚ) ^ k) ((y : ℚ) * (2 : ℚ) ^ k) := by
  have hk : (0 : ℚ) < 2 ^ k := by positivity
  cases c <;> simp only [Order.on, mul_lt_mul_iff_left₀ hk, mul_le_mul_iff_left₀ hk, Int.cast_lt, Int.cast_le]

/-- C116: the circuit of an order comparison gives the comparison of the two numbers, for all formats and all contents. -/
theorem C116_comparison (c : Order) (lf rf : Fmt) (a b : Vec) (ha : Is lf a) (hb : Is rf b) :
    compare c lf rf a b = some (c.on (value lf a) (value rf b)) := by
  have hf : (largestFixed lf rf).frac = max lf.frac rf.frac := rfl
  have hi : max lf.int rf.int ≤ (largestFixed lf rf).int := by
    simp only [largestFixed]
    split_ifs <;> omega
  obtain ⟨l, l1, l2⟩ := conv_wide (u := largestFixed lf rf) ha (by omega) (by omega)
  obtain ⟨r, r1, r2⟩ := conv_wide (u := largestFixed lf rf) hb (by omega) (by omega)
  unfold compare
  simp only [l1, r1, Option.bind_some]
  rw [order_scale c _ _ (-(largestFixed lf rf).frac), l2, r2]

/-- -0.5 is below 15. -/
example : compare .lt ⟨2, 1, true⟩ ⟨4, 0, false⟩ ⟨3, 7⟩ ⟨4, 15⟩ = some true := by decide

/-- C116: the circuit of an equality gives the equality of the two numbers when they have the same format. Missing: all
other formats, see `C116_equal_wrong`. -/
theorem C116_equal_partial (f : Fmt) (a b : Vec) (ha : Is f a) (hb : Is f b) :
    equal f f a b = decide (value f a = value f b) := by
  have hs : a.size = b.size := by have := ha.1; have := hb.1; omega
  unfold equal
  congr 1
  apply propext
  constructor
  · intro h; rw [h]
  · intro h
    have hn : a.num f.signed = b.num f.signed := by
      unfold value at h
      have hk : (2 : ℚ) ^ (-f.frac) ≠ 0 := by positivity
      exact_mod_cast mul_right_cancel₀ hk h
    have h1 := rep_num f.signed ha.2.2
    have h2 := rep_num f.signed hb.2.2
    unfold Rep at h1 h2
    rw [hn, hs, ← h2] at h1
    obtain ⟨sa, va⟩ := a
    obtain ⟨sb, vb⟩ := b
    simp only at hs h1
    have : va = vb := by exact_mod_cast h1
    rw [hs, this]

/-- C116, where it fails: the circuit of an equality between two signals of the same length with different formats takes
`1` and `16` for equal, `1` and `1` for different, and `-1` and `15` for equal. -/
theorem C116_equal_wrong :
    (∃ (lf rf : Fmt) (a b : Vec), Is lf a ∧ Is rf b ∧ value lf a = 1 ∧ value rf b = 16 ∧ equal lf rf a b = true) ∧
    (∃ (lf rf : Fmt) (a b : Vec), Is lf a ∧ Is rf b ∧ value lf a = 1 ∧ value rf b = 1 ∧ equal lf rf a b = false) ∧
    (∃ (lf rf : Fmt) (a b : Vec), Is lf a ∧ Is rf b ∧ value lf a = -1 ∧ value rf b = 15 ∧ equal lf rf a b = true) := by
  refine ⟨⟨⟨4, 4, false⟩, ⟨8, 0, false⟩, ⟨8, 16⟩, ⟨8, 16⟩, by unfold Is; decide, by unfold Is; decide, ?_, ?_, rfl⟩,
    ⟨⟨4, 4, false⟩, ⟨8, 0, false⟩, ⟨8, 16⟩, ⟨8, 1⟩, by unfold Is; decide, by unfold Is; decide, ?_, ?_, by decide⟩,
    ⟨⟨4, 0, true⟩, ⟨4, 0, false⟩, ⟨4, 15⟩, ⟨4, 15⟩, by unfold Is; decide, by unfold Is; decide, ?_, ?_, rfl⟩⟩ <;>
  norm_num [value, Vec.num, Vec.sgn]

/-! ## Shifts -/

theorem floor_cut (x : ℚ) (fr : ℤ) (k : ℕ) :
    cut fr (x / 2 ^ k) = ((⌊x * (2 : ℚ) ^ fr⌋ / 2 ^ k : ℤ) : ℚ) * (2 : ℚ) ^ (-fr) := by
  unfold cut
  congr 2
  rw [show x / 2 ^ k * (2 : ℚ) ^ fr = x * (2 : ℚ) ^ fr / ((2 ^ k : ℕ) : ℚ) by push_cast; ring, Int.floor_div_natCast]
  push_cast; rfl

theorem inR_div {s : Bool} {n : ℕ} {N : ℤ} (k : ℕ) (h : InR s n N) : InR s n (N / 2 ^ k) := by
  have hk := p2 k
  have hn := p2 n
  have h1 : (1 : ℤ) ≤ 2 ^ k := hk
  unfold InR at *
  cases s
  · simp only [Bool.false_eq_true, if_false] at *
    exact ⟨Int.ediv_nonneg h.1 hk.le, lt_of_le_of_lt (Int.ediv_le_self _ h.1) h.2⟩
  · simp only [if_true] at *
    by_cases c : 0 ≤ N
    · have a := Int.ediv_le_self (2 ^ k) c
      have b := Int.ediv_nonneg c hk.le
      constructor <;> linarith
    · have b : N / 2 ^ k < 0 := Int.ediv_neg_of_neg_of_pos (not_le.mp c) hk
      have a : N ≤ N / 2 ^ k := by
        rw [Int.le_ediv_iff_mul_le hk]; nlinarith
      constructor <;> linarith

/-- C116: the circuit of a logical right shift, by an amount given by a signal, divides the number by the power of two and
drops the fraction bits the result does not have, when the number is not negative and the format of the result can hold
the number itself. Missing: a result format that can hold the quotient only, see `C116_shift_right_wrong`. -/
theorem C116_shift_right_partial (f o : Fmt) (v k : Vec) (hv : Is f v) (hsize : 0 < o.int + o.frac)
    (hlow : 0 < o.int + f.frac) (hx : 0 ≤ value f v) (hh : o.Holds (cut o.frac (value f v))) :
    ∃ r, shift .right f o v k = some r ∧ Stands o r (cut o.frac (value f v / 2 ^ k.val)) := by
  obtain ⟨w, h1, h2, h3⟩ := conv_rep hv hsize hlow
  have hr := (holds_iff h2 _).mp hh
  have n0 : 0 ≤ ⌊value f v * (2 : ℚ) ^ o.frac⌋ := Int.floor_nonneg.mpr (by positivity)
  rw [floor_cut]
  generalize ⌊value f v * (2 : ℚ) ^ o.frac⌋ = N at *
  have hlt : N < 2 ^ w.size := by
    have := p2 w.size
    unfold InR at hr
    split_ifs at hr <;> linarith [hr.2]
  have hval : (w.val : ℤ) = N := by rw [h3, Int.emod_eq_of_lt n0 hlt]
  refine ⟨shiftV .right w k.val, by unfold shift; rw [h1]; rfl, stands_of_rep h2 (show 0 < w.size by omega) ?_
    ((holds_iff h2 _).mpr (inR_div _ hr))⟩
  unfold Rep
  simp only [shiftV]
  push_cast
  rw [hval]
  have := Int.ediv_nonneg n0 (p2 k.val).le
  exact (Int.emod_eq_of_lt this (lt_of_le_of_lt (Int.ediv_le_self _ n0) hlt)).symm

/-- C116: the circuit of an arithmetic right shift, by an amount given by a signal, divides the number by the power of two
and drops the fraction bits the result does not have, when the format of the result is signed and can hold the number
itself. Missing: a result format that can hold the quotient only, and unsigned results, see `C116_shift_arith_wrong`. -/
theorem C116_shift_arith_partial (f o : Fmt) (v k : Vec) (hv : Is f v) (hsize : 0 < o.int + o.frac)
    (hlow : 0 < o.int + f.frac) (hs : o.signed = true) (hh : o.Holds (cut o.frac (value f v))) :
    ∃ r, shift .arith f o v k = some r ∧ Stands o r (cut o.frac (value f v / 2 ^ k.val)) := by
  obtain ⟨w, h1, h2, h3⟩ := conv_rep hv hsize hlow
  have hr := (holds_iff h2 _).mp hh
  rw [floor_cut]
  have hn := num_of_rep h3 hr
  rw [hs] at hn
  simp only [Vec.num, if_true] at hn
  generalize ⌊value f v * (2 : ℚ) ^ o.frac⌋ = N at *
  refine ⟨shiftV .arith w k.val, by unfold shift; rw [h1]; rfl, stands_of_rep h2 (show 0 < w.size by omega) ?_
    ((holds_iff h2 _).mpr (inR_div _ hr))⟩
  unfold Rep
  simp only [shiftV]
  rw [hn]
  exact Int.toNat_of_nonneg (Int.emod_nonneg _ (p2 _).ne')

/-- C116: the circuit of a left shift, by an amount given by a signal, multiplies the number by the power of two, the number
being first cut to the fraction bits of the result, whenever the format of the result can hold the product. -/
theorem C116_shift_left (f o : Fmt) (v k : Vec) (hv : Is f v) (hsize : 0 < o.int + o.frac)
    (hlow : 0 < o.int + f.frac) (hh : o.Holds (cut o.frac (value f v) * 2 ^ k.val)) :
    ∃ r, shift .left f o v k = some r ∧ Stands o r (cut o.frac (value f v) * 2 ^ k.val) := by
  obtain ⟨w, h1, h2, h3⟩ := conv_rep hv hsize hlow
  have e : cut o.frac (value f v) * 2 ^ k.val =
      ((⌊value f v * (2 : ℚ) ^ o.frac⌋ * 2 ^ k.val : ℤ) : ℚ) * (2 : ℚ) ^ (-o.frac) := by
    unfold cut; push_cast; ring
  rw [e] at hh ⊢
  refine ⟨shiftV .left w k.val, by unfold shift; rw [h1]; rfl, stands_of_rep h2 (show 0 < w.size by omega) ?_ hh⟩
  unfold Rep at *
  simp only [shiftV]
  push_cast
  rw [h3]
  exact Int.ModEq.mul_right _ (Int.mod_modEq _ _)

example : shift .right ⟨6, 2, false⟩ ⟨6, 1, false⟩ ⟨8, 230⟩ ⟨3, 2⟩ = some ⟨7, 28⟩ ∧
    shift .arith ⟨6, 2, true⟩ ⟨6, 1, true⟩ ⟨8, 230⟩ ⟨3, 2⟩ = some ⟨7, 124⟩ ∧
    shift .left ⟨4, 2, true⟩ ⟨6, 1, true⟩ ⟨6, 62⟩ ⟨3, 2⟩ = some ⟨7, 124⟩ := by decide

/-- C116, where it fails: the operand of a shift is converted to the format of the result before it is shifted. The circuit
of `240` shifted by four places to the right, in a format of four bits, computes `0` and not `15`. -/
theorem C116_shift_right_wrong :
    ∃ (f o : Fmt) (v k r : Vec), Is f v ∧ o.Holds (value f v / 2 ^ k.val) ∧ shift .right f o v k = some r ∧
      value f v / 2 ^ k.val = 15 ∧ value o r = 0 := by
  refine ⟨⟨8, 0, false⟩, ⟨4, 0, false⟩, ⟨8, 240⟩, ⟨3, 4⟩, ⟨4, 0⟩, by unfold Is; decide, ?_, by decide, ?_, ?_⟩
  · refine ⟨⟨15, ?_⟩, ?_⟩ <;> norm_num [value, Vec.num, Vec.sgn]
  · norm_num [value, Vec.num, Vec.sgn]
  · norm_num [value, Vec.num, Vec.sgn]

/-- C116, where it fails: an arithmetic right shift of an unsigned number copies its most significant bit. The circuit of
`8` shifted by one place, in a format of four bits without sign, computes `12` and not `4`. -/
theorem C116_shift_arith_wrong :
    ∃ (f : Fmt) (v k r : Vec), Is f v ∧ f.signed = false ∧ shift .arith f f v k = some r ∧
      value f v / 2 ^ k.val = 4 ∧ value f r = 12 := by
  refine ⟨⟨4, 0, false⟩, ⟨4, 8⟩, ⟨3, 1⟩, ⟨4, 12⟩, by unfold Is; decide, rfl, by decide, ?_, ?_⟩ <;>
  norm_num [value, Vec.num, Vec.sgn]

/-- C116: the circuit of a shift by a constant, when operand and result have the same format and the amount is less than
their number of bits: a right shift of a number that is not negative (logical) or signed (arithmetic) divides it, a left
shift multiplies it if the format can hold the product. Missing: operand and result of different formats, see
`C116_shift_constant_wrong`. -/
theorem C116_shift_constant_partial (s : Shift) (f : Fmt) (v : Vec) (k : ℕ) (hv : Is f v) (hk : k < v.size)
    (h1 : s = .right → 0 ≤ value f v) (h2 : s = .arith → f.signed = true)
    (h3 : s = .left → f.Holds (value f v * 2 ^ k)) :
    ∃ r, shiftCst s f f v k = some r ∧
      Stands f r (if s = .left then value f v * 2 ^ k else cut f.frac (value f v / 2 ^ k)) := by
  obtain ⟨e0, e1, e2⟩ := hv
  have hfl : ⌊value f v * (2 : ℚ) ^ f.frac⌋ = v.num f.signed := by
    unfold value
    rw [code_shift, if_pos (by omega), show (f.frac - f.frac).toNat = 0 by omega, pow_zero, mul_one]
  have hself : value f v = ((v.num f.signed : ℤ) : ℚ) * (2 : ℚ) ^ (-f.frac) := rfl
  have hR := num_inR f.signed e2
  have hrep := rep_num f.signed e2
  unfold shiftCst
  by_cases k0 : k = 0
  · rw [if_pos k0]
    refine ⟨v, rfl, ⟨e0, e1, e2⟩, ?_⟩
    subst k0
    rw [floor_cut, hfl]
    cases s <;> simp [hself]
  · rw [if_neg k0]
    cases s with
    | right =>
      have x0 := h1 rfl
      have n0 : 0 ≤ v.num f.signed := by
        rw [← hfl]; exact Int.floor_nonneg.mpr (by positivity)
      obtain ⟨w, a1, a2, a3⟩ := rep_high (rep_val e2) hk
      simp only [a1, Option.map_some, Option.bind_some]
      have hsz : k + w.size = v.size := by omega
      rw [if_pos (by rw [hsz]; exact e0)]
      have hv' : (v.val : ℤ) = v.num f.signed := by
        have hlt : v.num f.signed < 2 ^ v.size := by
          have := p2 v.size
          unfold InR at hR
          split_ifs at hR <;> linarith [hR.2]
        unfold Rep at hrep; rw [hrep, Int.emod_eq_of_lt n0 hlt]
      refine ⟨_, rfl, ?_⟩
      rw [if_neg (by decide), floor_cut, hfl]
      refine stands_of_rep (by simp only [hsz]; exact e0) (by simp only [hsz]; exact e1) ?_
        ((holds_iff e0 _).mpr (inR_div _ hR))
      unfold Rep at a3 ⊢
      simp only [hsz]
      rw [a3, hv']
      have d0 := Int.ediv_nonneg n0 (p2 k).le
      have dlt : v.num f.signed / 2 ^ k < 2 ^ w.size := by
        apply Int.ediv_lt_of_lt_mul (p2 k)
        rw [← pow_add, ← hv', Nat.add_comm, hsz]
        exact_mod_cast e2
      have dlt2 : v.num f.signed / 2 ^ k < 2 ^ v.size := lt_of_lt_of_le dlt (pow_mono2 (by omega))
      rw [Int.emod_eq_of_lt d0 dlt, Int.emod_eq_of_lt d0 dlt2]
    | arith =>
      have hs := h2 rfl
      obtain ⟨w, a1, a2, a3⟩ := rep_high (rep_val e2) hk
      simp only [a1, Option.map_some, Option.bind_some]
      have hsz : k + w.size = v.size := by omega
      rw [if_pos (by rw [hsz]; exact e0)]
      refine ⟨_, rfl, ?_⟩
      rw [if_neg (show ¬ Shift.arith = Shift.left by decide), floor_cut, hfl]
      refine stands_of_rep (by simp only [hsz]; exact e0) (by simp only [hsz]; exact e1) ?_
        ((holds_iff e0 _).mpr (inR_div _ hR))
      have hpow : (2 : ℤ) ^ v.size = 2 ^ k * 2 ^ w.size := by rw [← pow_add, hsz]
      have hv0 : (0 : ℤ) ≤ v.val := by positivity
      have hvl : (v.val : ℤ) < 2 ^ v.size := by exact_mod_cast e2
      have d0 := Int.ediv_nonneg hv0 (p2 k).le
      have dlt : (v.val : ℤ) / 2 ^ k < 2 ^ w.size := by
        apply Int.ediv_lt_of_lt_mul (p2 k)
        rw [mul_comm, ← hpow]; exact hvl
      have dle : (2 : ℤ) ^ w.size ≤ 2 ^ v.size := pow_mono2 (by omega)
      unfold Rep at a3 ⊢
      rw [Int.emod_eq_of_lt d0 dlt] at a3
      simp only [hsz]
      rw [hs]
      simp only [Vec.num, if_true]
      unfold Vec.sgn
      by_cases c : 2 * v.val < 2 ^ v.size
      · simp only [if_pos c, Nat.zero_mul, Nat.zero_add]
        rw [a3, Int.emod_eq_of_lt d0 (by linarith)]
      · simp only [if_neg c]
        have ek : ((2 ^ k - 1 : ℕ) : ℤ) = 2 ^ k - 1 := by
          rw [Nat.cast_sub Nat.one_le_two_pow]; push_cast; ring
        push_cast
        rw [ek, a3]
        have hd : ((v.val : ℤ) - 2 ^ v.size) / 2 ^ k = (v.val : ℤ) / 2 ^ k - 2 ^ w.size := by
          rw [hpow, show (v.val : ℤ) - 2 ^ k * 2 ^ w.size = v.val + 2 ^ k * (-2 ^ w.size) by ring,
            Int.add_mul_ediv_left _ _ (p2 k).ne']
          ring
        rw [hd, ← Int.add_emod_right, Int.emod_eq_of_lt (by linarith) (by linarith), hpow]
        ring
    | left =>
      have hh := h3 rfl
      have e : value f v * 2 ^ k = ((v.num f.signed * 2 ^ k : ℤ) : ℚ) * (2 : ℚ) ^ (-f.frac) := by
        rw [hself]; push_cast; ring
      rw [if_pos rfl]
      rw [e] at hh ⊢
      obtain ⟨w, a1, a2, a3⟩ := rep_low hrep (n := v.size - k) (by omega) (by omega)
      have hix : (v.size : ℤ) - 1 - k = ((v.size - k : ℕ) : ℤ) - 1 := by omega
      simp only [hix, a1, Option.map_some, Option.bind_some]
      have hsz : w.size + k = v.size := by omega
      rw [if_pos (by rw [hsz]; exact e0)]
      refine ⟨_, rfl, stands_of_rep (by simp only [hsz]; exact e0) (by simp only [hsz]; exact e1) ?_ hh⟩
      exact rep_rzext k a3

example : shiftCst .arith ⟨6, 2, true⟩ ⟨6, 2, true⟩ ⟨8, 230⟩ 2 = some ⟨8, 249⟩ ∧
    shiftCst .right ⟨6, 2, false⟩ ⟨6, 2, false⟩ ⟨8, 230⟩ 2 = some ⟨8, 57⟩ ∧
    shiftCst .left ⟨6, 2, true⟩ ⟨6, 2, true⟩ ⟨8, 230⟩ 2 = some ⟨8, 152⟩ := by decide

/-- C116, where it fails: a shift by a constant moves the bits of the operand without converting them to the format of the
result. The circuit of `1` shifted by zero places, from a format with four fraction bits to one without, computes `16`. -/
theorem C116_shift_constant_wrong :
    ∃ (f o : Fmt) (v r : Vec), Is f v ∧ o.Holds (value f v) ∧ (∀ s, shiftCst s f o v 0 = some r) ∧
      value f v = 1 ∧ value o r = 16 := by
  refine ⟨⟨4, 4, false⟩, ⟨8, 0, false⟩, ⟨8, 16⟩, ⟨8, 16⟩, by unfold Is; decide, ?_, fun s => rfl, ?_, ?_⟩
  · refine ⟨⟨1, ?_⟩, ?_⟩ <;> norm_num [value, Vec.num, Vec.sgn]
  · norm_num [value, Vec.num, Vec.sgn]
  · norm_num [value, Vec.num, Vec.sgn]

end Verif.Vhdl
