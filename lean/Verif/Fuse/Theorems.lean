import Verif.Fuse.Model
import Verif.Elem.Rel
import Verif.Elem.SqrtWrong
import Mathlib.Tactic.Ring

/-! # C84: the fusion of multiplications and additions -/

namespace Verif.Fuse

open Verif.Float (Fmt Val)
open Verif.Check
open Verif.Elem

/-- C84: the fusion of an expression has the value of the expression when nothing is rounded, in every commutative ring and for every meaning of the other operations -/
theorem C84_fuse_exact {R : Type} [CommRing R] (env : ℕ → R) (o1 : ℕ → R → R) (o2 : ℕ → R → R → R) (d : Bool) (e : Expr) :
    (fuse d e).exact env o1 o2 = e.exact env o1 o2 := by
  induction e using fuse.induct (d := d) <;>
    simp only [fuse, Expr.exact, *] <;> (try split_ifs) <;> simp_all [Expr.exact, Spec.value] <;> (try split_ifs) <;> (try simp_all [Spec.value]) <;> (try ring)

/-- a sum of products -/
example : fuse false (.sum true .b64 false false (.leaf 0 .b64) (.mul .b64 false false false (.leaf 1 .b64) (.leaf 2 .b64))) =
    .fma .subtractNegate .b64 false (.leaf 1 .b64) (.leaf 2 .b64) (.leaf 0 .b64) := rfl

/-! ## Rounded values -/

/-- the product of two numbers is exact in a format -/
def ProdOk (F : Fmt) (a b : Val) : Prop :=
  isNaN a = false → isNaN b = false → isInf a = false → isInf b = false → isInf (fmul F a b) = false ∧ numOf (fmul F a b) = numOf a * numOf b

/-- every product of an expression is exact -/
def ProductsExact (env : ℕ → Val) (o1 : ℕ → Prec → Val → Val) (o2 : ℕ → Prec → Val → Val → Val) : Expr → Prop
  | .leaf _ _ => True
  | .mul p _ _ _ a b => ProductsExact env o1 o2 a ∧ ProductsExact env o1 o2 b ∧ ProdOk (fm p) (evalF env o1 o2 a) (evalF env o1 o2 b)
  | .sum _ _ _ _ a b => ProductsExact env o1 o2 a ∧ ProductsExact env o1 o2 b
  | .fma _ _ _ a b c => ProductsExact env o1 o2 a ∧ ProductsExact env o1 o2 b ∧ ProductsExact env o1 o2 c
  | .dot _ _ _ a b c d => ProductsExact env o1 o2 a ∧ ProductsExact env o1 o2 b ∧ ProductsExact env o1 o2 c ∧ ProductsExact env o1 o2 d
  | .op1 _ _ a => ProductsExact env o1 o2 a
  | .op2 _ _ a b => ProductsExact env o1 o2 a ∧ ProductsExact env o1 o2 b

theorem nan_q : isNaN .qNaN = true := rfl

theorem sgn_num {v : ℚ} : sgn (.num v) = decide (v < 0) := rfl

theorem sgn_zeroS (s : Bool) : sgn (zeroS s) = s := by cases s <;> rfl

theorem sgn_fneg {a : Val} (hn : isNaN a = false) (h0 : a ≠ .num 0) : sgn (fneg a) = !sgn a := by
  cases a <;> first | rfl | (simp [isNaN] at hn) | skip
  rename_i v
  have hv : v ≠ 0 := fun h => h0 (by rw [h])
  show decide (-v < 0) = !decide (v < 0)
  rcases lt_or_gt_of_ne hv with h | h
  · simp [h, h.le]
  · simp [h, h.le]

theorem fneg_cls (a : Val) : isNaN (fneg a) = isNaN a ∧ isInf (fneg a) = isInf a ∧ isZero (fneg a) = isZero a ∧ numOf (fneg a) = -numOf a := by
  cases a <;> simp [fneg, isNaN, isInf, isZero, numOf]

theorem fin_sgn {a : Val} (hn : isNaN a = false) (hi : isInf a = false) (h : numOf a ≠ 0) : sgn a = decide (numOf a < 0) := by
  cases a <;> first | (exact absurd rfl h) | (simp [isNaN, isInf] at hn hi; done) | rfl

/-- an exact product -/
theorem mul_cases {F : Fmt} {a b : Val} (h : ProdOk F a b) (na : isNaN a = false) (nb : isNaN b = false) (ia : isInf a = false) (ib : isInf b = false) :
    isNaN (fmul F a b) = false ∧ isInf (fmul F a b) = false ∧ numOf (fmul F a b) = numOf a * numOf b ∧ sgn (fmul F a b) = xor (sgn a) (sgn b) := by
  obtain ⟨h1, h2⟩ := h na nb ia ib
  have e : fmul F a b = rnd F (xor (sgn a) (sgn b)) ((numOf a * numOf b : ℚ) : ℝ) := by
    unfold fmul; rw [na, nb, ia, ib]; simp
  by_cases h0 : numOf a * numOf b = 0
  · have e2 : fmul F a b = zeroS (xor (sgn a) (sgn b)) := by rw [e, h0]; simp [rnd]
    refine ⟨?_, h1, h2, ?_⟩
    · rw [e2]; cases (xor (sgn a) (sgn b)) <;> rfl
    · rw [e2, sgn_zeroS]
  · have hn : isNaN (fmul F a b) = false := by
      rw [e]; unfold rnd
      split_ifs <;> first | rfl | (unfold zeroS; split_ifs <;> rfl) | (unfold infS; split_ifs <;> rfl)
    refine ⟨hn, h1, h2, ?_⟩
    rw [fin_sgn hn h1 (by rw [h2]; exact h0), h2]
    have ha : numOf a ≠ 0 := fun h => h0 (by rw [h, zero_mul])
    have hb : numOf b ≠ 0 := fun h => h0 (by rw [h, mul_zero])
    rw [fin_sgn na ia ha, fin_sgn nb ib hb]
    rcases lt_or_gt_of_ne ha with h3 | h3 <;> rcases lt_or_gt_of_ne hb with h4 | h4
    · rw [decide_eq_true h3, decide_eq_true h4, decide_eq_false (not_lt.2 (mul_pos_of_neg_of_neg h3 h4).le)]; rfl
    · rw [decide_eq_true h3, decide_eq_false (not_lt.2 (le_of_lt h4)), decide_eq_true (mul_neg_of_neg_of_pos h3 h4)]; rfl
    · rw [decide_eq_false (not_lt.2 (le_of_lt h3)), decide_eq_true h4, decide_eq_true (mul_neg_of_pos_of_neg h3 h4)]; rfl
    · rw [decide_eq_false (not_lt.2 (le_of_lt h3)), decide_eq_false (not_lt.2 (le_of_lt h4)), decide_eq_false (not_lt.2 (mul_pos h3 h4).le)]; rfl

theorem inf_cls (s : Bool) : isNaN (infS s) = false ∧ isInf (infS s) = true ∧ sgn (infS s) = s := by cases s <;> exact ⟨rfl, rfl, rfl⟩

/-- an addition after an exact product is a fused operation -/
theorem add_mul {F G : Fmt} {a b c : Val} (h : ProdOk G a b) : fadd F (fmul G a b) c = ffma F a b c := by
  by_cases na : isNaN a = true
  · unfold fmul ffma fadd; simp [na, nan_q]
  by_cases nb : isNaN b = true
  · unfold fmul ffma fadd; simp [nb, nan_q]
  have na : isNaN a = false := by simpa using na
  have nb : isNaN b = false := by simpa using nb
  by_cases nc : isNaN c = true
  · unfold ffma fadd; simp [nc]
  have nc : isNaN c = false := by simpa using nc
  by_cases hi : (isInf a || isInf b) = true
  · by_cases hz : (isZero a || isZero b) = true
    · unfold fmul ffma fadd; simp only [na, nb, nc, hi, hz, Bool.or_self, if_true, Bool.false_eq_true, if_false, Bool.true_or]; simp [nan_q]
    · have hz : (isZero a || isZero b) = false := by simpa using hz
      obtain ⟨i1, i2, i3⟩ := inf_cls (xor (sgn a) (sgn b))
      have e : fmul G a b = infS (xor (sgn a) (sgn b)) := by unfold fmul; simp only [na, nb, hi, hz, Bool.or_self, Bool.false_eq_true, if_false, if_true]
      rw [e]
      unfold ffma fadd
      simp only [na, nb, nc, hi, hz, i1, i2, i3, Bool.or_self, Bool.false_eq_true, if_false, if_true, Bool.false_or]
      rw [Bool.xor_comm]
  · have ia : isInf a = false := by cases h1 : isInf a <;> simp_all
    have ib : isInf b = false := by cases h1 : isInf b <;> simp_all
    obtain ⟨m1, m2, m3, m4⟩ := mul_cases h na nb ia ib
    unfold ffma fadd
    rw [m1, m2, m3, m4]
    simp only [na, nb, nc, ia, ib, Bool.or_self, Bool.false_eq_true, if_false]

theorem fadd_comm {F : Fmt} (a b : Val) : fadd F a b = fadd F b a := by
  unfold fadd
  by_cases na : isNaN a = true
  · simp [na]
  by_cases nb : isNaN b = true
  · simp [nb]
  have na : isNaN a = false := by simpa using na
  have nb : isNaN b = false := by simpa using nb
  simp only [na, nb, Bool.or_self, Bool.false_eq_true, if_false]
  rw [Bool.and_comm (sgn a), add_comm (numOf a)]
  cases ha : isInf a <;> cases hb : isInf b <;> simp only [Bool.false_eq_true, if_false, if_true, Bool.false_and, Bool.true_and]
  cases a <;> cases b <;> simp_all [isInf] <;> rfl

theorem fneg_fneg (a : Val) : fneg (fneg a) = a := by cases a <;> simp [fneg]

theorem prodOk_neg {F : Fmt} {a b : Val} (h : ProdOk F a b) (h0 : a ≠ .num 0) (hr : roundUnb F .RN (((-numOf a * numOf b : ℚ)) : ℝ) = -roundUnb F .RN ((numOf a * numOf b : ℚ) : ℝ)) :
    ProdOk F (fneg a) b := by
  intro na nb ia ib
  obtain ⟨c1, c2, c3, c4⟩ := fneg_cls a
  rw [c1] at na
  rw [c2] at ia
  obtain ⟨h1, h2⟩ := h na nb ia ib
  have e : fmul F a b = rnd F (xor (sgn a) (sgn b)) ((numOf a * numOf b : ℚ) : ℝ) := by unfold fmul; rw [na, nb, ia, ib]; simp
  have e' : fmul F (fneg a) b = rnd F (xor (sgn (fneg a)) (sgn b)) ((-numOf a * numOf b : ℚ) : ℝ) := by
    unfold fmul; rw [c1, c2, c4, na, nb, ia, ib]; simp
  rw [e'] at *
  rw [e] at h1 h2
  rw [c4]
  unfold rnd at h1 h2 ⊢
  rw [hr]
  set x : ℚ := numOf a * numOf b
  have hx : ((-numOf a * numOf b : ℚ) : ℝ) = -((x : ℚ) : ℝ) := by rw [neg_mul, Rat.cast_neg]
  rw [hx]
  by_cases h3 : ((x : ℚ) : ℝ) = 0
  · have h3' : x = 0 := by exact_mod_cast h3
    have : numOf a * numOf b = 0 := h3'
    rw [if_pos (by rw [h3, neg_zero]), neg_mul, this]
    refine ⟨?_, ?_⟩
    · cases (xor (sgn (fneg a)) (sgn b)) <;> rfl
    · cases (xor (sgn (fneg a)) (sgn b)) <;> simp [zeroS, numOf]
  rw [if_neg h3] at h1 h2
  rw [if_neg (by simpa using h3)]
  by_cases h4 : roundUnb F .RN ((x : ℚ) : ℝ) = 0
  · rw [if_pos h4] at h2
    exfalso
    apply h3
    have : numOf (zeroS (decide (((x : ℚ) : ℝ) < 0))) = 0 := by cases (decide (((x : ℚ) : ℝ) < 0)) <;> rfl
    rw [this] at h2
    exact_mod_cast h2.symm
  rw [if_neg h4] at h1 h2
  rw [if_neg (by simpa using h4), abs_neg]
  by_cases h5 : |roundUnb F .RN ((x : ℚ) : ℝ)| ≤ Float.omega F
  · rw [if_pos h5] at h2 ⊢
    refine ⟨rfl, ?_⟩
    have : roundUnb F .RN ((x : ℚ) : ℝ) = x := h2
    show -roundUnb F .RN ((x : ℚ) : ℝ) = _
    rw [this, neg_mul]
  · rw [if_neg h5] at h1
    exfalso
    rw [(inf_cls _).2.1] at h1
    exact absurd h1 (by decide)

/-- a subtraction of an exact product is a fused operation -/
theorem sub_mul' {F G : Fmt} {a b c : Val} (h : ProdOk G a b) (h0 : a ≠ .num 0) : fsub F c (fmul G a b) = ffma F (fneg a) b c := by
  have hr : roundUnb G .RN (((-numOf a * numOf b : ℚ)) : ℝ) = -roundUnb G .RN ((numOf a * numOf b : ℚ) : ℝ) := by
    rw [← ru_neg]; congr 1; push_cast; ring
  have hneg := prodOk_neg h h0 hr
  rw [← add_mul (G := G) hneg, fadd_comm]
  unfold fsub
  congr 1
  -- the product of the opposite
  obtain ⟨c1, c2, c3, c4⟩ := fneg_cls a
  by_cases na : isNaN a = true
  · unfold fmul; rw [c1]; simp [na, fneg]
  by_cases nb : isNaN b = true
  · unfold fmul; simp [nb, fneg]
  have na : isNaN a = false := by simpa using na
  have nb : isNaN b = false := by simpa using nb
  have hs := sgn_fneg na h0
  unfold fmul
  rw [c1, c2, c3, c4, hs]
  simp only [na, nb, Bool.or_self, Bool.false_eq_true, if_false]
  by_cases hi : (isInf a || isInf b) = true
  · rw [if_pos hi, if_pos hi]
    split_ifs
    · rfl
    · cases sgn a <;> cases sgn b <;> rfl
  · rw [if_neg hi, if_neg hi]
    have hx : ((-numOf a * numOf b : ℚ) : ℝ) = -((numOf a * numOf b : ℚ) : ℝ) := by push_cast; ring
    unfold rnd
    rw [hr, hx, abs_neg]
    by_cases h3 : ((numOf a * numOf b : ℚ) : ℝ) = 0
    · rw [if_pos h3, if_pos (by rw [h3, neg_zero])]
      cases sgn a <;> cases sgn b <;> rfl
    rw [if_neg h3, if_neg (neg_ne_zero.2 h3)]
    have hlt : decide (-((numOf a * numOf b : ℚ) : ℝ) < 0) = !decide (((numOf a * numOf b : ℚ) : ℝ) < 0) := by
      rcases lt_or_gt_of_ne h3 with h | h
      · simp only [neg_lt_zero]; rw [decide_eq_false (not_lt.2 h.le), decide_eq_true h]; rfl
      · simp only [neg_lt_zero]; rw [decide_eq_true (show (0 : ℝ) < ((numOf a * numOf b : ℚ) : ℝ) from h), decide_eq_false (not_lt.2 (le_of_lt h))]; rfl
    rw [hlt]
    simp only [neg_eq_zero]
    split_ifs
    · cases decide (((numOf a * numOf b : ℚ) : ℝ) < 0) <;> rfl
    · rfl
    · cases decide (((numOf a * numOf b : ℚ) : ℝ) < 0) <;> rfl

end Verif.Fuse
