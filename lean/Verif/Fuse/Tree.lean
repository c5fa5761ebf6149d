import Verif.Fuse.Theorems

/-! # C84: the fusion of whole expressions, rounded -/

namespace Verif.Fuse

open Verif.Float (Fmt Val)
open Verif.Check
open Verif.Elem

theorem zeroS_ne (s : Bool) : zeroS s ≠ .num 0 := by cases s <;> (intro h; cases h)

theorem infS_ne (s : Bool) : infS s ≠ .num 0 := by cases s <;> (intro h; cases h)

theorem rnd_ne (F : Fmt) (s : Bool) (x : ℝ) : rnd F s x ≠ .num 0 := by
  unfold rnd
  split_ifs with h1 h2 h3
  · exact zeroS_ne _
  · exact zeroS_ne _
  · intro h; injection h; contradiction
  · exact infS_ne _

theorem inf_ne {a : Val} (h : isInf a = true) : a ≠ .num 0 := by rintro rfl; cases h

theorem fneg_ne {a : Val} (h : a ≠ .num 0) : fneg a ≠ .num 0 := by
  intro h2; apply h; rw [← fneg_fneg a, h2]; simp [fneg]

theorem fmul_ne (F : Fmt) (a b : Val) : fmul F a b ≠ .num 0 := by
  unfold fmul
  split_ifs <;> first | exact rnd_ne _ _ _ | exact infS_ne _ | (intro h; cases h)

theorem fadd_ne (F : Fmt) (a b : Val) : fadd F a b ≠ .num 0 := by
  unfold fadd
  split_ifs <;> first | exact rnd_ne _ _ _ | exact infS_ne _ | (apply inf_ne; assumption) | (intro h; cases h)

theorem fsub_ne (F : Fmt) (a b : Val) : fsub F a b ≠ .num 0 := fadd_ne _ _ _

theorem ffma_ne (F : Fmt) (a b c : Val) : ffma F a b c ≠ .num 0 := by
  unfold ffma
  split_ifs <;> first | exact rnd_ne _ _ _ | exact infS_ne _ | (apply inf_ne; assumption) | (intro h; cases h)

theorem fmaC_ne (F : Fmt) (s : Spec) (a b c : Val) : fmaC F s a b c ≠ .num 0 := by
  cases s <;> unfold fmaC <;> first | exact ffma_ne _ _ _ _ | exact fneg_ne (ffma_ne _ _ _ _)

/-- zeros are signed -/
theorem evalF_ne {env : ℕ → Val} {o1 : ℕ → Prec → Val → Val} {o2 : ℕ → Prec → Val → Val → Val} (h : ∀ n, env n ≠ .num 0) (h1 : ∀ f p a, o1 f p a ≠ .num 0)
    (h2 : ∀ f p a b, o2 f p a b ≠ .num 0) (e : Expr) : evalF env o1 o2 e ≠ .num 0 := by
  cases e <;> simp only [evalF]
  · exact h _
  · exact fmul_ne _ _ _
  · split_ifs
    · exact fsub_ne _ _ _
    · exact fadd_ne _ _ _
  · exact fmaC_ne _ _ _ _ _
  · exact ffma_ne _ _ _ _
  · exact h1 _ _ _
  · exact h2 _ _ _ _

/-- the four fused operations of a product and a sum -/
theorem fused {F G : Fmt} {a b c : Val} (h : ProdOk G a b) (h0 : a ≠ .num 0) (s : Bool) :
    fmaC F (if s then .subtract else .standard) a b c = (if s then fsub F (fmul G a b) c else fadd F (fmul G a b) c) ∧
    fmaC F (if s then .subtractNegate else .standard) a b c = (if s then fsub F c (fmul G a b) else fadd F c (fmul G a b)) := by
  cases s
  · exact ⟨(add_mul h).symm, by rw [fadd_comm]; exact (add_mul h).symm⟩
  · exact ⟨(add_mul h).symm, (sub_mul' h h0).symm⟩

/-- C84: when every product of an expression is exact in its format, the fusion leaves the computed value of the expression unchanged, including the infinities, the NaN and the sign of the zeros -/
theorem C84_fuse_rounded (env : ℕ → Val) (o1 : ℕ → Prec → Val → Val) (o2 : ℕ → Prec → Val → Val → Val) (h : ∀ n, env n ≠ .num 0) (h1 : ∀ f p a, o1 f p a ≠ .num 0)
    (h2 : ∀ f p a b, o2 f p a b ≠ .num 0) (e : Expr) (hp : ProductsExact env o1 o2 e) : evalF env o1 o2 (fuse false e) = evalF env o1 o2 e := by
  have hne := evalF_ne h h1 h2
  induction e using fuse.induct (d := false)
  all_goals simp only [ProductsExact] at hp
  all_goals simp_all only [fuse, Bool.false_and, Bool.false_eq_true, if_false, if_true, not_false_eq_true, forall_true_left, Bool.not_true, Bool.not_false]
  all_goals simp_all only [evalF, true_and, and_true, forall_true_left]
  all_goals first
    | rfl
    | exact (fused hp.1.2.2 (hne _) _).1
    | exact (fused hp.2.2.2 (hne _) _).2

/-- the products of small integers are exact -/
example : ProductsExact (fun n => if n = 0 then .num 3 else .num 5) (fun _ _ a => a) (fun _ _ a _ => a)
    (.sum true .b64 false false (.leaf 2 .b64) (.mul .b64 false false false (.leaf 0 .b64) (.leaf 1 .b64))) := by
  refine ⟨trivial, trivial, trivial, ?_⟩
  have h : fmul (fm .b64) (.num 3) (.num 5) = .num 15 := by
    refine mul_e (F := fm .b64) (by decide) (E := 3) (M := 3) (n := 15 * 2 ^ 49) ?_ ?_ ?_ ?_ ?_ ?_ ?_ <;> norm_num [fm, Fmt.emin, Fmt.emax]
  intro _ _ _ _
  show isInf (fmul (fm .b64) (.num 3) (.num 5)) = false ∧ numOf (fmul (fm .b64) (.num 3) (.num 5)) = numOf (.num 3) * numOf (.num 5)
  rw [h]
  refine ⟨rfl, ?_⟩
  show (15 : ℚ) = 3 * 5
  norm_num

/-! ## Accuracy of one fused operation -/

theorem rnd_num {F : Fmt} {s : Bool} {x : ℝ} (h : isInf (rnd F s x) = false) : numOf (rnd F s x) = roundUnb F .RN x := by
  unfold rnd at h ⊢
  split_ifs at h ⊢ with h1 h2 h3
  · rw [h1]; simp only [roundUnb, if_true]; cases s <;> rfl
  · rw [h2]; cases decide (x < 0) <;> rfl
  · rfl
  · rw [(inf_cls _).2.1] at h; cases h

theorem rnd_nan {F : Fmt} {s : Bool} {x : ℝ} : isNaN (rnd F s x) = false := by
  unfold rnd
  split_ifs <;> first | rfl | (unfold zeroS; split_ifs <;> rfl) | (unfold infS; split_ifs <;> rfl)

theorem fmaC_num {F : Fmt} {s : Spec} {a b c : Val} (na : isNaN a = false) (nb : isNaN b = false) (nc : isNaN c = false) (ia : isInf a = false) (ib : isInf b = false)
    (ic : isInf c = false) (h : isInf (fmaC F s a b c) = false) :
    numOf (fmaC F s a b c) = roundUnb F .RN ((s.value (numOf a) (numOf b) (numOf c) : ℚ) : ℝ) := by
  have e : ∀ a b c : Val, isNaN a = false → isNaN b = false → isNaN c = false → isInf a = false → isInf b = false → isInf c = false → isInf (ffma F a b c) = false →
      numOf (ffma F a b c) = roundUnb F .RN ((numOf a * numOf b + numOf c : ℚ) : ℝ) := by
    intro a b c na nb nc ia ib ic h
    unfold ffma at h ⊢
    simp only [na, nb, nc, ia, ib, ic, Bool.or_self, Bool.false_eq_true, if_false] at h ⊢
    exact rnd_num h
  cases s
  · exact e _ _ _ na nb nc ia ib ic h
  · have := e a b (fneg c) na nb (by rw [(fneg_cls c).1, nc]) ia ib (by rw [(fneg_cls c).2.1, ic]) h
    rw [(fneg_cls c).2.2.2] at this
    rw [Spec.value, sub_eq_add_neg]
    exact this
  · have h' : isInf (ffma F a b c) = false := by rw [← (fneg_cls _).2.1]; exact h
    show numOf (fneg (ffma F a b c)) = _
    rw [(fneg_cls _).2.2.2, e _ _ _ na nb nc ia ib ic h', ← ru_neg]
    congr 1
    simp only [Spec.value]
    push_cast; ring
  · have := e (fneg a) b c (by rw [(fneg_cls a).1, na]) nb nc (by rw [(fneg_cls a).2.1, ia]) ib ic h
    rw [(fneg_cls a).2.2.2] at this
    rw [show Spec.subtractNegate.value (numOf a) (numOf b) (numOf c) = -numOf a * numOf b + numOf c by simp [Spec.value]]
    exact this

theorem fm_f (p : Prec) : 1 ≤ (fm p).f := by cases p <;> simp [fm]

/-- C84: the number a fused operation computes is the nearest to its exact value, ties to even, unless it overflows; and its lowering to the standard operation and to negations computes the same
value, whatever the operands -/
theorem C84_fused_operation (env : ℕ → Val) (o1 : ℕ → Prec → Val → Val) (o2 : ℕ → Prec → Val → Val → Val) (s : Spec) (p : Prec) (ex : Bool) (a b c : Expr) :
    ((∀ x ∈ [a, b, c], isNaN (evalF env o1 o2 x) = false ∧ isInf (evalF env o1 o2 x) = false) → isInf (evalF env o1 o2 (.fma s p ex a b c)) = false →
      NearestEven (fm p) ((s.value (numOf (evalF env o1 o2 a)) (numOf (evalF env o1 o2 b)) (numOf (evalF env o1 o2 c)) : ℚ) : ℝ) (numOf (evalF env o1 o2 (.fma s p ex a b c)))) ∧
    ((∀ q v, o1 0 q v = fneg v) → evalF env o1 o2 (toStd s p a b c) = evalF env o1 o2 (.fma s p ex a b c)) := by
  refine ⟨fun h hi => ?_, fun h => ?_⟩
  · have ha := h a (by simp)
    have hb := h b (by simp)
    have hc := h c (by simp)
    simp only [evalF] at hi ⊢
    rw [fmaC_num ha.1 hb.1 hc.1 ha.2 hb.2 hc.2 hi]
    exact rn_nearest (fm_f p) _
  · cases s <;> simp only [toStd, evalF, fmaC, h]

example : Spec.negate.value (2 : ℚ) 3 4 = -10 := by norm_num [Spec.value]

theorem fin_round {F : Fmt} {x : ℝ} {v r w : ℚ} (hf : 1 ≤ F.f) (hv : v = roundUnb F .RN x) (hw : Unbounded F w) : |(v : ℝ) - x| ≤ |(w : ℝ) - x| := by
  rw [hv, abs_sub_comm, abs_sub_comm (w : ℝ)]
  exact (rn_nearest hf x).2.1 w hw

/-- C84: where the fusion replaces a product and a sum of three finite numbers, the new result is at least as near to the exact value as the old one (when neither overflows) -/
theorem C84_fuse_accuracy (env : ℕ → Val) (o1 : ℕ → Prec → Val → Val) (o2 : ℕ → Prec → Val → Val → Val) (hfin : ∀ n, isNaN (env n) = false ∧ isInf (env n) = false)
    (s left n g m ex : Bool) (p : Prec) (e : Expr)
    (he : e = if left then .sum s p false ex (.mul p n g m (.leaf 0 p) (.leaf 1 p)) (.leaf 2 p) else .sum s p false ex (.leaf 2 p) (.mul p n g m (.leaf 0 p) (.leaf 1 p)))
    (h1 : isInf (evalF env o1 o2 e) = false) (h2 : isInf (evalF env o1 o2 (fuse false e)) = false) (hN : isNaN (evalF env o1 o2 e) = false) :
    |(numOf (evalF env o1 o2 (fuse false e)) : ℝ) - (e.exact (fun n => numOf (env n)) (fun _ a => a) (fun _ a _ => a) : ℚ)| ≤
      |(numOf (evalF env o1 o2 e) : ℝ) - (e.exact (fun n => numOf (env n)) (fun _ a => a) (fun _ a _ => a) : ℚ)| := by
  have hsum : ∀ (s : Bool) (F : Fmt) (a b : Val), isNaN (if s then fsub F a b else fadd F a b) = false → isInf (if s then fsub F a b else fadd F a b) = false →
      Unbounded F (numOf (if s then fsub F a b else fadd F a b)) := by
    have hadd : ∀ (F : Fmt) (a b : Val), isNaN (fadd F a b) = false → isInf (fadd F a b) = false → Unbounded F (numOf (fadd F a b)) := by
      intro F a b hn hi
      unfold fadd at hn hi ⊢
      split_ifs at hn hi ⊢ with h1 h2 h3 h4
      · cases hn
      · cases hn
      · rw [h2] at hi; cases hi
      · rw [h4] at hi; cases hi
      · rw [rnd_num hi]; exact roundUnb_unb _ _ _
    intro s F a b hn hi
    cases s
    · exact hadd F a b hn hi
    · exact hadd F a (fneg b) hn hi
  have f0 := hfin 0
  have f1 := hfin 1
  have f2 := hfin 2
  cases left <;> simp only [Bool.false_eq_true, if_false, if_true] at he <;> subst he <;> simp only [fuse, Bool.false_eq_true, if_false] at h2 ⊢
  all_goals by_cases hg : g = true
  all_goals try (rw [if_pos hg])
  all_goals rw [if_neg hg] at h2 ⊢
  all_goals by_cases hn : (!n) = true
  all_goals try (rw [if_neg hn])
  all_goals rw [if_pos hn] at h2 ⊢
  all_goals (
    simp only [evalF] at h1 h2 hN ⊢
    refine fin_round (F := fm p) (r := 0) (fm_f p) ?_ (hsum s _ _ _ hN h1)
    rw [fmaC_num f0.1 f1.1 f2.1 f0.2 f1.2 f2.2 h2]
    congr 2
    cases s <;> simp [Expr.exact, Spec.value] <;> ring)

/-- three finite numbers -/
example : ∀ n : ℕ, isNaN ((fun n => if n = 0 then Val.num 3 else .num 5) n) = false ∧ isInf ((fun n => if n = 0 then Val.num 3 else .num 5) n) = false := by
  intro n; by_cases h : n = 0 <;> simp [h, isNaN, isInf]

/-! ## Support by the C backend -/

/-- the products and the sums are floating-point ones -/
def FloatSums : Expr → Prop
  | .leaf _ _ => True
  | .mul _ _ _ _ a b => FloatSums a ∧ FloatSums b
  | .sum _ p _ _ a b => (p = .b32 ∨ p = .b64) ∧ FloatSums a ∧ FloatSums b
  | .fma _ _ _ a b c => FloatSums a ∧ FloatSums b ∧ FloatSums c
  | .dot _ _ _ a b c d => FloatSums a ∧ FloatSums b ∧ FloatSums c ∧ FloatSums d
  | .op1 _ _ a => FloatSums a
  | .op2 _ _ a b => FloatSums a ∧ FloatSums b

theorem fuse_prec (d : Bool) (e : Expr) : prec (fuse d e) = prec e := by
  induction e using fuse.induct (d := d) <;> simp only [fuse, prec] <;> split_ifs <;> rfl

theorem prec_mul (p : Prec) (n g m : Bool) (a b : Expr) : prec (.mul p n g m a b) = p := rfl

/-- C84 (partial): an expression the C backend supports is still supported after the fusion without dot products, provided its sums are floating-point ones; the integer sums are missing:
`C84_integer_wrong` -/
theorem C84_supported_partial (e : Expr) (hs : supported e = true) (hf : FloatSums e) : supported (fuse false e) = true := by
  induction e using fuse.induct (d := false)
  all_goals simp only [FloatSums] at hf
  all_goals simp_all only [fuse, supported, Bool.false_and, Bool.false_eq_true, if_false, if_true, not_false_eq_true, Bool.and_eq_true, decide_eq_true_eq, fuse_prec, prec_mul]
  all_goals simp_all [prec_mul, supported, fuse_prec]
  all_goals first
    | exact hs.1.1
    | exact ⟨of_decide_eq_true hs.1.1.1, hs.1.1.2⟩
    | exact ⟨of_decide_eq_true hs.1.1.2, hs.1.1.1⟩
    | exact hs.1.1.1
    | exact hs.1.1.2
    | exact of_decide_eq_true hs.1.1.1
    | exact of_decide_eq_true hs.1.1.2

example : supported (.sum false .b64 false false (.mul .b64 false false false (.leaf 1 .b64) (.leaf 2 .b64)) (.leaf 0 .b64)) = true ∧
    FloatSums (.sum false .b64 false false (.mul .b64 false false false (.leaf 1 .b64) (.leaf 2 .b64)) (.leaf 0 .b64)) := by
  refine ⟨by decide, Or.inr rfl, ⟨trivial, trivial⟩, trivial⟩

/-- C84: the fusion of an integer sum, that the C backend supports, is not supported -/
theorem C84_integer_wrong (n : ℕ) : ∃ e, supported e = true ∧ supported (fuse false e) = false ∧ prec e = .int n :=
  ⟨.sum false (.int n) false false (.mul (.int n) false false false (.leaf 1 (.int n)) (.leaf 2 (.int n))) (.leaf 0 (.int n)), by simp [supported, prec], by simp [supported, fuse, prec], rfl⟩

/-- C84: with the dot products enabled every sum of two products that may be optimised becomes an operation no backend supports -/
theorem C84_dot_wrong (s ex m0 m1 : Bool) (p p0 p1 : Prec) (a b c d : Expr) :
    supported (fuse true (.sum s p false ex (.mul p0 false false m0 a b) (.mul p1 false false m1 c d))) = false := by
  simp [fuse, supported]

example : supported (.sum true .b32 false false (.mul .b32 false false false (.leaf 0 .b32) (.leaf 1 .b32)) (.mul .b32 false false false (.leaf 2 .b32) (.leaf 3 .b32))) = true := by decide

/-! ## The splitting of a number in two halves -/

theorem rnd_exact {F : Fmt} (he : 2 ≤ F.e) {s : Bool} {w : ℚ} (hw : Unbounded F w) (h0 : w ≠ 0) (hm : |(w : ℝ)| ≤ (2 : ℝ) ^ F.emax) : rnd F s (w : ℝ) = .num w := by
  have h1 := ru_no_over he hm
  have e := ru_exact hw
  unfold rnd
  rw [e] at h1 ⊢
  rw [if_neg (by exact_mod_cast h0), if_neg h0, if_pos h1]

theorem fma_exact {F : Fmt} (he : 2 ≤ F.e) {a b c w : ℚ} (hv : a * b + c = w) (hw : Unbounded F w) (h0 : w ≠ 0) (hm : |(w : ℝ)| ≤ (2 : ℝ) ^ F.emax) :
    ffma F (.num a) (.num b) (.num c) = .num w := by
  unfold ffma
  simp only [isNaN, isInf, Bool.or_self, Bool.false_eq_true, if_false]
  show rnd F _ ((a * b + c : ℚ) : ℝ) = _
  rw [hv]
  exact rnd_exact he hw h0 hm

/-- the splitting with the constant 2^27 + 1 of metalibm_core/opt/ml_blocks.py:425-436 -/
def splitEnv (a : ℚ) (n : ℕ) : Val := if n = 0 then .num a else .num 134217729

theorem fused_split (o1 : ℕ → Prec → Val → Val) (o2 : ℕ → Prec → Val → Val → Val) {a : ℚ} (h0 : a ≠ 0) (ha : Unbounded (fm .b64) a) (hm : |(a : ℝ)| ≤ (2 : ℝ) ^ (996 : ℤ)) :
    evalF (splitEnv a) o1 o2 (fuse false splitHi) = .num a := by
  have he : 2 ≤ (fm .b64).e := by decide
  have hx : (fm .b64).emax = 1023 := by norm_num [fm, Fmt.emax]
  show ffma (fm .b64) (.num 134217729) (.num a) (ffma (fm .b64) (.num (-134217729)) (.num a) (.num a)) = .num a
  have e1 : ffma (fm .b64) (.num (-134217729)) (.num a) (.num a) = .num (-134217728 * a) := by
    refine fma_exact he (by ring) ?_ (by simpa using h0) ?_
    · obtain ⟨m, E, h1, h2, h3⟩ := ha
      refine ⟨-m, E + 27, by rwa [abs_neg], by omega, ?_⟩
      rw [h3, show E + 27 - ((fm .b64).f : ℤ) = E - (fm .b64).f + 27 by ring, zpow_add₀ (by norm_num : (2 : ℚ) ≠ 0)]
      push_cast; norm_num; ring
    · rw [hx, show (1023 : ℤ) = 27 + 996 by norm_num, zpow_add₀ (by norm_num : (2 : ℝ) ≠ 0)]
      push_cast
      rw [abs_mul]
      have : |(-134217728 : ℝ)| = (2 : ℝ) ^ (27 : ℤ) := by norm_num
      rw [this]
      exact mul_le_mul_of_nonneg_left hm (r2 _).le
  rw [e1]
  exact fma_exact he (by ring) ha h0 (le_trans hm (by rw [hx]; exact r2le (by norm_num)))

/-- C84: the fusion destroys the splitting of a number in two halves: the high half it returns is the number itself, whatever the number, while without the fusion the high half of 1 + 2^-52 is 1 -/
theorem C84_split_wrong (o1 : ℕ → Prec → Val → Val) (o2 : ℕ → Prec → Val → Val → Val) :
    (∀ a : ℚ, a ≠ 0 → Unbounded (fm .b64) a → |(a : ℝ)| ≤ (2 : ℝ) ^ (996 : ℤ) → evalF (splitEnv a) o1 o2 (fuse false splitHi) = .num a) ∧
    evalF (splitEnv (1 + 1 / 2 ^ 52)) o1 o2 splitHi = .num 1 := by
  refine ⟨fun a h0 ha hm => fused_split o1 o2 h0 ha hm, ?_⟩
  have he : 2 ≤ (fm .b64).e := by decide
  have e1 : fmul (fm .b64) (.num 134217729) (.num (1 + 1 / 2 ^ 52)) = .num (134217729 + 1 / 2 ^ 25) := by
    refine mul_e he (E := 27) (M := 27) (n := 134217729 * 2 ^ 25 + 1) ?_ ?_ ?_ ?_ (Or.inl ?_) ?_ ?_ <;> norm_num [fm, Fmt.emin, Fmt.emax]
  have e2 : fsub (fm .b64) (.num (1 + 1 / 2 ^ 52)) (.num (134217729 + 1 / 2 ^ 25)) = .num (-134217728 - 1 / 2 ^ 25) := by
    unfold fsub fneg fadd
    simp only [isNaN, isInf, Bool.or_self, Bool.false_eq_true, if_false]
    refine rnd_e he _ (E := 27) (M := 27) (n := -(134217728 * 2 ^ 25 + 1)) ?_ ?_ ?_ ?_ (Or.inl ?_) ?_ ?_ <;> norm_num [fm, Fmt.emin, Fmt.emax, numOf, abs_lt, le_abs]
  have e3 : fadd (fm .b64) (.num (-134217728 - 1 / 2 ^ 25)) (.num (134217729 + 1 / 2 ^ 25)) = .num 1 := by
    unfold fadd
    simp only [isNaN, isInf, Bool.or_self, Bool.false_eq_true, if_false]
    refine rnd_e he _ (E := 0) (M := 0) (n := 2 ^ 52) ?_ ?_ ?_ ?_ (Or.inl ?_) ?_ ?_ <;> norm_num [fm, Fmt.emin, Fmt.emax, numOf]
  show fadd (fm .b64) (fsub (fm .b64) (.num (1 + 1 / 2 ^ 52)) (fmul (fm .b64) (.num 134217729) (.num (1 + 1 / 2 ^ 52)))) (fmul (fm .b64) (.num 134217729) (.num (1 + 1 / 2 ^ 52))) = .num 1
  rw [e1, e2, e3]

end Verif.Fuse
