import Verif.Simplify.Model
import Mathlib.Tactic.NormNum
import Mathlib.Tactic.Linarith
import Mathlib.Tactic.Push

/-!
# Property theorems on interval-based simplification: C11
-/

namespace Verif.Simplify
open Verif.Interval (Iv)

/-- Types of nodes. -/
inductive Ty where
  | num | bool | trace
  deriving DecidableEq

/-- `HasTy e t`: the expression is well typed, of type `t`. -/
def HasTy : Expr → Ty → Prop
  | .var _ _ _, t => t = .num
  | .bvar _, t => t = .bool
  | .cst _ _, t => t = .num
  | .bcst _, t => t = .bool
  | .minOp _ _ a b, t => t = .num ∧ HasTy a .num ∧ HasTy b .num
  | .maxOp _ _ a b, t => t = .num ∧ HasTy a .num ∧ HasTy b .num
  | .mul _ _ a b, t => t = .num ∧ HasTy a .num ∧ HasTy b .num
  | .op2 _ _ _ a b, t => t = .num ∧ HasTy a .num ∧ HasTy b .num
  | .select _ _ c a b, t => t = .num ∧ HasTy c .bool ∧ HasTy a .num ∧ HasTy b .num
  | .cmp _ a b, t => t = .bool ∧ HasTy a .num ∧ HasTy b .num
  | .test _ a, t => t = .bool ∧ HasTy a .num
  | .and a b, t => t = .bool ∧ HasTy a .bool ∧ HasTy b .bool
  | .or a b, t => t = .bool ∧ HasTy a .bool ∧ HasTy b .bool
  | .not a, t => t = .bool ∧ HasTy a .bool
  | .act _, t => t = .trace
  | .stmt a b, t => t = .trace ∧ HasTy a .trace ∧ HasTy b .trace
  | .block2 p c s, t => t = .trace ∧ HasTy p .trace ∧ HasTy c .bool ∧ HasTy s .trace
  | .block3 p c s e, t => t = .trace ∧ HasTy p .trace ∧ HasTy c .bool ∧ HasTy s .trace ∧ HasTy e .trace

/-- The number `x` agrees with the attributes of its node: inside the interval if any, finite if the format is fixed-point. -/
def AttrOk (iv : Option (Iv E)) (fixed : Bool) (x : E) : Prop :=
  (∀ i, iv = some i → i.Has x) ∧ (fixed = true → ∃ q : ℚ, x = fin q)

/-- Every node of the expression agrees with its attributes in the environment. -/
def Respects (ρ : Env) : Expr → Prop
  | .var n iv f => AttrOk iv f (ρ.num n)
  | .cst x f => AttrOk none f x
  | .minOp iv f a b => AttrOk iv f (eval ρ (.minOp iv f a b)).toNum ∧ Respects ρ a ∧ Respects ρ b
  | .maxOp iv f a b => AttrOk iv f (eval ρ (.maxOp iv f a b)).toNum ∧ Respects ρ a ∧ Respects ρ b
  | .mul iv f a b => AttrOk iv f (eval ρ (.mul iv f a b)).toNum ∧ Respects ρ a ∧ Respects ρ b
  | .op2 iv f g a b => AttrOk iv f (eval ρ (.op2 iv f g a b)).toNum ∧ Respects ρ a ∧ Respects ρ b
  | .select iv f c a b => AttrOk iv f (eval ρ (.select iv f c a b)).toNum ∧ Respects ρ c ∧ Respects ρ a ∧ Respects ρ b
  | .cmp _ a b => Respects ρ a ∧ Respects ρ b
  | .test _ a => Respects ρ a
  | .and a b => Respects ρ a ∧ Respects ρ b
  | .or a b => Respects ρ a ∧ Respects ρ b
  | .not a => Respects ρ a
  | .stmt a b => Respects ρ a ∧ Respects ρ b
  | .block2 p c s => Respects ρ p ∧ Respects ρ c ∧ Respects ρ s
  | .block3 p c s t => Respects ρ p ∧ Respects ρ c ∧ Respects ρ s ∧ Respects ρ t
  | _ => True

/-- Operand values on which the decisions on tests are right: for subnormality no value below the reported bound that is not
subnormal, for infinity tests not minus infinity. -/
def TestOk : Tst → E → Prop
  | .isSubnormal m M, x => x ≤ fin M → IsSubnormal m x = true
  | .isInfty, x => x ≠ minusInf
  | .isInfOrNaN, x => x ≠ minusInf
  | _, _ => True

/-- All tests of the expression have such operand values. -/
def TestsOk (ρ : Env) : Expr → Prop
  | .minOp _ _ a b => TestsOk ρ a ∧ TestsOk ρ b
  | .maxOp _ _ a b => TestsOk ρ a ∧ TestsOk ρ b
  | .mul _ _ a b => TestsOk ρ a ∧ TestsOk ρ b
  | .op2 _ _ _ a b => TestsOk ρ a ∧ TestsOk ρ b
  | .select _ _ c a b => TestsOk ρ c ∧ TestsOk ρ a ∧ TestsOk ρ b
  | .cmp _ a b => TestsOk ρ a ∧ TestsOk ρ b
  | .test t a => TestOk t (eval ρ a).toNum ∧ TestsOk ρ a
  | .and a b => TestsOk ρ a ∧ TestsOk ρ b
  | .or a b => TestsOk ρ a ∧ TestsOk ρ b
  | .not a => TestsOk ρ a
  | .stmt a b => TestsOk ρ a ∧ TestsOk ρ b
  | .block2 p c s => TestsOk ρ p ∧ TestsOk ρ c ∧ TestsOk ρ s
  | .block3 p c s t => TestsOk ρ p ∧ TestsOk ρ c ∧ TestsOk ρ s ∧ TestsOk ρ t
  | _ => True

theorem eval_ty {ρ : Env} {e : Expr} {t : Ty} (h : HasTy e t) :
    (t = .num → eval ρ e = .num (eval ρ e).toNum) ∧ (t = .bool → eval ρ e = .bool (eval ρ e).toBool) ∧
    (t = .trace → eval ρ e = .trace (eval ρ e).toTrace) := by
  cases e <;> simp only [HasTy] at h <;> (first | subst h | (obtain ⟨rfl, -⟩ := h)) <;> simp [eval, V.toNum, V.toBool, V.toTrace]

theorem eval_num {ρ : Env} {e : Expr} (h : HasTy e .num) : V.num (eval ρ e).toNum = eval ρ e := ((eval_ty h).1 rfl).symm
theorem eval_bool {ρ : Env} {e : Expr} (h : HasTy e .bool) : V.bool (eval ρ e).toBool = eval ρ e := ((eval_ty h).2.1 rfl).symm

theorem has_interval {ρ : Env} {e : Expr} {i : Iv E} (h : Respects ρ e) (hi : interval e = some i) : i.Has (eval ρ e).toNum := by
  cases e <;> simp only [interval] at hi <;> first | (simp at hi; done) | skip
  case cst x f => simp only [Option.some.injEq] at hi; subst hi; exact ⟨le_refl _, le_refl _⟩
  case var => exact h.1 i hi
  all_goals exact h.1.1 i hi

theorem is_fixed {ρ : Env} {e : Expr} (h : Respects ρ e) (hf : isFixed e = true) : ∃ q : ℚ, (eval ρ e).toNum = fin q := by
  cases e <;> simp only [isFixed] at hf <;> first | (simp at hf; done) | skip
  case var => exact h.2 hf
  case cst => exact h.2 hf
  all_goals exact h.1.2 hf

theorem mulE_fin (p q : ℚ) : mulE (fin p) (fin q) = fin (p * q) := rfl

theorem fin_inj {p q : ℚ} : fin p = fin q ↔ p = q := by
  unfold fin; rw [WithBot.coe_inj, WithTop.coe_inj]

theorem fin_lt_top (q : ℚ) : fin q < plusInf := WithBot.coe_lt_coe.2 (WithTop.coe_lt_top q)

theorem fin_lt {p q : ℚ} : fin p < fin q ↔ p < q := by
  unfold fin; rw [WithBot.coe_lt_coe, WithTop.coe_lt_coe]

theorem fin_le {p q : ℚ} : fin p ≤ fin q ↔ p ≤ q := by
  unfold fin; rw [WithBot.coe_le_coe, WithTop.coe_le_coe]

theorem le_plusInf (x : E) : x ≤ plusInf := by
  unfold plusInf
  induction x using WithBot.recBotCoe with
  | bot => exact bot_le
  | coe y => exact WithBot.coe_le_coe.2 le_top

/-- A constant decided for a comparison is its value. -/
theorem cmpRule_sound {ρ : Env} {c : Cmp} {a b : Expr} {r : Bool} (ha : Respects ρ a) (hb : Respects ρ b)
    (h : cmpRule c a b = .always r) : r = c.sem (eval ρ a).toNum (eval ρ b).toNum := by
  unfold cmpRule at h
  cases hi : interval a with
  | none => rw [hi] at h; simp at h
  | some i =>
    cases hj : interval b with
    | none => rw [hi, hj] at h; simp at h
    | some j =>
      rw [hi, hj] at h
      obtain ⟨a1, a2⟩ := has_interval ha hi
      obtain ⟨b1, b2⟩ := has_interval hb hj
      generalize (eval ρ a).toNum = x at *
      generalize (eval ρ b).toNum = y at *
      cases c <;> simp only [reduceCtorEq] at h <;> split_ifs at h with h1 h2 <;>
        simp only [BoolVal.always.injEq, reduceCtorEq] at h <;> subst h <;> simp only [Cmp.sem]
      · exact (decide_eq_true (lt_of_le_of_lt a2 (lt_of_lt_of_le h1 b1))).symm
      · exact (decide_eq_false (not_lt.2 (le_trans b2 (le_trans h2 a1)))).symm
      · exact (decide_eq_true (le_trans a2 (le_trans h1 b1))).symm
      · exact (decide_eq_false (not_le.2 (lt_of_le_of_lt b2 (lt_of_lt_of_le h2 a1)))).symm
      · exact (decide_eq_true (lt_of_le_of_lt b2 (lt_of_lt_of_le h1 a1))).symm
      · exact (decide_eq_false (not_lt.2 (le_trans a2 (le_trans h2 b1)))).symm
      · exact (decide_eq_true (le_trans b2 (le_trans h1 a1))).symm
      · exact (decide_eq_false (not_le.2 (lt_of_le_of_lt a2 (lt_of_lt_of_le h2 b1)))).symm

theorem testRule_sound {ρ : Env} {t : Tst} {a : Expr} {r : Bool} (ha : Respects ρ a) (ht : TestOk t (eval ρ a).toNum)
    (h : testRule t a = .always r) : r = t.sem (eval ρ a).toNum := by
  unfold testRule at h
  cases hi : interval a with
  | none => rw [hi] at h; simp at h
  | some i =>
    rw [hi] at h
    obtain ⟨a1, a2⟩ := has_interval ha hi
    generalize (eval ρ a).toNum = x at *
    cases t <;> simp only [reduceCtorEq] at h <;> split_ifs at h with h1 h2 <;>
      simp only [BoolVal.always.injEq, reduceCtorEq] at h <;> subst h <;> simp only [Tst.sem]
    · symm; apply decide_eq_true; exact le_antisymm (h2.2 ▸ a2) (h2.2 ▸ (h2.1 ▸ a1))
    · symm; apply decide_eq_false; rintro rfl; exact h1 ⟨a1, a2⟩
    · rename_i m M
      symm
      unfold IsSubnormal
      apply decide_eq_false
      rintro ⟨_, _, h3⟩
      exact absurd (lt_of_le_of_lt (le_trans h1 a1) h3) (lt_irrefl _)
    · exact (ht (le_trans a2 h2)).symm
    · symm; apply decide_eq_false
      rintro (rfl | rfl)
      · exact absurd (lt_of_le_of_lt a2 h1) (lt_irrefl _)
      · exact ht rfl
    · symm; apply decide_eq_true; left; exact le_antisymm (le_plusInf x) (h2 ▸ a1)
    · symm; apply decide_eq_false
      rintro (rfl | rfl)
      · exact absurd (lt_of_le_of_lt a2 h1) (lt_irrefl _)
      · exact ht rfl
    · symm; apply decide_eq_true; left; exact le_antisymm (le_plusInf x) (h2 ▸ a1)

/-- What a simplification step must guarantee. -/
structure Ok (ρ : Env) (t : Ty) (e r : Expr) : Prop where
  value : eval ρ r = eval ρ e
  ty : HasTy r t
  resp : Respects ρ r
  tests : TestsOk ρ r

theorem toCst_ok {ρ : Env} {e r : Expr} {t : Ty} (ht : HasTy e t) (hr : Respects ρ e) (h : toCst e = some r) : Ok ρ t e r := by
  have core : ∀ i, interval e = some i → (if i.inf = i.sup then some (Expr.cst i.inf (isFixed e)) else none) = some r →
      Ok ρ t e r := by
    intro i hi h
    split_ifs at h with he
    simp only [Option.some.injEq] at h
    subst h
    have hn : t = .num := by
      cases e <;> simp only [interval] at hi <;> first | (simp at hi; done) | skip
      all_goals simp only [HasTy] at ht
      all_goals first | exact ht | exact ht.1
    subst hn
    have hv := has_interval hr hi
    have hx : (eval ρ e).toNum = i.inf := le_antisymm (he ▸ hv.2) hv.1
    refine ⟨?_, rfl, ⟨fun j hj => by simp at hj, fun hf => ?_⟩, trivial⟩
    · show V.num i.inf = eval ρ e
      rw [← hx]; exact eval_num ht
    · obtain ⟨q, hq⟩ := is_fixed hr hf
      exact ⟨q, by rw [← hx]; exact hq⟩
  unfold toCst at h
  split at h
  · simp at h
  · cases hi : interval e with
    | none => rw [hi] at h; simp at h
    | some i => rw [hi] at h; exact core i hi h

theorem nodeRule_ok {ρ : Env} {e r : Expr} {t : Ty} (ht : HasTy e t) (hr : Respects ρ e) (hs : TestsOk ρ e)
    (h : nodeRule e = some r) : Ok ρ t e r := by
  unfold nodeRule at h
  cases hc : toCst e with
  | some q =>
    rw [hc] at h
    simp only [Option.some.injEq] at h
    subst h
    exact toCst_ok ht hr hc
  | none =>
    rw [hc] at h
    dsimp only at h
    clear hc
    split at h
    · -- mul
      rename_i iv f a b
      obtain ⟨rfl, hta, htb⟩ := ht
      obtain ⟨_, hra, hrb⟩ := hr
      unfold mulRule at h
      split_ifs at h with hf
      simp only [Bool.and_eq_true] at hf
      obtain ⟨qa, hqa⟩ := is_fixed hra hf.1.1
      obtain ⟨qb, hqb⟩ := is_fixed hrb hf.1.2
      have hzero : eval ρ (.mul iv f a b) = .num (fin (qa * qb)) := by
        show V.num (mulE _ _) = _; rw [hqa, hqb, mulE_fin]
      have hokz : qa * qb = 0 → Ok ρ .num (.mul iv f a b) (.cst (fin 0) f) := fun h0 =>
        ⟨by rw [hzero, h0]; rfl, rfl, ⟨fun j hj => by simp at hj, fun _ => ⟨0, rfl⟩⟩, trivial⟩
      split at h
      · rename_i x _ _ 
        have hx : fin qa = x := by rw [← hqa]; rfl
        split_ifs at h with h1 h2
        · simp only [Option.some.injEq] at h; subst h
          apply hokz
          rw [← hx, fin_inj] at h1; rw [h1, zero_mul]
        · simp only [Option.some.injEq] at h; subst h
          rw [← hx, fin_inj] at h2
          exact ⟨by rw [hzero, h2, one_mul, ← hqb, eval_num htb], htb, hrb, hs.2⟩
      · rename_i y _ _ _ 
        have hy : fin qb = y := by rw [← hqb]; rfl
        split_ifs at h with h1 h2
        · simp only [Option.some.injEq] at h; subst h
          apply hokz
          rw [← hy, fin_inj] at h1; rw [h1, mul_zero]
        · simp only [Option.some.injEq] at h; subst h
          rw [← hy, fin_inj] at h2
          exact ⟨by rw [hzero, h2, mul_one, ← hqa, eval_num hta], hta, hra, hs.1⟩
      · simp at h
    · -- min
      rename_i iv f a b
      obtain ⟨rfl, hta, htb⟩ := ht
      obtain ⟨_, hra, hrb⟩ := hr
      unfold minRule at h
      split at h
      · rename_i i j hi hj
        obtain ⟨a1, a2⟩ := has_interval hra hi
        obtain ⟨b1, b2⟩ := has_interval hrb hj
        split_ifs at h with h1 h2 <;> simp only [Option.some.injEq] at h <;> subst h
        · refine ⟨?_, hta, hra, hs.1⟩
          show _ = V.num (min _ _)
          rw [min_eq_left (le_trans a2 (le_trans h1.le b1)), eval_num hta]
        · refine ⟨?_, htb, hrb, hs.2⟩
          show _ = V.num (min _ _)
          rw [min_eq_right (le_trans b2 (le_trans h2.le a1)), eval_num htb]
      · simp at h
    · -- max
      rename_i iv f a b
      obtain ⟨rfl, hta, htb⟩ := ht
      obtain ⟨_, hra, hrb⟩ := hr
      unfold maxRule at h
      split at h
      · rename_i i j hi hj
        obtain ⟨a1, a2⟩ := has_interval hra hi
        obtain ⟨b1, b2⟩ := has_interval hrb hj
        split_ifs at h with h1 h2 <;> simp only [Option.some.injEq] at h <;> subst h
        · refine ⟨?_, htb, hrb, hs.2⟩
          show _ = V.num (max _ _)
          rw [max_eq_right (le_trans a2 (le_trans h1.le b1)), eval_num htb]
        · refine ⟨?_, hta, hra, hs.1⟩
          show _ = V.num (max _ _)
          rw [max_eq_left (le_trans b2 (le_trans h2.le a1)), eval_num hta]
      · simp at h
    · -- cmp
      rename_i c a b
      obtain ⟨rfl, hta, htb⟩ := ht
      cases hcmp : cmpRule c a b with
      | indecisive => rw [hcmp] at h; simp [BoolVal.toExpr] at h
      | always v =>
        rw [hcmp] at h
        simp only [BoolVal.toExpr, Option.some.injEq] at h
        subst h
        exact ⟨by rw [cmpRule_sound hr.1 hr.2 hcmp]; rfl, rfl, trivial, trivial⟩
    · -- test
      rename_i tst a
      obtain ⟨rfl, hta⟩ := ht
      cases hcmp : testRule tst a with
      | indecisive => rw [hcmp] at h; simp [BoolVal.toExpr] at h
      | always v =>
        rw [hcmp] at h
        simp only [BoolVal.toExpr, Option.some.injEq] at h
        subst h
        exact ⟨congrArg V.bool (testRule_sound (ρ := ρ) (a := a) hr hs.1 hcmp), rfl, trivial, trivial⟩
    · simp only [Option.some.injEq] at h; subst h
      obtain ⟨rfl, h1, h2, h3⟩ := ht
      exact ⟨by simp [eval, V.toBool], ⟨rfl, h1, h3⟩, ⟨hr.1, hr.2.2⟩, ⟨hs.1, hs.2.2⟩⟩
    · simp only [Option.some.injEq] at h; subst h
      obtain ⟨rfl, h1, h2, h3, h4⟩ := ht
      exact ⟨by simp [eval, V.toBool], ⟨rfl, h1, h3⟩, ⟨hr.1, hr.2.2.1⟩, ⟨hs.1, hs.2.2.1⟩⟩
    · simp only [Option.some.injEq] at h; subst h
      obtain ⟨rfl, h1, h2, h3, h4⟩ := ht
      exact ⟨by simp [eval, V.toBool], ⟨rfl, h1, h4⟩, ⟨hr.1, hr.2.2.2⟩, ⟨hs.1, hs.2.2.2⟩⟩
    · -- and
      rename_i a b
      obtain ⟨rfl, hta, htb⟩ := ht
      have ea := eval_bool (ρ := ρ) hta
      have eb := eval_bool (ρ := ρ) htb
      unfold andRule at h
      split at h <;> simp only [Option.some.injEq, reduceCtorEq] at h <;> subst h
      · exact ⟨by simp [eval, V.toBool], rfl, trivial, trivial⟩
      · exact ⟨by simp [eval, V.toBool], rfl, trivial, trivial⟩
      · exact ⟨by simp [eval, V.toBool], rfl, trivial, trivial⟩
      · exact ⟨by rw [← eb]; simp [eval, V.toBool], htb, hr.2, hs.2⟩
      · exact ⟨by rw [← ea]; simp [eval, V.toBool], hta, hr.1, hs.1⟩
    · -- or
      rename_i a b
      obtain ⟨rfl, hta, htb⟩ := ht
      unfold orRule at h
      split at h <;> simp only [Option.some.injEq, reduceCtorEq] at h <;> subst h <;>
        exact ⟨by simp [eval, V.toBool], rfl, trivial, trivial⟩
    · rename_i a
      obtain ⟨rfl, hta⟩ := ht
      unfold notRule at h
      split at h <;> simp only [Option.some.injEq, reduceCtorEq] at h
      subst h
      exact ⟨by simp [eval, V.toBool], rfl, trivial, trivial⟩
    · simp at h

theorem applyRule_ok {ρ : Env} {e : Expr} {t : Ty} (ht : HasTy e t) (hr : Respects ρ e) (hs : TestsOk ρ e) :
    Ok ρ t e (applyRule e) := by
  unfold applyRule
  cases h : nodeRule e with
  | none => exact ⟨rfl, ht, hr, hs⟩
  | some r => exact nodeRule_ok ht hr hs h

theorem Ok.trans {ρ : Env} {t : Ty} {a b c : Expr} (h1 : eval ρ b = eval ρ a) (h2 : Ok ρ t b c) : Ok ρ t a c :=
  ⟨h2.value.trans h1, h2.ty, h2.resp, h2.tests⟩

theorem simp_ok {ρ : Env} : ∀ {e : Expr} {t : Ty}, HasTy e t → Respects ρ e → TestsOk ρ e → Ok ρ t e (simp e) := by
  intro e
  induction e with
  | var => intro t ht hr hs; exact applyRule_ok ht hr hs
  | bvar => intro t ht hr hs; exact applyRule_ok ht hr hs
  | cst => intro t ht hr hs; exact applyRule_ok ht hr hs
  | bcst => intro t ht hr hs; exact applyRule_ok ht hr hs
  | act => intro t ht hr hs; exact applyRule_ok ht hr hs
  | minOp iv f a b iha ihb =>
    rintro t ⟨rfl, h1, h2⟩ ⟨hr0, hr1, hr2⟩ ⟨hs1, hs2⟩
    have A := iha h1 hr1 hs1
    have B := ihb h2 hr2 hs2
    have ev : eval ρ (.minOp iv f (simp a) (simp b)) = eval ρ (.minOp iv f a b) := by simp only [eval, A.value, B.value]
    exact Ok.trans ev (applyRule_ok ⟨rfl, A.ty, B.ty⟩ ⟨ev.symm ▸ hr0, A.resp, B.resp⟩ ⟨A.tests, B.tests⟩)
  | maxOp iv f a b iha ihb =>
    rintro t ⟨rfl, h1, h2⟩ ⟨hr0, hr1, hr2⟩ ⟨hs1, hs2⟩
    have A := iha h1 hr1 hs1
    have B := ihb h2 hr2 hs2
    have ev : eval ρ (.maxOp iv f (simp a) (simp b)) = eval ρ (.maxOp iv f a b) := by simp only [eval, A.value, B.value]
    exact Ok.trans ev (applyRule_ok ⟨rfl, A.ty, B.ty⟩ ⟨ev.symm ▸ hr0, A.resp, B.resp⟩ ⟨A.tests, B.tests⟩)
  | mul iv f a b iha ihb =>
    rintro t ⟨rfl, h1, h2⟩ ⟨hr0, hr1, hr2⟩ ⟨hs1, hs2⟩
    have A := iha h1 hr1 hs1
    have B := ihb h2 hr2 hs2
    have ev : eval ρ (.mul iv f (simp a) (simp b)) = eval ρ (.mul iv f a b) := by simp only [eval, A.value, B.value]
    exact Ok.trans ev (applyRule_ok ⟨rfl, A.ty, B.ty⟩ ⟨ev.symm ▸ hr0, A.resp, B.resp⟩ ⟨A.tests, B.tests⟩)
  | op2 iv f g a b iha ihb =>
    rintro t ⟨rfl, h1, h2⟩ ⟨hr0, hr1, hr2⟩ ⟨hs1, hs2⟩
    have A := iha h1 hr1 hs1
    have B := ihb h2 hr2 hs2
    have ev : eval ρ (.op2 iv f g (simp a) (simp b)) = eval ρ (.op2 iv f g a b) := by simp only [eval, A.value, B.value]
    exact Ok.trans ev (applyRule_ok ⟨rfl, A.ty, B.ty⟩ ⟨ev.symm ▸ hr0, A.resp, B.resp⟩ ⟨A.tests, B.tests⟩)
  | select iv f c a b ihc iha ihb =>
    rintro t ⟨rfl, h0, h1, h2⟩ ⟨hr0, hrc, hr1, hr2⟩ ⟨hsc, hs1, hs2⟩
    have C := ihc h0 hrc hsc
    have A := iha h1 hr1 hs1
    have B := ihb h2 hr2 hs2
    have ev : eval ρ (.select iv f (simp c) (simp a) (simp b)) = eval ρ (.select iv f c a b) := by
      simp only [eval, A.value, B.value, C.value]
    exact Ok.trans ev (applyRule_ok ⟨rfl, C.ty, A.ty, B.ty⟩ ⟨ev.symm ▸ hr0, C.resp, A.resp, B.resp⟩ ⟨C.tests, A.tests, B.tests⟩)
  | cmp c a b iha ihb =>
    rintro t ⟨rfl, h1, h2⟩ ⟨hr1, hr2⟩ ⟨hs1, hs2⟩
    have A := iha h1 hr1 hs1
    have B := ihb h2 hr2 hs2
    have ev : eval ρ (.cmp c (simp a) (simp b)) = eval ρ (.cmp c a b) := by simp only [eval, A.value, B.value]
    exact Ok.trans ev (applyRule_ok ⟨rfl, A.ty, B.ty⟩ ⟨A.resp, B.resp⟩ ⟨A.tests, B.tests⟩)
  | test tst a iha =>
    rintro t ⟨rfl, h1⟩ hr1 ⟨hs0, hs1⟩
    have A := iha h1 hr1 hs1
    have ev : eval ρ (.test tst (simp a)) = eval ρ (.test tst a) := by simp only [eval, A.value]
    exact Ok.trans ev (applyRule_ok ⟨rfl, A.ty⟩ A.resp ⟨A.value.symm ▸ hs0, A.tests⟩)
  | and a b iha ihb =>
    rintro t ⟨rfl, h1, h2⟩ ⟨hr1, hr2⟩ ⟨hs1, hs2⟩
    have A := iha h1 hr1 hs1
    have B := ihb h2 hr2 hs2
    have ev : eval ρ (.and (simp a) (simp b)) = eval ρ (.and a b) := by simp only [eval, A.value, B.value]
    exact Ok.trans ev (applyRule_ok ⟨rfl, A.ty, B.ty⟩ ⟨A.resp, B.resp⟩ ⟨A.tests, B.tests⟩)
  | or a b iha ihb =>
    rintro t ⟨rfl, h1, h2⟩ ⟨hr1, hr2⟩ ⟨hs1, hs2⟩
    have A := iha h1 hr1 hs1
    have B := ihb h2 hr2 hs2
    have ev : eval ρ (.or (simp a) (simp b)) = eval ρ (.or a b) := by simp only [eval, A.value, B.value]
    exact Ok.trans ev (applyRule_ok ⟨rfl, A.ty, B.ty⟩ ⟨A.resp, B.resp⟩ ⟨A.tests, B.tests⟩)
  | not a iha =>
    rintro t ⟨rfl, h1⟩ hr1 hs1
    have A := iha h1 hr1 hs1
    have ev : eval ρ (.not (simp a)) = eval ρ (.not a) := by simp only [eval, A.value]
    exact Ok.trans ev (applyRule_ok ⟨rfl, A.ty⟩ A.resp A.tests)
  | stmt a b iha ihb =>
    rintro t ⟨rfl, h1, h2⟩ ⟨hr1, hr2⟩ ⟨hs1, hs2⟩
    have A := iha h1 hr1 hs1
    have B := ihb h2 hr2 hs2
    have ev : eval ρ (.stmt (simp a) (simp b)) = eval ρ (.stmt a b) := by simp only [eval, A.value, B.value]
    exact Ok.trans ev (applyRule_ok ⟨rfl, A.ty, B.ty⟩ ⟨A.resp, B.resp⟩ ⟨A.tests, B.tests⟩)
  | block2 p c s _ ihc ihs =>
    rintro t ⟨rfl, h0, h1, h2⟩ ⟨hr0, hr1, hr2⟩ ⟨hs0, hs1, hs2⟩
    have A := ihc h1 hr1 hs1
    have B := ihs h2 hr2 hs2
    have ev : eval ρ (.block2 p (simp c) (simp s)) = eval ρ (.block2 p c s) := by simp only [eval, A.value, B.value]
    exact Ok.trans ev (applyRule_ok ⟨rfl, h0, A.ty, B.ty⟩ ⟨hr0, A.resp, B.resp⟩ ⟨hs0, A.tests, B.tests⟩)
  | block3 p c s e _ ihc ihs ihe =>
    rintro t ⟨rfl, h0, h1, h2, h3⟩ ⟨hr0, hr1, hr2, hr3⟩ ⟨hs0, hs1, hs2, hs3⟩
    have A := ihc h1 hr1 hs1
    have B := ihs h2 hr2 hs2
    have C := ihe h3 hr3 hs3
    have ev : eval ρ (.block3 p (simp c) (simp s) (simp e)) = eval ρ (.block3 p c s e) := by
      simp only [eval, A.value, B.value, C.value]
    exact Ok.trans ev (applyRule_ok ⟨rfl, h0, A.ty, B.ty, C.ty⟩ ⟨hr0, A.resp, B.resp, C.resp⟩ ⟨hs0, A.tests, B.tests, C.tests⟩)

/-- C11: simplifying any well-typed expression keeps its value in every environment respecting the intervals.  Missing for the
full claim: `IsSubnormal` tests on values that are below the reported bound without being subnormal (zero, negative numbers,
the smallest normal number), and infinity tests on minus infinity, on which the code is wrong (below). -/
theorem C11_simplify_partial (ρ : Env) (e : Expr) (t : Ty) (ht : HasTy e t) (hr : Respects ρ e) (hs : TestsOk ρ e) :
    eval ρ (simp e) = eval ρ e := (simp_ok ht hr hs).value

/-- C11 without any restriction for expressions that contain no subnormal and no infinity test. -/
theorem C11_comparisons_min_max (ρ : Env) (e : Expr) (t : Ty) (ht : HasTy e t) (hr : Respects ρ e)
    (hno : ∀ ρ' , TestsOk ρ' e) : eval ρ (simp e) = eval ρ e := (simp_ok ht hr (hno ρ)).value

/-- x in [0,2], y in [3,4]: Min(x, y) becomes x, and the comparison x < y becomes true, so that the block keeps its first branch. -/
def exBlock : Expr :=
  .block3 (.act 0) (.cmp .lt (.minOp none false (.var 0 (some ⟨fin 0, fin 2⟩) false) (.var 1 (some ⟨fin 3, fin 4⟩) false))
    (.var 1 (some ⟨fin 3, fin 4⟩) false)) (.act 1) (.act 2)

example : simp exBlock = .stmt (.act 0) (.act 1) := by
  simp [exBlock, simp, applyRule, nodeRule, toCst, interval, minRule, cmpRule, fin_lt, fin_inj, BoolVal.toExpr]
  norm_num [fin_lt, fin_inj]

example : HasTy exBlock .trace ∧ (∀ ρ, TestsOk ρ exBlock) ∧
    Respects ⟨fun n => if n = 0 then fin 1 else fin 3, fun _ => true⟩ exBlock := by
  refine ⟨by simp [exBlock, HasTy], fun ρ => by simp [exBlock, TestsOk], ?_⟩
  simp [exBlock, Respects, AttrOk, Iv.Has, fin_le]
  norm_num

/-- C11 fails for `IsSubnormal`: in every format, for every interval bounded above by the reported bound and starting below the
smallest normal number, the test becomes true, also for the negative normal numbers, zero and the smallest normal number it may
contain. -/
theorem C11_subnormal_wrong (m M : ℚ) (hm : 0 < m) (hM : m ≤ M) (x : ℚ) (hx : x ≤ -m ∨ x = 0 ∨ x = m) :
    ∃ e : Expr, ∃ ρ : Env, HasTy e .bool ∧ Respects ρ e ∧ eval ρ e = .bool false ∧ eval ρ (simp e) = .bool true := by
  have hxm : x ≤ m := by rcases hx with h | h | h <;> linarith
  refine ⟨.test (.isSubnormal m M) (.var 0 (some ⟨fin (x - 1 - m), fin M⟩) false), ⟨fun _ => fin x, fun _ => true⟩,
    ⟨rfl, rfl⟩, ⟨?_, by simp⟩, ?_, ?_⟩
  · intro i hi
    simp only [Option.some.injEq] at hi
    subst hi
    exact ⟨fin_le.2 (by linarith), fin_le.2 (by linarith)⟩
  · simp only [eval, Tst.sem, IsSubnormal, V.toNum, V.bool.injEq]
    apply decide_eq_false
    rintro ⟨h1, h2, h3⟩
    rw [fin_lt] at h2 h3
    rcases hx with h | h | h
    · linarith
    · exact h1 (by rw [h])
    · linarith
  · have h1 : ¬ (x - 1 - m = M) := by intro h; linarith
    have h2 : ¬ (m ≤ x - 1 - m) := by intro h; linarith
    simp [simp, applyRule, nodeRule, toCst, interval, testRule, fin_inj, fin_le, h1, h2, BoolVal.toExpr, eval]

example : (0 : ℚ) < 2 ^ (-126 : ℤ) ∧ (2 : ℚ) ^ (-126 : ℤ) ≤ 2 ^ (-126 : ℤ) * (1 + 2 ^ (-23 : ℤ)) := by norm_num

/-- C11 fails for infinity tests: an interval starting at minus infinity whose upper bound is finite makes the test false,
although the operand may be minus infinity. -/
theorem C11_minus_infinity_wrong (b : ℚ) : ∃ e : Expr, ∃ ρ : Env, HasTy e .bool ∧ Respects ρ e ∧
    eval ρ e = .bool true ∧ eval ρ (simp e) = .bool false := by
  refine ⟨.test .isInfty (.var 0 (some ⟨minusInf, fin b⟩) false), ⟨fun _ => minusInf, fun _ => true⟩, ⟨rfl, rfl⟩, ⟨?_, by simp⟩,
    ?_, ?_⟩
  · intro i hi
    simp only [Option.some.injEq] at hi
    subst hi
    exact ⟨le_refl _, bot_le⟩
  · simp [eval, Tst.sem, V.toNum]
  · have h1 : ¬ (minusInf = fin b) := by
      intro h; exact absurd h.symm (WithBot.coe_ne_bot)
    simp [simp, applyRule, nodeRule, toCst, interval, testRule, h1, fin_lt_top, BoolVal.toExpr, eval]

end Verif.Simplify
