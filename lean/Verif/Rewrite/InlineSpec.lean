import Verif.Rewrite.Spec
import Mathlib.Logic.Function.Basic

/-! # Specification: what a function scheme computes

A function scheme is a graph of expressions (variables and operations) and statements (return, assignment, sequence, condition, loop).
A variable is identified by its node. -/

namespace Verif.Rewrite.Inline

/-- Operation of a node; `F` is the set of expression operations (a constant is an operation without inputs). -/
inductive Op (F : Type) where
  | var
  | fn (f : F)
  | ret
  | assign
  | seq
  | ite
  | loop
deriving DecidableEq, Repr

variable {F V : Type}

/-- Meaning of the expression operations and of a value used as a condition. -/
structure Sem (F V : Type) where
  den : F → List V → V
  truth : V → Prop

/-- value of an expression in the store `σ` -/
inductive EvalE (S : Sem F V) (h : Heap (Op F)) (σ : ℕ → V) : ℕ → V → Prop
  | var (n : ℕ) (ins : List ℕ) : h[n]? = some ⟨.var, ins⟩ → EvalE S h σ n (σ n)
  | fn (n : ℕ) (f : F) (ins : List ℕ) (vs : List V) : h[n]? = some ⟨.fn f, ins⟩ → vs.length = ins.length →
      (∀ (i m : ℕ) (v : V), ins[i]? = some m → vs[i]? = some v → EvalE S h σ m v) → EvalE S h σ n (S.den f vs)

/-- what is executed: a statement, a list of statements, or a loop at its condition -/
inductive Code where
  | stm (n : ℕ)
  | blk (ns : List ℕ)
  | whl (c b : ℕ)

/-- Execution from a store to a store and, when the function returns, its value. -/
inductive Exec (S : Sem F V) (h : Heap (Op F)) : (ℕ → V) → Code → (ℕ → V) × Option V → Prop
  | exprVar (σ : ℕ → V) (n : ℕ) (ins : List ℕ) : h[n]? = some ⟨.var, ins⟩ → Exec S h σ (.stm n) (σ, none)
  | exprFn (σ : ℕ → V) (n : ℕ) (f : F) (ins : List ℕ) : h[n]? = some ⟨.fn f, ins⟩ → Exec S h σ (.stm n) (σ, none)
  | ret (σ : ℕ → V) (n a : ℕ) (v : V) : h[n]? = some ⟨.ret, [a]⟩ → EvalE S h σ a v → Exec S h σ (.stm n) (σ, some v)
  | assign (σ : ℕ → V) (n x a : ℕ) (v : V) (ins : List ℕ) : h[n]? = some ⟨.assign, [x, a]⟩ → h[x]? = some ⟨.var, ins⟩ →
      EvalE S h σ a v → Exec S h σ (.stm n) (Function.update σ x v, none)
  | seq (σ : ℕ → V) (n : ℕ) (ms : List ℕ) (o : (ℕ → V) × Option V) : h[n]? = some ⟨.seq, ms⟩ → Exec S h σ (.blk ms) o →
      Exec S h σ (.stm n) o
  | nil (σ : ℕ → V) : Exec S h σ (.blk []) (σ, none)
  | cons (σ σ1 : ℕ → V) (m : ℕ) (ms : List ℕ) (o : (ℕ → V) × Option V) : Exec S h σ (.stm m) (σ1, none) →
      Exec S h σ1 (.blk ms) o → Exec S h σ (.blk (m :: ms)) o
  | consRet (σ σ1 : ℕ → V) (m : ℕ) (ms : List ℕ) (v : V) : Exec S h σ (.stm m) (σ1, some v) →
      Exec S h σ (.blk (m :: ms)) (σ1, some v)
  | iteThen (σ : ℕ → V) (n c t : ℕ) (es : List ℕ) (v : V) (o : (ℕ → V) × Option V) : h[n]? = some ⟨.ite, c :: t :: es⟩ →
      EvalE S h σ c v → S.truth v → Exec S h σ (.stm t) o → Exec S h σ (.stm n) o
  | iteElse (σ : ℕ → V) (n c t e : ℕ) (v : V) (o : (ℕ → V) × Option V) : h[n]? = some ⟨.ite, [c, t, e]⟩ →
      EvalE S h σ c v → ¬ S.truth v → Exec S h σ (.stm e) o → Exec S h σ (.stm n) o
  | iteSkip (σ : ℕ → V) (n c t : ℕ) (v : V) : h[n]? = some ⟨.ite, [c, t]⟩ → EvalE S h σ c v → ¬ S.truth v →
      Exec S h σ (.stm n) (σ, none)
  | loop (σ σ1 : ℕ → V) (n i c b : ℕ) (o : (ℕ → V) × Option V) : h[n]? = some ⟨.loop, [i, c, b]⟩ →
      Exec S h σ (.stm i) (σ1, none) → Exec S h σ1 (.whl c b) o → Exec S h σ (.stm n) o
  | whlDone (σ : ℕ → V) (c b : ℕ) (v : V) : EvalE S h σ c v → ¬ S.truth v → Exec S h σ (.whl c b) (σ, none)
  | whlStep (σ σ1 : ℕ → V) (c b : ℕ) (v : V) (o : (ℕ → V) × Option V) : EvalE S h σ c v → S.truth v →
      Exec S h σ (.stm b) (σ1, none) → Exec S h σ1 (.whl c b) o → Exec S h σ (.whl c b) o
  | whlRet (σ σ1 : ℕ → V) (c b : ℕ) (v w : V) : EvalE S h σ c v → S.truth v →
      Exec S h σ (.stm b) (σ1, some w) → Exec S h σ (.whl c b) (σ1, some w)

theorem EvalE.unique {S : Sem F V} {h : Heap (Op F)} {σ : ℕ → V} {n : ℕ} {v : V} (e : EvalE S h σ n v) :
    ∀ {w : V}, EvalE S h σ n w → v = w := by
  induction e with
  | var n ins hn =>
    intro w hw
    cases hw with
    | var => rfl
    | fn _ f' ins' vs' hn' => rw [hn] at hn'; cases hn'
  | fn n f ins vs hn hl hv ih =>
    intro w hw
    cases hw with
    | var _ ins' hn' => rw [hn] at hn'; cases hn'
    | fn _ f' ins' vs' hn' hl' hv' =>
      rw [hn] at hn'
      cases hn'
      congr 1
      apply List.ext_getElem?
      intro i
      by_cases hi : i < ins.length
      · have h1 : i < vs.length := by omega
        have h2 : i < vs'.length := by omega
        rw [List.getElem?_eq_getElem h1, List.getElem?_eq_getElem h2]
        congr 1
        exact ih i _ _ (List.getElem?_eq_getElem hi) (List.getElem?_eq_getElem h1)
          (hv' i _ _ (List.getElem?_eq_getElem hi) (List.getElem?_eq_getElem h2))
      · rw [List.getElem?_eq_none (by omega), List.getElem?_eq_none (by omega)]

/-- The execution of a scheme has at most one outcome. -/
theorem Exec.unique {S : Sem F V} {h : Heap (Op F)} {σ : ℕ → V} {c : Code} {o : (ℕ → V) × Option V} (e : Exec S h σ c o) :
    ∀ {o' : (ℕ → V) × Option V}, Exec S h σ c o' → o = o' := by
  induction e with
  | exprVar σ n ins hn => intro o' e'; cases e' <;> simp_all
  | exprFn σ n f ins hn => intro o' e'; cases e' <;> simp_all
  | ret σ n a v hn he =>
    intro o' e'
    cases e' with
    | ret _ _ _ _ hn' he' => rw [hn] at hn'; cases hn'; rw [he.unique he']
    | _ => simp_all
  | assign σ n x a v ins hn hx he =>
    intro o' e'
    cases e' with
    | assign _ _ _ _ _ _ hn' hx' he' => rw [hn] at hn'; cases hn'; rw [he.unique he']
    | _ => simp_all
  | seq σ n ms o hn _ ih =>
    intro o' e'
    cases e' with
    | seq _ _ _ _ hn' e' => rw [hn] at hn'; cases hn'; exact ih e'
    | _ => simp_all
  | nil σ => intro o' e'; cases e'; rfl
  | cons σ σ1 m ms o _ _ ih1 ih2 =>
    intro o' e'
    cases e' with
    | cons _ σ2 _ _ _ e1 e2 => cases ih1 e1; exact ih2 e2
    | consRet _ σ2 _ _ v e1 => cases ih1 e1
  | consRet σ σ1 m ms v _ ih =>
    intro o' e'
    cases e' with
    | cons _ σ2 _ _ _ e1 e2 => cases ih e1
    | consRet _ σ2 _ _ v e1 => cases ih e1; rfl
  | iteThen σ n c t es v o hn hc ht _ ih =>
    intro o' e'
    cases e' with
    | iteThen _ _ _ _ _ _ _ hn' _ _ e' => rw [hn] at hn'; cases hn'; exact ih e'
    | iteElse _ _ _ _ _ _ _ hn' hc' ht' => rw [hn] at hn'; cases hn'; rw [hc.unique hc'] at ht; exact absurd ht ht'
    | iteSkip _ _ _ _ _ hn' hc' ht' => rw [hn] at hn'; cases hn'; rw [hc.unique hc'] at ht; exact absurd ht ht'
    | _ => simp_all
  | iteElse σ n c t e v o hn hc ht _ ih =>
    intro o' e'
    cases e' with
    | iteThen _ _ _ _ _ _ _ hn' hc' ht' => rw [hn] at hn'; cases hn'; rw [hc.unique hc'] at ht; exact absurd ht' ht
    | iteElse _ _ _ _ _ _ _ hn' _ _ e' => rw [hn] at hn'; cases hn'; exact ih e'
    | _ => simp_all
  | iteSkip σ n c t v hn hc ht =>
    intro o' e'
    cases e' with
    | iteThen _ _ _ _ _ _ _ hn' hc' ht' => rw [hn] at hn'; cases hn'; rw [hc.unique hc'] at ht; exact absurd ht' ht
    | _ => simp_all
  | loop σ σ1 n i c b o hn _ _ ih1 ih2 =>
    intro o' e'
    cases e' with
    | loop _ _ _ _ _ _ _ hn' e1 e2 => rw [hn] at hn'; cases hn'; cases ih1 e1; exact ih2 e2
    | _ => simp_all
  | whlDone σ c b v hc ht =>
    intro o' e'
    cases e' with
    | whlDone => rfl
    | whlStep _ _ _ _ _ _ hc' ht' => rw [hc.unique hc'] at ht; exact absurd ht' ht
    | whlRet _ _ _ _ _ _ hc' ht' => rw [hc.unique hc'] at ht; exact absurd ht' ht
  | whlStep σ σ1 c b v o hc ht _ _ ih1 ih2 =>
    intro o' e'
    cases e' with
    | whlDone _ _ _ _ hc' ht' => rw [hc.unique hc'] at ht; exact absurd ht ht'
    | whlStep _ _ _ _ _ _ _ _ e1 e2 => cases ih1 e1; exact ih2 e2
    | whlRet _ _ _ _ _ _ _ _ e1 => cases ih1 e1
  | whlRet σ σ1 c b v w hc ht _ ih =>
    intro o' e'
    cases e' with
    | whlDone _ _ _ _ hc' ht' => rw [hc.unique hc'] at ht; exact absurd ht ht'
    | whlStep _ _ _ _ _ _ _ _ e1 _ => cases ih e1
    | whlRet _ _ _ _ _ _ _ _ e1 => cases ih e1; rfl

/-- All inputs exist, there is no cycle, and a return statement has its value. -/
def Scheme (h : Heap (Op F)) : Prop :=
  ∃ rank : ℕ → ℕ, ∀ n nd, h[n]? = some nd → (∀ m ∈ nd.ins, m < h.length ∧ rank m < rank n) ∧ (nd.op = .ret → nd.ins.length = 1)

/-- no return statement at or below the node -/
def NoReturn (h : Heap (Op F)) (n : ℕ) : Prop := ∀ k nd, Below h n k → h[k]? = some nd → nd.op ≠ .ret

/-- Every path ends with a return statement, and there is no other. -/
inductive ReturnsLast (h : Heap (Op F)) : ℕ → Prop
  | ret (n a : ℕ) : h[n]? = some ⟨.ret, [a]⟩ → ReturnsLast h n
  | seq (n : ℕ) (pre : List ℕ) (last : ℕ) : h[n]? = some ⟨.seq, pre ++ [last]⟩ → (∀ m ∈ pre, NoReturn h m) → ReturnsLast h last →
      ReturnsLast h n
  | ite (n c t e : ℕ) : h[n]? = some ⟨.ite, [c, t, e]⟩ → ReturnsLast h t → ReturnsLast h e → ReturnsLast h n

end Verif.Rewrite.Inline
