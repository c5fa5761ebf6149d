import Verif.Legal.Bits
import Mathlib.Analysis.SpecialFunctions.Pow.Real
import Mathlib.Analysis.SpecialFunctions.Sqrt
import Mathlib.Tactic.FieldSimp

/-!
# C53: evaluation of constant graphs; C56: seeds
-/

namespace Verif.Legal

/-! ## C53 -/

/-- Operation graphs, unfolded; `id` identifies the node object. -/
inductive Node where
  /-- a Python number used as an operand -/
  | lit (v : ℚ)
  | cst (id : ℕ) (v : ℚ)
  | add (id : ℕ) (a b : Node)
  | sub (id : ℕ) (a b : Node)
  | mul (id : ℕ) (a b : Node)
  | div (id : ℕ) (a b : Node)
  | max (id : ℕ) (a b : Node)
  | min (id : ℕ) (a b : Node)
  | neg (id : ℕ) (a : Node)
  | pos (id : ℕ) (int frac p : ℤ) (al : Align)
  | call (id : ℕ) (f : ℕ) (a : Node)
  | var (id : ℕ)
  /-- any other operation, with any semantics -/
  | other (id : ℕ) (op : ℕ) (a b : Node)

def Node.id : Node → Option ℕ
  | .lit _ => none
  | .cst i _ | .add i _ _ | .sub i _ _ | .mul i _ _ | .div i _ _ | .max i _ _ | .min i _ _ | .neg i _
  | .pos i _ _ _ _ | .call i _ _ | .var i | .other i _ _ _ => some i

/-- Specification: an interpretation of functions and of all other operations. -/
structure Interp where
  fct : ℕ → ℚ → ℚ
  var : ℕ → ℚ
  other : ℕ → ℚ → ℚ → ℚ

/-- Specification: the value of a graph.  A position node stands for the index it resolves to (C33). -/
def Node.val (I : Interp) : Node → ℚ
  | .lit v => v
  | .cst _ v => v
  | .add _ a b => a.val I + b.val I
  | .sub _ a b => a.val I - b.val I
  | .mul _ a b => a.val I * b.val I
  | .div _ a b => a.val I / b.val I
  | .max _ a b => if a.val I < b.val I then b.val I else a.val I
  | .min _ a b => if b.val I < a.val I then b.val I else a.val I
  | .neg _ a => -a.val I
  | .pos _ i f p al => positionLegalizer i f p al
  | .call _ f a => I.fct f (a.val I)
  | .var i => I.var i
  | .other _ op a b => I.other op (a.val I) (b.val I)

/-- The node and everything below it. -/
def Node.subs : Node → List Node
  | .lit v => [.lit v]
  | .cst i v => [.cst i v]
  | .add i a b => .add i a b :: (a.subs ++ b.subs)
  | .sub i a b => .sub i a b :: (a.subs ++ b.subs)
  | .mul i a b => .mul i a b :: (a.subs ++ b.subs)
  | .div i a b => .div i a b :: (a.subs ++ b.subs)
  | .max i a b => .max i a b :: (a.subs ++ b.subs)
  | .min i a b => .min i a b :: (a.subs ++ b.subs)
  | .neg i a => .neg i a :: a.subs
  | .pos i x f p al => [.pos i x f p al]
  | .call i f a => .call i f a :: a.subs
  | .var i => [.var i]
  | .other i op a b => .other i op a b :: (a.subs ++ b.subs)

/-- `safe` (legalizer.py:128-130) around a binary operation. -/
def safe2 (f : ℚ → ℚ → ℚ) (a b : Option ℚ) : Option ℚ :=
  match a, b with
  | some x, some y => some (f x y)
  | _, _ => none

/-- `safe` around a unary operation. -/
def safe1 (f : ℚ → ℚ) (a : Option ℚ) : Option ℚ := a.map f

/-- Python's `max(a, b)`: the first of the greatest. -/
def pyMax (a b : ℚ) : ℚ := if a < b then b else a
/-- Python's `min(a, b)`. -/
def pyMin (a b : ℚ) : ℚ := if b < a then b else a

/-- `evaluate_cst_graph` (legalizer.py:264-294).  There is no entry for divisions and calls. -/
def evaluateCst : Node → Option ℚ
  | .lit v => some v
  | .max _ a b => safe2 pyMax (evaluateCst a) (evaluateCst b)
  | .min _ a b => safe2 pyMin (evaluateCst a) (evaluateCst b)
  | .add _ a b => safe2 (· + ·) (evaluateCst a) (evaluateCst b)
  | .sub _ a b => safe2 (· - ·) (evaluateCst a) (evaluateCst b)
  | .mul _ a b => safe2 (· * ·) (evaluateCst a) (evaluateCst b)
  | .cst _ v => some v
  | .neg _ a => safe1 (fun x => -x) (evaluateCst a)
  | .pos _ i f p al => some (positionLegalizer i f p al)
  | .div _ _ _ => none
  | .call _ _ _ => none
  | .var _ => none
  | .other _ _ _ _ => none

/-- Exceptions of `evaluate_graph`. -/
inductive EErr where
  /-- `ZeroDivisionError` -/
  | zeroDiv
  /-- `KeyError` on an unknown function -/
  | noFunction
  deriving DecidableEq

/-- Two operands: both are evaluated before `safe` looks at them. -/
def both (f : ℚ → ℚ → Except EErr ℚ) (a b : Except EErr (Option ℚ)) : Except EErr (Option ℚ) :=
  match a with
  | .error e => .error e
  | .ok x =>
    match b with
    | .error e => .error e
    | .ok y =>
      match x, y with
      | some u, some v => (f u v).map some
      | _, _ => .ok none

/-- `evaluate_graph` (legalizer.py:224-262).  `m` is `value_mapping`, `g` is `fct_mapping`.  There is no entry for
Python numbers and position nodes. -/
def evaluateGraph (m : ℕ → Option ℚ) (g : ℕ → Option (ℚ → ℚ)) (n : Node) : Except EErr (Option ℚ) :=
  match n.id.bind m with
  | some v => .ok (some v)
  | none =>
    match n with
    | .max _ a b => both (fun x y => .ok (pyMax x y)) (evaluateGraph m g a) (evaluateGraph m g b)
    | .min _ a b => both (fun x y => .ok (pyMin x y)) (evaluateGraph m g a) (evaluateGraph m g b)
    | .add _ a b => both (fun x y => .ok (x + y)) (evaluateGraph m g a) (evaluateGraph m g b)
    | .sub _ a b => both (fun x y => .ok (x - y)) (evaluateGraph m g a) (evaluateGraph m g b)
    | .mul _ a b => both (fun x y => .ok (x * y)) (evaluateGraph m g a) (evaluateGraph m g b)
    | .div _ a b =>
      both (fun x y => if y = 0 then .error .zeroDiv else .ok (x / y)) (evaluateGraph m g a) (evaluateGraph m g b)
    | .cst _ v => .ok (some v)
    | .neg _ a =>
      match evaluateGraph m g a with
      | .error e => .error e
      | .ok none => .ok none
      | .ok (some x) => .ok (some (-x))
    | .call _ f a =>
      match g f with
      | none => .error .noFunction
      | some h =>
        match evaluateGraph m g a with
        | .error e => .error e
        | .ok none => .ok none
        | .ok (some x) => .ok (some (h x))
    | .lit _ => .ok none
    | .pos _ _ _ _ _ => .ok none
    | .var _ => .ok none
    | .other _ _ _ _ => .ok none

/-- **C53** (constant graphs).  Whenever a value is returned, it is the value of the expression, whatever
the functions and the unknown nodes mean. -/
theorem C53_evaluate_cst (I : Interp) : ∀ (n : Node) (v : ℚ), evaluateCst n = some v → n.val I = v := by
  have key : ∀ (f : ℚ → ℚ → ℚ) (a b : Option ℚ) (v : ℚ), safe2 f a b = some v →
      ∃ x y, a = some x ∧ b = some y ∧ f x y = v := by
    intro f a b v h
    cases a <;> cases b <;> simp_all [safe2]
  intro n
  induction n with
  | lit v => intro w h; cases h; rfl
  | cst i v => intro w h; cases h; rfl
  | add i a b iha ihb | sub i a b iha ihb | mul i a b iha ihb | max i a b iha ihb | min i a b iha ihb =>
    intro w h
    obtain ⟨x, y, hx, hy, rfl⟩ := key _ _ _ _ h
    simp only [Node.val, iha _ hx, ihb _ hy, pyMax, pyMin]
  | div i a b => intro w h; cases h
  | neg i a iha =>
    intro w h
    rw [evaluateCst] at h
    unfold safe1 at h
    rw [Option.map_eq_some_iff] at h
    obtain ⟨x, hx, rfl⟩ := h
    simp [Node.val, iha _ hx]
  | pos i a b c d => intro w h; cases h; rfl
  | call i f a => intro w h; cases h
  | var i => intro w h; cases h
  | other i op a b => intro w h; cases h

/-- Graphs made only of the supported operations. -/
def Node.Plain : Node → Prop
  | .lit _ => True
  | .cst _ _ => True
  | .add _ a b | .sub _ a b | .mul _ a b | .max _ a b | .min _ a b => a.Plain ∧ b.Plain
  | .neg _ a => a.Plain
  | .pos _ _ _ _ _ => True
  | _ => False

/-- ... and a value is returned for exactly these graphs. -/
theorem C53_evaluate_cst_total (n : Node) : (∃ v, evaluateCst n = some v) ↔ n.Plain := by
  have key : ∀ (f : ℚ → ℚ → ℚ) (a b : Option ℚ), (∃ v, safe2 f a b = some v) ↔ (∃ v, a = some v) ∧ ∃ v, b = some v := by
    intro f a b
    cases a <;> cases b <;> simp [safe2]
  induction n with
  | lit v => simp [evaluateCst, Node.Plain]
  | cst i v => simp [evaluateCst, Node.Plain]
  | add i a b iha ihb | sub i a b iha ihb | mul i a b iha ihb | max i a b iha ihb | min i a b iha ihb =>
    rw [evaluateCst, key]
    exact and_congr iha ihb
  | div i a b => simp [evaluateCst, Node.Plain]
  | neg i a iha =>
    refine Iff.trans ?_ iha
    rw [evaluateCst]
    unfold safe1
    cases evaluateCst a <;> simp
  | pos i a b c d => simp [evaluateCst, Node.Plain]
  | call i f a => simp [evaluateCst, Node.Plain]
  | var i => simp [evaluateCst, Node.Plain]
  | other i op a b => simp [evaluateCst, Node.Plain]

theorem both_ok {f : ℚ → ℚ → Except EErr ℚ} {a b : Except EErr (Option ℚ)} {v : ℚ}
    (h : both f a b = .ok (some v)) : ∃ x y, a = .ok (some x) ∧ b = .ok (some y) ∧ f x y = .ok v := by
  cases a with
  | error e => cases h
  | ok x =>
    cases b with
    | error e => cases x <;> cases h
    | ok y =>
      cases x with
      | none => cases y <;> cases h
      | some u =>
        cases y with
        | none => cases h
        | some w =>
          refine ⟨u, w, rfl, rfl, ?_⟩
          cases hf : f u w with
          | error e => simp [both, hf, Except.map] at h
          | ok z => simp [both, hf, Except.map] at h; rw [h]

/-- **C53** (graphs with given node values).  If the mapped nodes have the values of the map and the
functions of the map are the functions called, every value returned is the value of the expression. -/
theorem C53_evaluate_graph (I : Interp) (m : ℕ → Option ℚ) (g : ℕ → Option (ℚ → ℚ))
    (hg : ∀ f h x, g f = some h → I.fct f x = h x) :
    ∀ (n : Node), (∀ k ∈ n.subs, ∀ i v, k.id = some i → m i = some v → k.val I = v) →
      ∀ v, evaluateGraph m g n = .ok (some v) → n.val I = v := by
  intro n hm
  have hself : ∀ n : Node, n ∈ n.subs := by
    intro n; cases n <;> simp [Node.subs]
  have hmap : ∀ (n : Node) (v : ℚ), (∀ k ∈ n.subs, ∀ i v, k.id = some i → m i = some v → k.val I = v) →
      n.id.bind m = some v → n.val I = v := by
    intro n v hm h
    rw [Option.bind_eq_some_iff] at h
    obtain ⟨i, hi, hv⟩ := h
    exact hm n (hself n) i v hi hv
  induction n with
  | lit w => intro v h; rw [evaluateGraph] at h; simp [Node.id] at h
  | cst i w =>
    intro v h
    rw [evaluateGraph] at h
    split at h
    · rename_i u hu; cases h; exact hmap _ _ hm hu
    · cases h; rfl
  | add i a b iha ihb | sub i a b iha ihb | mul i a b iha ihb | max i a b iha ihb | min i a b iha ihb =>
    intro v h
    rw [evaluateGraph] at h
    split at h
    · rename_i u hu; cases h; exact hmap _ _ hm hu
    · obtain ⟨x, y, hx, hy, hf⟩ := both_ok h
      cases hf
      simp only [Node.val, iha (fun k hk => hm k (by simp [Node.subs, hk])) _ hx, ihb (fun k hk => hm k (by simp [Node.subs, hk])) _ hy, pyMax, pyMin]
  | div i a b iha ihb =>
    intro v h
    rw [evaluateGraph] at h
    split at h
    · rename_i u hu; cases h; exact hmap _ _ hm hu
    · obtain ⟨x, y, hx, hy, hf⟩ := both_ok h
      split at hf
      · cases hf
      · cases hf
        simp only [Node.val, iha (fun k hk => hm k (by simp [Node.subs, hk])) _ hx, ihb (fun k hk => hm k (by simp [Node.subs, hk])) _ hy]
  | neg i a iha =>
    intro v h
    rw [evaluateGraph] at h
    split at h
    · rename_i u hu; cases h; exact hmap _ _ hm hu
    · split at h
      · cases h
      · cases h
      · rename_i x hx
        cases h
        simp only [Node.val, iha (fun k hk => hm k (by simp [Node.subs, hk])) _ hx]
  | pos i a b c d =>
    intro v h
    rw [evaluateGraph] at h
    split at h
    · rename_i u hu; cases h; exact hmap _ _ hm hu
    · cases h
  | call i f a iha =>
    intro v h
    rw [evaluateGraph] at h
    split at h
    · rename_i u hu; cases h; exact hmap _ _ hm hu
    · split at h
      · cases h
      · rename_i h' hf
        split at h
        · cases h
        · cases h
        · rename_i x hx
          cases h
          simp only [Node.val, iha (fun k hk => hm k (by simp [Node.subs, hk])) _ hx, hg _ _ _ hf]
  | var i =>
    intro v h
    rw [evaluateGraph] at h
    split at h
    · rename_i u hu; cases h; exact hmap _ _ hm hu
    · cases h
  | other i op a b =>
    intro v h
    rw [evaluateGraph] at h
    split at h
    · rename_i u hu; cases h; exact hmap _ _ hm hu
    · cases h

/-- Specification: everything below is a mapped node, a constant, an arithmetic operation, a division by something that is not
zero, or the call of a known function. -/
def Node.Known (I : Interp) (m : ℕ → Option ℚ) (g : ℕ → Option (ℚ → ℚ)) : Node → Prop
  | .cst _ _ => True
  | .add i a b | .sub i a b | .mul i a b | .max i a b | .min i a b => (m i).isSome ∨ (a.Known I m g ∧ b.Known I m g)
  | .div i a b => (m i).isSome ∨ (a.Known I m g ∧ b.Known I m g ∧ b.val I ≠ 0)
  | .neg i a => (m i).isSome ∨ a.Known I m g
  | .call i f a => (m i).isSome ∨ ((g f).isSome ∧ a.Known I m g)
  | .var i => (m i).isSome
  | .pos i _ _ _ _ => (m i).isSome
  | .other i _ _ _ => (m i).isSome
  | .lit _ => False

/-- **C53** (graphs with inputs, completeness).  Every graph of known nodes is evaluated, to its value. -/
theorem C53_evaluate_graph_total (I : Interp) (m : ℕ → Option ℚ) (g : ℕ → Option (ℚ → ℚ))
    (hg : ∀ f h x, g f = some h → I.fct f x = h x) (n : Node)
    (hm : ∀ k ∈ n.subs, ∀ i v, k.id = some i → m i = some v → k.val I = v) (hk : n.Known I m g) :
    evaluateGraph m g n = .ok (some (n.val I)) := by
  suffices h : ∃ v, evaluateGraph m g n = .ok (some v) by
    obtain ⟨v, hv⟩ := h
    rw [hv, C53_evaluate_graph I m g hg n hm v hv]
  induction n with
  | lit w => exact hk.elim
  | cst i w => rw [evaluateGraph]; split <;> exact ⟨_, rfl⟩
  | add i a b iha ihb | sub i a b iha ihb | mul i a b iha ihb | max i a b iha ihb | min i a b iha ihb =>
    rw [evaluateGraph]
    cases hi : m i with
    | some v => exact ⟨v, by simp [Node.id, hi]⟩
    | none =>
      rcases hk with h | ⟨ha, hb⟩
      · rw [hi] at h; cases h
      · obtain ⟨x, hx⟩ := iha (fun k hk => hm k (by simp [Node.subs, hk])) ha
        obtain ⟨y, hy⟩ := ihb (fun k hk => hm k (by simp [Node.subs, hk])) hb
        exact ⟨_, by simp only [Node.id, Option.bind_some, hi, hx, hy, both, Except.map]; rfl⟩
  | div i a b iha ihb =>
    rw [evaluateGraph]
    cases hi : m i with
    | some v => exact ⟨v, by simp [Node.id, hi]⟩
    | none =>
      rcases hk with h | ⟨ha, hb, h0⟩
      · rw [hi] at h; cases h
      · have hmb : ∀ k ∈ b.subs, ∀ i v, k.id = some i → m i = some v → k.val I = v :=
          fun k hk => hm k (by simp [Node.subs, hk])
        obtain ⟨x, hx⟩ := iha (fun k hk => hm k (by simp [Node.subs, hk])) ha
        obtain ⟨y, hy⟩ := ihb hmb hb
        have hy0 : y ≠ 0 := by rw [← C53_evaluate_graph I m g hg b hmb y hy]; exact h0
        exact ⟨x / y, by simp [Node.id, hi, hx, hy, both, Except.map, hy0]⟩
  | neg i a iha =>
    rw [evaluateGraph]
    cases hi : m i with
    | some v => exact ⟨v, by simp [Node.id, hi]⟩
    | none =>
      rcases hk with h | ha
      · rw [hi] at h; cases h
      · obtain ⟨x, hx⟩ := iha (fun k hk => hm k (by simp [Node.subs, hk])) ha
        exact ⟨-x, by simp [Node.id, hi, hx]⟩
  | call i f a iha =>
    rw [evaluateGraph]
    cases hi : m i with
    | some v => exact ⟨v, by simp [Node.id, hi]⟩
    | none =>
      rcases hk with h | ⟨hf, ha⟩
      · rw [hi] at h; cases h
      · obtain ⟨x, hx⟩ := iha (fun k hk => hm k (by simp [Node.subs, hk])) ha
        obtain ⟨h, hh⟩ := Option.isSome_iff_exists.1 hf
        exact ⟨h x, by simp [Node.id, hi, hx, hh]⟩
  | var i =>
    obtain ⟨v, hv⟩ := Option.isSome_iff_exists.1 (show (m i).isSome from hk)
    exact ⟨v, by simp [evaluateGraph, Node.id, hv]⟩
  | pos i a b c d =>
    obtain ⟨v, hv⟩ := Option.isSome_iff_exists.1 (show (m i).isSome from hk)
    exact ⟨v, by simp [evaluateGraph, Node.id, hv]⟩
  | other i op a b =>
    obtain ⟨v, hv⟩ := Option.isSome_iff_exists.1 (show (m i).isSome from hk)
    exact ⟨v, by simp [evaluateGraph, Node.id, hv]⟩

example : evaluateCst (.add 0 (.cst 1 3) (.neg 2 (.pos 3 3 5 1 .fromPointToLSB))) = some (-3) := by
  simp [evaluateCst, safe1, safe2, positionLegalizer]; norm_num
example : evaluateGraph (fun i => if i = 7 then some 4 else none) (fun _ => none)
    (.div 0 (.var 7) (.cst 1 2)) = .ok (some 2) := by
  simp [evaluateGraph, both, Node.id, Except.map]; norm_num

/-! ## C56 -/

open Real

/-- C integer division and remainder (both truncate toward zero). -/
abbrev cDiv (a b : ℤ) : ℤ := a.tdiv b
abbrev cMod (a b : ℤ) : ℤ := a.tmod b

/-- The exponent part of `legalize_invsqrt_seed` (legalizer.py:804-825): `ExponentInsertion((-e)/2)` times
the parity correction, in exact arithmetic. -/
noncomputable def invsqrtScale (e : ℤ) : ℝ :=
  (if cMod e 2 = 0 then 1 else if cMod e 2 = -1 then (2 : ℝ) ^ (1 / 2 : ℝ) else (2 : ℝ) ^ (-1 / 2 : ℝ)) *
    (2 : ℝ) ^ cDiv (-e) 2

/-- `legalize_invsqrt_seed` (legalizer.py:790-846) on the exponent `e` and the table entry `t`; products
in exact arithmetic. -/
noncomputable def invsqrtSeed (e : ℤ) (t : ℝ) : ℝ := t * invsqrtScale e

/-- `legalize_reciprocal_seed` (legalizer.py:743-788) on sign, exponent and table entry. -/
noncomputable def recipSeed (neg : Bool) (e : ℤ) (t : ℝ) : ℝ :=
  t * ((2 : ℝ) ^ (-e) * (if neg then -1 else 1))

/-- **C56** (scaling).  For every exponent, the scaling is `2^(-e/2)`. -/
theorem C56_invsqrt_scale (e : ℤ) : invsqrtScale e = (2 : ℝ) ^ (-(e : ℝ) / 2) := by
  unfold invsqrtScale
  rw [← Real.rpow_intCast]
  have h2 : (0 : ℝ) < 2 := by norm_num
  by_cases h0 : cMod e 2 = 0
  · rw [if_pos h0, one_mul]
    congr 1
    obtain ⟨k, rfl⟩ : ∃ k, e = 2 * k := ⟨e / 2, by
      have : e % 2 = 0 := by
        have := Int.emod_eq_zero_of_dvd (Int.dvd_of_tmod_eq_zero h0); exact this
      omega⟩
    have : cDiv (-(2 * k)) 2 = -k := by
      rw [show -(2 * k) = 2 * (-k) by ring]
      exact Int.mul_tdiv_cancel_left _ (by norm_num)
    rw [this]; push_cast; ring
  · rw [if_neg h0]
    by_cases h1 : cMod e 2 = -1
    · rw [if_pos h1, ← Real.rpow_add h2]
      congr 1
      have h3 := Int.mul_tdiv_add_tmod e 2
      have h4 : cDiv (-e) 2 = -(e.tdiv 2) := Int.neg_tdiv _ _
      have h5 : (e : ℤ) = 2 * e.tdiv 2 - 1 := by
        have : e.tmod 2 = -1 := h1
        omega
      rw [h4]
      have h6 : (e : ℝ) = 2 * (e.tdiv 2 : ℤ) - 1 := by exact_mod_cast h5
      push_cast
      linarith
    · rw [if_neg h1, ← Real.rpow_add h2]
      congr 1
      have h3 := Int.mul_tdiv_add_tmod e 2
      have h4 : cDiv (-e) 2 = -(e.tdiv 2) := Int.neg_tdiv _ _
      have h7 : e.tmod 2 = 1 := by
        have ha : |e.tmod 2| < 2 := by
          have := Int.tmod_lt_of_pos e (b := 2) (by norm_num)
          have := Int.lt_tmod_of_pos e (b := 2) (by norm_num)
          rw [abs_lt]; omega
        rw [abs_lt] at ha
        have h0' : e.tmod 2 ≠ 0 := h0
        have h1' : e.tmod 2 ≠ -1 := h1
        omega
      have h5 : (e : ℤ) = 2 * e.tdiv 2 + 1 := by omega
      rw [h4]
      have h6 : (e : ℝ) = 2 * (e.tdiv 2 : ℤ) + 1 := by exact_mod_cast h5
      push_cast
      linarith

/-- **C56** (inverse square root seed).  For `x = m * 2^e`, the seed is as close to `1/√x` as the table
entry is to `1/√m`, relatively. -/
theorem C56_invsqrt_seed (m : ℝ) (hm : 0 < m) (e : ℤ) (t : ℝ) :
    invsqrtSeed e t * √(m * (2 : ℝ) ^ e) = t * √m := by
  unfold invsqrtSeed
  rw [C56_invsqrt_scale, Real.sqrt_mul hm.le]
  have h : √((2 : ℝ) ^ e) = (2 : ℝ) ^ ((e : ℝ) / 2) := by
    rw [Real.sqrt_eq_rpow, ← Real.rpow_intCast, ← Real.rpow_mul (by norm_num)]
    congr 1; ring
  rw [h]
  have h2 : (2 : ℝ) ^ (-(e : ℝ) / 2) * (2 : ℝ) ^ ((e : ℝ) / 2) = 1 := by
    rw [← Real.rpow_add (by norm_num)]
    ring_nf
    exact Real.rpow_zero 2
  linear_combination (t * √m) * h2

/-- **C56** (reciprocal seed).  For `x = ± m * 2^e`, the seed is as close to `1/x` as the table entry is to
`1/m`, relatively. -/
theorem C56_reciprocal_seed (m : ℝ) (neg : Bool) (e : ℤ) (t : ℝ) :
    recipSeed neg e t * ((if neg then -1 else 1) * (m * (2 : ℝ) ^ e)) = t * m := by
  unfold recipSeed
  have h2 : (2 : ℝ) ^ (-e) * (2 : ℝ) ^ e = 1 := by
    rw [← zpow_add₀ (by norm_num)]; simp
  cases neg <;> simp only [if_true, if_false, Bool.false_eq_true] <;> linear_combination (t * m) * h2

/-- With divisions rounding down (as Python's do) the same formula would be wrong: the correction for odd
negative exponents relies on truncation. -/
example : cDiv (-(-3)) 2 = 1 ∧ cMod (-3) 2 = -1 ∧ invsqrtScale (-3) = (2 : ℝ) ^ (3 / 2 : ℝ) := by
  refine ⟨by decide, by decide, ?_⟩
  rw [C56_invsqrt_scale]; norm_num

/-- In floating-point, the exponent insertion of the reciprocal seed leaves its range on the largest
binade: for `x` in `[2^127, 2^128)` the factor `2^(-127)` of the seed is the pattern of zero. -/
theorem C56_reciprocal_flush :
    cls ⟨8, 23⟩ (expInsertion ⟨8, 23⟩ (-127#32)).toNat = .zero ∧
    cls ⟨11, 52⟩ (expInsertion ⟨11, 52⟩ (-1023#64)).toNat = .zero := by decide

end Verif.Legal
