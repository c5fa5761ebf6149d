import Verif.Interval.Spec
import Mathlib.Data.Rat.Floor
import Mathlib.Data.Int.Log
import Mathlib.Algebra.Order.Floor.Ring
import Mathlib.Algebra.Group.Int.Even

/-!
# Values of operation graphs

A graph is a map from node identifiers to nodes.  A valuation gives every node a rational value, and every table node its
entries; it is consistent when every operation node has the value its operation gives to the values of its inputs.
Arithmetic is exact: rounding of intermediate results is not part of this specification.
-/

namespace Verif.Range
open Verif.Interval (Iv)

/-- Variants of the fused multiply-add. -/
inductive Fma where
  | standard | subtract | negate | subtractNegate | dotProduct | dotProductNegate
  deriving DecidableEq, Repr

/-- Operations. -/
inductive Kind where
  | leaf | table | comparison | placeholder
  | abs | neg | add | sub | mul | div
  | fma (s : Fma)
  | modulo | nearest | ceil | floor | trunc
  | pow2 | expInsert
  | select | min | max
  | ret | load
  | expExtract | rawExpExtract (bias : ℤ) | mantExtract
  | clz (width : Option ℕ)
  | recipSeed
  | unknown
  deriving DecidableEq, Repr

/-- `n` is an integer nearest to `x`, the even one when two are equally near. -/
def NearestEven (x : ℚ) (n : ℤ) : Prop := |x - n| < 1 / 2 ∨ (|x - n| = 1 / 2 ∧ Even n)

/-- Meaning of an operation: the result `r` it may give on the operand values. -/
def Means : Kind → List ℚ → ℚ → Prop
  | .abs, [x], r => r = |x|
  | .neg, [x], r => r = -x
  | .add, [x, y], r => r = x + y
  | .sub, [x, y], r => r = x - y
  | .mul, [x, y], r => r = x * y
  | .div, [x, y], r => y ≠ 0 ∧ r = x / y
  | .fma .standard, [x, y, z], r => r = x * y + z
  | .fma .subtract, [x, y, z], r => r = x * y - z
  | .fma .negate, [x, y, z], r => r = -(x * y) - z
  | .fma .subtractNegate, [x, y, z], r => r = -(x * y) + z
  | .fma .dotProduct, [x, y, z, t], r => r = x * y + z * t
  | .fma .dotProductNegate, [x, y, z, t], r => r = x * y - z * t
  | .modulo, [x, y], r => y ≠ 0 ∧ r = x - y * (⌊x / y⌋ : ℤ)
  | .nearest, [x], r => ∃ n : ℤ, NearestEven x n ∧ r = n
  | .ceil, [x], r => r = (⌈x⌉ : ℤ)
  | .floor, [x], r => r = (⌊x⌋ : ℤ)
  | .trunc, [x], r => r = if 0 ≤ x then ((⌊x⌋ : ℤ) : ℚ) else ((⌈x⌉ : ℤ) : ℚ)
  | .pow2, [x], r => ∃ n : ℤ, x = n ∧ r = (2 : ℚ) ^ n
  | .expInsert, [x], r => ∃ n : ℤ, x = n ∧ r = (2 : ℚ) ^ n
  | .select, [c, x, y], r => r = if c ≠ 0 then x else y
  | .min, [x, y], r => r = Min.min x y
  | .max, [x, y], r => r = Max.max x y
  | .ret, [x], r => r = x
  | .placeholder, x :: _, r => r = x
  | .expExtract, [x], r => x ≠ 0 ∧ r = (Int.log 2 |x| : ℤ)
  | .rawExpExtract bias, [x], r => x ≠ 0 ∧ r = (Int.log 2 |x| + bias : ℤ)
  | .mantExtract, [x], r => x ≠ 0 ∧ r = x / (2 : ℚ) ^ (Int.log 2 |x|)
  | .clz (some w), [_], r => ∃ n : ℕ, n ≤ w ∧ r = n
  | .recipSeed, [x], r => x ≠ 0 ∧ r = 1 / x
  | .clz none, _, _ => True
  | .comparison, _, _ => True
  | .unknown, _, _ => True
  | _, _, _ => False

/-- A node: its operation, the identifiers of its inputs and its declared interval. -/
structure Node where
  kind : Kind
  inputs : List ℕ
  decl : Option (Iv ℚ)

abbrev Graph := ℕ → Node

/-- Identifiers are numbered so that inputs come before the nodes using them (any acyclic graph can be). -/
def Acyclic (g : Graph) : Prop := ∀ i, ∀ j ∈ (g i).inputs, j < i

/-- The values a node stands for: its single value, or all the entries for a table. -/
def pts (g : Graph) (v : ℕ → ℚ) (tab : ℕ → List ℚ) (i : ℕ) : List ℚ :=
  if (g i).kind = .table then tab i else [v i]

/-- The valuation follows the operations, and every declared interval is respected. -/
structure Consistent (g : Graph) (v : ℕ → ℚ) (tab : ℕ → List ℚ) : Prop where
  declared : ∀ i a, (g i).decl = some a → ∀ x ∈ pts g v tab i, a.Has x
  load : ∀ i, (g i).kind = .load → ∃ t rest, (g i).inputs = t :: rest ∧ v i ∈ pts g v tab t
  op : ∀ i, (g i).kind ≠ .leaf → (g i).kind ≠ .table → (g i).kind ≠ .load →
    (∀ j ∈ (g i).inputs, (g j).kind ≠ .table) ∧ Means (g i).kind ((g i).inputs.map v) (v i)

end Verif.Range
