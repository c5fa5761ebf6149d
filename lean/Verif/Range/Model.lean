import Verif.Range.Spec
import Verif.Interval.Model
import Verif.Float.Model

/-!
# Model of range evaluation

`metalibm_core/opt/opt_utils.py:evaluate_range` and the range functions of `metalibm_core/core/ml_operations.py`.
Sollya interval functions are exact here (Sollya rounds outwards); an interval with an infinite bound is represented by "no
interval", which claims less.
-/

namespace Verif.Range
open Verif.Interval (Iv)

/-- Python exceptions: undefined name, wrong number of inputs, recursion that does not end (cyclic graph). -/
inductive Err where
  | nameError | arity | recursion
  deriving DecidableEq, Repr

/-- Sollya `abs` of an interval (ml_operations.py:895-896). -/
def ivAbs (a : Iv ℚ) : Iv ℚ :=
  if 0 ≤ a.inf then a else if a.sup ≤ 0 then a.neg else ⟨0, Max.max (-a.inf) a.sup⟩

/-- Sollya division, no interval when the divisor contains zero. -/
def ivDiv (a b : Iv ℚ) : Option (Iv ℚ) :=
  match a.div b with
  | .ok r => some r
  | .error _ => none

/-- Bounds of `2^x`, ml_operations.py:1187-1188 (PowerOf2) and 1411-1418 (ExponentInsertion).  Simplification: a non-integer
bound is first rounded down, identical on integer bounds and on the integer operands the specification considers. -/
def ivPow2 (a : Iv ℚ) : Iv ℚ := ⟨(2 : ℚ) ^ (⌊a.inf⌋), (2 : ℚ) ^ (⌊a.sup⌋)⟩

/-- `floor(log2(inf |x|)), floor(log2(sup |x|))`, ml_operations.py:1440-1448 and 1459-1467.  A zero lower bound gives an infinite
bound, represented by no interval. -/
def ivExp (a : Iv ℚ) : Option (Iv ℚ) :=
  let m := ivAbs a
  if m.inf ≤ 0 then none else some ⟨(Int.log 2 m.inf : ℤ), (Int.log 2 m.sup : ℤ)⟩

/-- The `bare_range_function` of each operation, on valid input intervals.
- default `empty_range` (78-81, 795): unknown operations;
- Abs 895, Negation 905, FMA specifiers 999-1040 (the range function of DotProductNegate names its parameter `opts` and reads
  the undefined `ops`, 1039-1040), Addition 1093, Subtraction 1100, Multiplication 1108, Division 1116,
- Modulo 1128-1142 (returns the divisor's interval), NearestInteger 1149, Ceil 1162, Trunc 1170, Floor 1179, PowerOf2 1187,
- Return 1197, TableLoad 1213, Min 1272-1282, Max 1274-1288, ExponentInsertion 1411, MantissaExtraction 1427,
- ExponentExtraction 1440, RawExponentExtraction 1459 (does not add the bias), ReciprocalSeed 1762. -/
def bareRange : Kind → List (Iv ℚ) → Except Err (Option (Iv ℚ))
  | .abs, [a] => .ok (some (ivAbs a))
  | .neg, [a] => .ok (some a.neg)
  | .add, [a, b] => .ok (some (a.add b))
  | .sub, [a, b] => .ok (some (a.sub b))
  | .mul, [a, b] => .ok (some (a.mul b))
  | .div, [a, b] => .ok (ivDiv a b)
  | .fma .standard, [a, b, c] => .ok (some ((a.mul b).add c))
  | .fma .subtract, [a, b, c] => .ok (some ((a.mul b).sub c))
  | .fma .negate, [a, b, c] => .ok (some ((a.neg.mul b).sub c))
  | .fma .subtractNegate, [a, b, c] => .ok (some ((a.neg.mul b).add c))
  | .fma .dotProduct, [a, b, c, d] => .ok (some ((a.mul b).add (c.mul d)))
  | .fma .dotProductNegate, [_, _, _, _] => .error .nameError
  | .modulo, [_, b] => .ok (some b)
  | .nearest, [a] => .ok (some ⟨(Verif.Float.rne a.inf : ℤ), (Verif.Float.rne a.sup : ℤ)⟩)
  | .ceil, [a] => .ok (some ⟨(⌈a.inf⌉ : ℤ), (⌈a.sup⌉ : ℤ)⟩)
  | .floor, [a] => .ok (some ⟨(⌊a.inf⌋ : ℤ), (⌊a.sup⌋ : ℤ)⟩)
  | .trunc, _ => .ok none
  | .pow2, [a] => .ok (some (ivPow2 a))
  | .expInsert, [a] => .ok (some (ivPow2 a))
  | .min, [a, b] => .ok (some ⟨Min.min a.inf b.inf, Min.min a.sup b.sup⟩)
  | .max, [a, b] => .ok (some ⟨Max.max a.inf b.inf, Max.max a.sup b.sup⟩)
  | .ret, [a] => .ok (some a)
  | .load, a :: _ => .ok (some a)
  | .mantExtract, [_] => .ok (some ⟨-2, 2⟩)
  | .expExtract, [a] => .ok (ivExp a)
  | .rawExpExtract _, [a] => .ok (ivExp a)
  | .recipSeed, [a] => .ok (ivDiv ⟨1, 1⟩ a)
  | .unknown, _ => .ok none
  | _, _ => .error .arity

/-- All intervals, or none as soon as one is missing: `interval_check` over the inputs inside the `try` of `range_function`,
ml_operations.py:831-838. -/
def allSome : List (Option (Iv ℚ)) → Option (List (Iv ℚ))
  | [] => some []
  | none :: _ => none
  | some a :: rest => (allSome rest).map (a :: ·)

/-- `range_function`: the generic wrapper 831-838; Select 1252-1265 (union of the two data operands, none if one is missing);
CountLeadingZeros 1476-1483 (from the operand format only). -/
def rangeFunction (k : Kind) (args : List (Option (Iv ℚ))) : Except Err (Option (Iv ℚ)) :=
  match k with
  | .select =>
    match args with
    | [_, some a, some b] => .ok (some ⟨Min.min a.inf b.inf, Max.max a.sup b.sup⟩)
    | [_, _, _] => .ok none
    | _ => .error .arity
  | .clz none => .ok none
  | .clz (some w) => .ok (some ⟨0, w⟩)
  | k =>
    match allSome args with
    | none => .ok none
    | some l => bareRange k l

/-- State of an evaluation: the intervals currently stored on the nodes, and the memoization map. -/
structure St where
  interval : ℕ → Option (Iv ℚ)
  memo : List (ℕ × Option (Iv ℚ))

/-- `set_interval`, ml_operations.py:338. -/
def St.setInterval (s : St) (i : ℕ) (r : Option (Iv ℚ)) : St := { s with interval := Function.update s.interval i r }

/-- Evaluation of the inputs from left to right, threading the state. -/
def mapS (f : ℕ → St → Except Err (Option (Iv ℚ) × St)) : List ℕ → St → Except Err (List (Option (Iv ℚ)) × St)
  | [], s => .ok ([], s)
  | i :: rest, s => do
    let (r, s) ← f i s
    let (rs, s) ← mapS f rest s
    return (r :: rs, s)

/-- `evaluate_range`, opt_utils.py:62-110, with the `update_interval` flag.  Leaf, table nodes: `ML_LeafNode`.  `fuel` bounds the
recursion depth. -/
def evaluateRange (g : Graph) (upd : Bool) : ℕ → ℕ → St → Except Err (Option (Iv ℚ) × St)
  | 0, _, _ => .error .recursion
  | fuel + 1, i, s =>
    match s.interval i with
    | some a => .ok (some a, s)
    | none =>
      match s.memo.lookup i with
      | some r => .ok (r, s)
      | none =>
        let finish := fun (r : Option (Iv ℚ)) (s : St) => (r, { s with memo := (i, r) :: s.memo })
        let store := fun (r : Option (Iv ℚ)) (s : St) => if upd then s.setInterval i r else s
        match (g i).kind with
        | .leaf => .ok (finish (s.interval i) s)
        | .table => .ok (finish (s.interval i) s)
        | .comparison => .ok (finish none (store none s))
        | .placeholder =>
          match (g i).inputs with
          | [] => .error .arity
          | j :: _ => do
            let (r, s) ← evaluateRange g upd fuel j s
            return finish r (store r s)
        | k => do
          let (rs, s) ← mapS (evaluateRange g upd fuel) (g i).inputs s
          let r ← rangeFunction k rs
          return finish r (store r s)

/-- A history of calls on the same graph: each with its flag; the stored intervals persist, the memoization map is fresh unless
the caller passes it again (`keep`). -/
def runCalls (g : Graph) : List (ℕ × Bool × Bool) → St → Except Err (List (ℕ × Option (Iv ℚ)) × St)
  | [], s => .ok ([], s)
  | (i, upd, keep) :: rest, s => do
    let s0 : St := if keep then s else { s with memo := [] }
    let (r, s1) ← evaluateRange g upd (i + 1) i s0
    let (rs, s2) ← runCalls g rest s1
    return ((i, r) :: rs, s2)

/-- Initial state: declared intervals, empty map. -/
def St.init (g : Graph) : St := ⟨fun i => (g i).decl, []⟩

end Verif.Range
