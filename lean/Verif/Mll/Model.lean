import Verif.Mll.Spec
import Mathlib.Data.Int.Log
import Mathlib.Algebra.Field.Rat
import Mathlib.Data.Rat.Floor

/-!
# Model of the multi-word polynomial implementation (property C118)

`metalibm_core/core/implementpoly.py`. Numbers are rational (the code computes with Sollya objects, in exact or in
multi-precision arithmetic). The rounding to binary64 is a parameter. The formats are given by their number of words
(limbs) and the number of bits of a word. Not modelled: the powers (`computeOutputFormatPower`), the error reported by the
meta-blocks, `get_add_error_split`.
-/

namespace Verif.Mll

/-- Loop of `MLL_Context.roundConstant`, lines 463-468: `n` is the number of words that may still be added. -/
def roundLoop (rn : ℚ → ℚ) (c eps : ℚ) : ℕ → ℚ → ℚ
  | 0, r => r
  | n + 1, r => if |r / c - 1| > eps then roundLoop rn c eps n (r + rn (c - r)) else r

/-- `MLL_Context.roundConstant`, lines 441-474, with at most three words (line 132). -/
def roundConstant (rn : ℚ → ℚ) (c eps : ℚ) : Option ℚ :=
  if 0 ≤ eps then
    if c = 0 then some c
    else
      let r := roundLoop rn c eps 2 (rn c)
      if |r / c - 1| > eps then none else some r
  else none

/-- `MLL_Context.get_ml_format_from_accuracy`, lines 142-160: number of words of the format, for words of `p` bits. -/
def formatWords (p : ℕ) (accuracy : ℤ) : Option ℕ :=
  if accuracy ≤ p then some 1
  else if accuracy ≤ 2 * p then some 2
  else if accuracy ≤ 3 * p then some 3
  else none

/-- Loop of `MLL_Context.computeConstantFormat`, lines 340-347: the words that are used and the rest. -/
def splitLoop (rn : ℚ → ℚ) : ℕ → ℚ → ℕ × ℚ
  | 0, c => (0, c)
  | n + 1, c => if c = 0 then (0, c) else let (k, r) := splitLoop rn n (c - rn c); (k + 1, r)

/-- A format with its bound on the relative error. -/
structure Fmt where
  words : ℕ
  epsilon : ℚ
deriving DecidableEq, Repr

/-- `MLL_Context.computeConstantFormat`, lines 335-353. The words are split in binary64 and counted with 53 bits whatever
the context; the test of line 348 cannot succeed; the error is 0, because the constant is said to be exact. -/
def constantFormat (p : ℕ) (rn : ℚ → ℚ) (c : ℚ) : Option Fmt :=
  if c = 0 then (formatWords p 53).map fun w => ⟨w, 0⟩
  else (formatWords p (53 * (splitLoop rn 3 c).1)).map fun w => ⟨w, 0⟩

/-- `MLL_Context.computeNeededVariableFormat`, lines 357-373, for a variable that is exact and has `vw` words: the number of
words of the format and the error of the conversion to it. `ceil(-log2(eps))` is the opposite of the integer logarithm. -/
def neededVariable (p vw : ℕ) (eps : ℚ) : Option Fmt :=
  if 0 < eps then
    if 1 / 2 ^ p ≤ eps ∨ vw = 1 then some ⟨vw, 0⟩
    else
      (formatWords p (-Int.log 2 eps)).bind fun w =>
      if w < vw then some ⟨w, (2 : ℚ) ^ (Int.log 2 eps)⟩ else some ⟨vw, 0⟩
  else some ⟨vw, 0⟩

/-- `get_mul_error_budget`, lines 516-537, from the two errors of the operands. `none` is a failed assertion. -/
def mulBudget (l r target : ℚ) : Option ℚ :=
  let e := l + r + l * r
  if 0 < e ∧ e ≥ target then some ((target - e) / (1 + e)) else none

/-- A context: the rounding to binary64, the number of bits of a word, the number of words of the variable. -/
structure Ctx where
  rn : ℚ → ℚ
  p : ℕ
  vw : ℕ

/-- `mll_implementpoly_horner`, lines 539-630, without the choice of the meta-blocks: products and sums have the error that
is required of them. The polynomial is given by its coefficients from the constant one on, and has one coefficient more than
its degree; reading a coefficient that it does not have fails, and so does a constant that cannot be rounded. The constant
of a polynomial of degree 0 is written with its own value in the format of the rounded constant (line 560); here it is the
rounded constant. -/
def horner (k : Ctx) : List (Option ℚ) → ℚ → Option Impl
  | [], _ => none
  | [c], eps =>
    c.bind fun c0 => (roundConstant k.rn c0 eps).bind fun r => (constantFormat k.p k.rn r).bind fun _ => some (.cst r)
  | [c, d], eps =>
    c.bind fun c0 => d.bind fun c1 =>
    (roundConstant k.rn c1 (eps / 4)).bind fun r1 => (constantFormat k.p k.rn r1).bind fun _ =>
    (roundConstant k.rn c0 (eps / 4)).bind fun r0 => (constantFormat k.p k.rn r0).bind fun _ =>
    (neededVariable k.p k.vw (eps / 4)).bind fun f =>
    some (.add (eps / 2) (.cst r0) (.mul (eps / 4) (.cst r1) (.var f.epsilon)))
  | c :: d :: e :: cs, eps =>
    c.bind fun c0 => (roundConstant k.rn c0 (eps / 4)).bind fun r0 => (constantFormat k.p k.rn r0).bind fun _ =>
    (neededVariable k.p k.vw (eps / 4)).bind fun f =>
    (horner k (d :: e :: cs) (eps / 4)).bind fun q =>
    some (.add (eps / 4) (.cst r0) (.mul (eps / 4) (.var f.epsilon) q))

/-- The error that `mll_implementpoly_horner` reports for a polynomial of degree 0, line 560. -/
def hornerConstantError (k : Ctx) (c eps : ℚ) : Option ℚ :=
  (roundConstant k.rn c eps).bind fun r => (constantFormat k.p k.rn r).map fun f => f.epsilon

/-! ## The choice of a meta-block -/

/-- A meta-block for an operation with two operands, on descriptors of type `D` (format, error, overlap of the words,
interval): its cost, whether it accepts the operands, the local error it makes and the descriptor of its result. -/
structure Block (D : Type) where
  cost : ℕ
  ok : D → D → Bool
  err : D → D → ℚ
  out : D → D → D

/-- The renormalization block, and the two tests on descriptors: three words, and words that overlap too much. -/
structure Norm (D : Type) where
  ok : D → Bool
  out : D → D
  three : D → Bool
  wide : D → Bool

/-- The chosen block, with the renormalizations around it, and the descriptor that is recorded for the result. -/
structure Choice (D : Type) where
  block : Block D
  left : Bool
  right : Bool
  post : Bool
  desc : D

/-- Python's `min(..., key=get_MB_cost)`: the first of the cheapest blocks. -/
def cheapest {D : Type} : List (Block D) → Option (Block D)
  | [] => none
  | b :: bs => match cheapest bs with
    | none => some b
    | some c => if c.cost < b.cost then some c else some b

/-- The blocks that accept the operands and keep to the error, lines 259-262. -/
def validBlocks {D : Type} (bs : List (Block D)) (target : ℚ) (l r : D) : List (Block D) :=
  bs.filter fun b => b.ok l r && decide (b.err l r ≤ target)

/-- The renormalization of an operand, `get_renormalize_MB`, lines 252-258. -/
def normalizes {D : Type} (n : Norm D) (x : D) : Bool := n.ok x && n.wide x

/-- `MLL_Context.compute_output_format`, lines 250-305. When the result is renormalized, the recorded descriptor is that of
the renormalized left operand (line 301). `none` is an error. -/
def chooseBlock {D : Type} (bs : List (Block D)) (n : Norm D) (target : ℚ) (l r : D) : Option (Choice D) :=
  match cheapest (validBlocks bs target l r) with
  | some b =>
    if n.three (b.out l r) && n.wide (b.out l r) then
      if normalizes n (b.out l r) then some ⟨b, false, false, true, n.out l⟩ else none
    else some ⟨b, false, false, false, b.out l r⟩
  | none =>
    let l' := if normalizes n l then n.out l else l
    let r' := if normalizes n r then n.out r else r
    (cheapest (validBlocks bs target l' r')).map fun b => ⟨b, normalizes n l, normalizes n r, false, b.out l' r'⟩

end Verif.Mll
