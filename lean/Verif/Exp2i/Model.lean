import Verif.Exp2i.Spec
import Verif.Legal.Model

/-! # Model of metalibm_functions/fast_exp2i.py, and of the insertion of biased exponents

The input is a signed integer of `n` bits. -/

namespace Verif.Exp2i

open Verif.Float (Fmt bias emaxM eminNormal)
open Verif.Legal (width expInsertion)

/-- `Min(a, b)` on signed integers (fast_exp2i.py:59) -/
def smin {n : ℕ} (a b : BitVec n) : BitVec n := if a.toInt ≤ b.toInt then a else b

/-- `Max(a, b)` on signed integers (fast_exp2i.py:58) -/
def smax {n : ℕ} (a b : BitVec n) : BitVec n := if a.toInt ≤ b.toInt then b else a

/-- fast_exp2i.py:57-60 `bound_exp` -/
def boundExp (F : Fmt) {n : ℕ} (x : BitVec n) : BitVec n :=
  smax (smin x (BitVec.ofInt n (emaxM F))) (BitVec.ofInt n (eminNormal F)) + BitVec.ofInt n (-bias F)

/-- ml_support_lib.h:177-178 `ml_exp_insertion_no_offset_fp32`, `_fp64` (generic_processor.py:701-707): the exponent, converted to the width of the format, moved to its field -/
def insertNoOffset (F : Fmt) {n : ℕ} (k : BitVec n) : BitVec (width F) := k.signExtend (width F) <<< F.f

/-- fast_exp2i.py:53-65 `generate_scalar_scheme` -/
def fastExp2i (F : Fmt) {n : ℕ} (x : BitVec n) : BitVec (width F) := insertNoOffset F (boundExp F x)

/-- p_basic_legalization.py:79-82 `expand_node`: each `ExponentInsertion` becomes `generate_exp_insertion` of its operand, whatever its specifier is -/
def expandInsertion (F : Fmt) {n : ℕ} (_noOffset : Bool) (k : BitVec n) : BitVec (width F) := expInsertion F (k.signExtend (width F))

/-- the same function (fast_exp2i.py:53-65) after the pass `basic_legalization` (p_basic_legalization.py:107-130) -/
def legalized (F : Fmt) {n : ℕ} (x : BitVec n) : BitVec (width F) := expandInsertion F true (boundExp F x)

end Verif.Exp2i
