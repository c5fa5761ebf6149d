import Verif.FixC.Spec
import Verif.Fixed.Model
import Verif.Float.Model

/-! # Model of the fixed-point backend, metalibm_core/targets/common/fixed_point_backend.py

A fixed-point node becomes a C integer of its support type.  Every generated operation stores its result in a variable of the
declared type (generator_utility.py:363-378, 466-473: operators are not inlined), so that each result is reduced to its type.
Reducing a signed result and shifting a negative number to the left are taken as in GCC.  `none` is an exception of the generator,
or a shift by at least the width of the type, which is undefined in C. -/

namespace Verif.FixC

open Verif.Fixed (Fmt)

/-- core/ml_formats.py:1226-1230, 1123-1141 `get_std_integer_support_format` -/
def support (f : Fmt) : Option CInt := (Fixed.cBitSize f.int f.frac).map fun c => ⟨c, f.signed⟩

/-- Assignment of an integer to a variable of type `t`. -/
def wrap (t : CInt) (n : ℤ) : ℤ := if t.signed then (n + 2 ^ (t.w - 1)) % 2 ^ t.w - 2 ^ (t.w - 1) else n % 2 ^ t.w

/-- code_generation/generic_processor.py:371-380 `BitLogicLeftShift` -/
def shl (t : CInt) (n : ℤ) (s : ℕ) : Option ℤ := if s < t.w then some (wrap t (n * 2 ^ s)) else none

/-- code_generation/generic_processor.py:381-412 `BitLogicRightShift`: a signed operand is cast to unsigned first -/
def srl (t : CInt) (n : ℤ) (s : ℕ) : Option ℤ := if s < t.w then some (wrap t (n % 2 ^ t.w / 2 ^ s)) else none

/-- `BitLogicAnd` with the constant `2^k - 1`, which is the remainder modulo `2^k` in two's complement -/
def mask (t : CInt) (n : ℤ) (k : ℤ) : ℤ := wrap t (n % 2 ^ k.toNat)

/-- fixed_point_backend.py:131-138, 156-163: the alignment shift in type `t` -/
def align (t : CInt) (s : ℤ) (n : ℤ) : Option ℤ :=
  if 0 < s then shl t n s.toNat else if s < 0 then srl t n (-s).toNat else some n

/-- fixed_point_backend.py:144-149, 168-172: the mask of an unsigned result -/
def finish (g : Fmt) (t : CInt) (n : ℤ) : ℤ := if g.signed then n else mask t n (g.int + g.frac)

/-- fixed_point_backend.py:107-178 `conv_modifier`, and 407-416: a conversion to the same format is the identity -/
def conv (f g : Fmt) (n : ℤ) : Option ℤ :=
  if f = g then some n
  else (support f).bind fun ti => (support g).bind fun tg =>
    if ti.w ≤ tg.w then (align tg (g.frac - f.frac) (wrap tg n)).map (finish g tg)
    else (align ti (g.frac - f.frac) n).map fun z => finish g tg (wrap tg z)

/-- fixed_point_backend.py:49-73 `fixed_modifier` -/
def addsub (op : ℤ → ℤ → ℤ) (f0 f1 g : Fmt) (x0 x1 : ℤ) : Option ℤ :=
  let tmp : Fmt := ⟨g.int, max (min f0.frac f1.frac) g.frac, g.signed⟩
  (support tmp).bind fun t => (conv f0 tmp x0).bind fun a => (conv f1 tmp x1).bind fun b => conv tmp g (wrap t (op a b))

/-- fixed_point_backend.py:76-77 `add_modifier` -/
def add := addsub (· + ·)

/-- fixed_point_backend.py:79-80 `sub_modifier` -/
def sub := addsub (· - ·)

/-- generic_processor.py:105-114, 488-499 multiplication of integers of types `t0` and `t1` with a result of type `t`, and 160-169
`full_mul_modifier`: when `t1` is the type of the result the second operand becomes `op0` (167).  The new multiplication is lowered
again, which converts this second `op0`. -/
def imul (t t0 t1 : CInt) (x0 x1 : ℤ) : ℤ :=
  if t0 = t ∧ t1 = t then wrap t (x0 * x1)
  else
    let a := if t0 ≠ t then wrap t x0 else x0
    let b := if t1 ≠ t then wrap t x1 else if t0 ≠ t then wrap t x0 else x0
    wrap t (a * b)

/-- fixed_point_backend.py:82-102 `mul_modifier` -/
def mul (f0 f1 g : Fmt) (x0 x1 : ℤ) : Option ℤ :=
  let tmp : Fmt := ⟨min g.int (f0.int + f1.int), f0.frac + f1.frac, f0.signed || f1.signed⟩
  (support f0).bind fun t0 => (support f1).bind fun t1 => (support tmp).bind fun t => conv tmp g (imul t t0 t1 x0 x1)

/-- the C comparison operators on integers of one type -/
def Pred.evalC : Pred → ℤ → ℤ → Bool
  | .eq, a, b => a == b
  | .ne, a, b => a != b
  | .lt, a, b => decide (a < b)
  | .le, a, b => decide (a ≤ b)
  | .gt, a, b => decide (a > b)
  | .ge, a, b => decide (a ≥ b)

/-- fixed_point_backend.py:205-247 `legalize_fixed_point_comparison`: with two formats `lhs.get_signed()` (228) raises, nodes have no
such method -/
def cmp (p : Pred) (f0 f1 : Fmt) (x0 x1 : ℤ) : Option Bool := if f0 = f1 then (support f0).map fun _ => p.evalC x0 x1 else none

/-- fixed_point_backend.py:184-200 `conv_from_fp_modifier` on a finite number; `none` when the product overflows -/
def fromFp (F : Float.Fmt) (g : Fmt) (x : ℚ) : Option ℤ :=
  (Float.rnd F ((2 : ℚ) ^ g.frac * x)).bind fun y => (support g).map fun t => wrap t (Float.rne y)

/-- fixed_point_backend.py:254-266 `conv_fixed_to_fp_modifier` -/
def toFp (F : Float.Fmt) (f : Fmt) (n : ℤ) : Option ℚ :=
  (Float.rnd F n).bind fun y => (Float.rnd F ((2 : ℚ) ^ (-f.frac))).bind fun s => Float.rnd F (y * s)

end Verif.FixC
