import Verif.Mprec.Spec

/-! Model of the C support library for pairs of doubles,
`metalibm_core/support_lib/ml_multi_prec_lib.c`. Every C operation is the rounding `rnd` of the exact
one (`volatile` keeps the compiler from contracting the splitting; no contraction is modelled elsewhere
either). Infinities, NaN and the sign of zero are left out, except in `splitO` and `multO`. -/

namespace Verif.Mprec

variable (rnd : ℚ → ℚ)

/-- ml_multi_prec_lib.c:6-10 `ml_conv_dd_d` -/
def convDD (x : ℚ) : ℚ × ℚ := (x, 0)

/-- ml_multi_prec_lib.c:12-15 `ml_neg_dd` -/
def negDD (x : ℚ × ℚ) : ℚ × ℚ := (-x.1, -x.2)

/-- the constant with the pattern 0x41a0000002000000 of lines 19 and 32: exponent field 0x41a, fraction
field 0x0000002000000 -/
def splitConst : ℚ := 2 ^ (0x41a - 1023) * (1 + 0x2000000 / 2 ^ 52)

/-- ml_multi_prec_lib.c:17-28 `ml_split_dd_d` (lines 30-42 `ml_split_dd_d_safe` are the same text) -/
def splitD (x : ℚ) : ℚ × ℚ :=
  let gamma := rnd (splitConst * x)
  let delta := rnd (x - gamma)
  let xhi := rnd (gamma + delta)
  (xhi, rnd (x - xhi))

/-- ml_multi_prec_lib.c:44-55 `ml_split_ds_s` -/
def splitS (x : ℚ) : ℚ × ℚ :=
  let gamma := rnd (4097 * x)
  let delta := rnd (x - gamma)
  let xhi := rnd (gamma + delta)
  (xhi, rnd (x - xhi))

/-- ml_multi_prec_lib.c:57-71 `ml_mult_dd_d2` -/
def multD (x y : ℚ) : ℚ × ℚ :=
  let xs := splitD rnd x
  let ys := splitD rnd y
  let r1 := rnd (x * y)
  let t1 := rnd (-r1 + rnd (xs.1 * ys.1))
  let t2 := rnd (t1 + rnd (xs.1 * ys.2))
  let t3 := rnd (t2 + rnd (xs.2 * ys.1))
  let r2 := rnd (t3 + rnd (xs.2 * ys.2))
  (r1, r2)

/-- ml_multi_prec_lib.c:73-84 `ml_add_dd_d2` -/
def addD (x y : ℚ) : ℚ × ℚ :=
  let s := rnd (x + y)
  let xp := rnd (s - y)
  let yp := rnd (s - xp)
  let dx := rnd (x - xp)
  let dy := rnd (y - yp)
  let t := rnd (dx + dy)
  (s, t)

/-- ml_multi_prec_lib.c:86-94 `ml_add_dd_d2_fast` -/
def addFast (x y : ℚ) : ℚ × ℚ :=
  let s := rnd (x + y)
  let z := rnd (s - x)
  let t := rnd (y - z)
  (s, t)

/-- ml_multi_prec_lib.c:96-105 `ml_add_dd_d_dd` -/
def addDDD (x : ℚ) (y : ℚ × ℚ) : ℚ × ℚ :=
  let t1 := addD rnd x y.1
  let t3 := rnd (t1.2 + y.2)
  addD rnd t1.1 t3

/-- ml_multi_prec_lib.c:109-117 `ml_add_dd_dd2` -/
def addPairs (x y : ℚ × ℚ) : ℚ × ℚ :=
  let t1 := addD rnd x.1 y.1
  let t2 := addDDD rnd x.2 t1
  addDDD rnd y.2 t2

/-- ml_multi_prec_lib.c:129-135 `ml_fma_dd_d3` -/
def fmaPair (x y z : ℚ) : ℚ × ℚ := addDDD rnd z (multD rnd x y)

/-- ml_multi_prec_lib.c:120-126 `ml_fma` -/
def fma (x y z : ℚ) : ℚ :=
  let multResult := multD rnd x y
  let accResult := addDDD rnd z multResult
  accResult.1

/-- generic_processor.py:465-468: what an `Addition` node with a double-double result calls, by the
formats of its operands (one number for a double, a pair for a double-double) -/
def addition : ℚ ⊕ (ℚ × ℚ) → ℚ ⊕ (ℚ × ℚ) → ℚ × ℚ
  | .inl x, .inl y => addD rnd x y
  | .inl x, .inr y => addDDD rnd x y
  | .inr x, .inl y => addDDD rnd y x
  | .inr x, .inr y => addPairs rnd x y

open Classical in
/-- A C operation with overflow: `none` is an infinity or a NaN. Sums, differences and products of such a
value are again infinities or NaN, so `none` is absorbing. -/
noncomputable def op (x : ℚ) : Option ℚ := if Finite64 (rnd x) then some (rnd x) else none

/-- `ml_split_dd_d` and `ml_split_dd_d_safe` (17-42) with overflow -/
noncomputable def splitO (x : ℚ) : Option (ℚ × ℚ) :=
  (op rnd (splitConst * x)).bind fun gamma =>
  (op rnd (x - gamma)).bind fun delta =>
  (op rnd (gamma + delta)).bind fun xhi =>
  (op rnd (x - xhi)).bind fun xlo => some (xhi, xlo)

/-- `ml_mult_dd_d2` (57-71) with overflow: `none` when the pair is not two finite numbers -/
noncomputable def multO (x y : ℚ) : Option (ℚ × ℚ) :=
  (splitO rnd x).bind fun xs =>
  (splitO rnd y).bind fun ys =>
  (op rnd (x * y)).bind fun r1 =>
  (op rnd (xs.1 * ys.1)).bind fun p1 =>
  (op rnd (-r1 + p1)).bind fun t1 =>
  (op rnd (xs.1 * ys.2)).bind fun p2 =>
  (op rnd (t1 + p2)).bind fun t2 =>
  (op rnd (xs.2 * ys.1)).bind fun p3 =>
  (op rnd (t2 + p3)).bind fun t3 =>
  (op rnd (xs.2 * ys.2)).bind fun p4 =>
  (op rnd (t3 + p4)).bind fun r2 => some (r1, r2)

end Verif.Mprec
