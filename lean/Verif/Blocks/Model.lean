import Verif.Blocks.Spec

/-! Model of the multi-limb blocks of `metalibm_core/opt/ml_blocks.py`. Every `Addition`,
`Subtraction`, `Multiplication`, `FMA`, `FMS` node of precision `precision` is the rounding
`rnd` of the exact operation; the node graph is the expression (sharing does not change the
value of a pure expression). NaN, infinities, overflow and the sign of zero are left out. -/

namespace Verif.Blocks

variable (rnd : ℚ → ℚ)

/-- ml_blocks.py:98-109 `generate_twosum` -/
def twoSum (vx vy : ℚ) : ℚ × ℚ :=
  let s := rnd (vx + vy)
  let x' := rnd (s - vy)
  let y' := rnd (s - x')
  let dx := rnd (vx - x')
  let dy := rnd (vy - y')
  let e := rnd (dx + dy)
  (s, e)

/-- ml_blocks.py:112-121 `generate_fasttwosum` -/
def fastTwoSum (vx vy : ℚ) : ℚ × ℚ :=
  let s := rnd (vx + vy)
  let b := rnd (s - vx)
  let e := rnd (vy - b)
  (s, e)

/-- ml_blocks.py:438-457 `Mul211` with the default `fma=True` (FMS(x,y,z) is x*y-z rounded once).
The `fma=False` branch (443-456) is `mul211NoFma`. -/
def mul211 (x y : ℚ) : ℚ × ℚ :=
  let zh := rnd (x * y)
  let zl := rnd (x * y - zh)
  (zh, zl)

/-- ml_blocks.py:425-436 `Split`; `c` is the table constant (4097 or 134217729). -/
def split (c : ℚ) (a : ℚ) : ℚ × ℚ :=
  let t := rnd (c * a)
  let tmp := rnd (a - t)
  let ah := rnd (tmp + t)
  let al := rnd (a - ah)
  (ah, al)

/-- ml_blocks.py:443-457 `Mul211` with `fma=False` -/
def mul211NoFma (c : ℚ) (x y : ℚ) : ℚ × ℚ :=
  let zh := rnd (x * y)
  let xs := split rnd c x
  let ys := split rnd c y
  let r1 := rnd (xs.1 * ys.1)
  let r2 := rnd (r1 - zh)
  let r3 := rnd (xs.1 * ys.2)
  let r4 := rnd (xs.2 * ys.1)
  let r5 := rnd (xs.2 * ys.2)
  let r6 := rnd (r2 + r3)
  let r7 := rnd (r6 + r4)
  let zl := rnd (r7 + r5)
  (zh, zl)

/-- ml_blocks.py:466-470 `Add211` -/
def add211 (x y : ℚ) : ℚ × ℚ := twoSum rnd x y

/-- ml_blocks.py:472-478 `Add212` -/
def add212 (x yh yl : ℚ) : ℚ × ℚ :=
  let t := twoSum rnd x yh
  let t3 := rnd (t.2 + yl)
  fastTwoSum rnd t.1 t3

/-- ml_blocks.py:480-487 `Add221_Fast` -/
def add221Fast (xh xl y : ℚ) : ℚ × ℚ :=
  let t := fastTwoSum rnd xh y
  let t3 := rnd (t.2 + xl)
  fastTwoSum rnd t.1 t3

/-- ml_blocks.py:489-492 `Add221` -/
def add221 (xh xl y : ℚ) : ℚ × ℚ := add212 rnd y xh xl

/-- ml_blocks.py:494-500 `Add222` -/
def add222 (xh xl yh yl : ℚ) : ℚ × ℚ :=
  let v := twoSum rnd xh yh
  let v3 := rnd (xl + yl)
  let v4 := rnd (v.2 + v3)
  fastTwoSum rnd v.1 v4

/-- ml_blocks.py:668-676 `Mul212` -/
def mul212 (x yh yl : ℚ) : ℚ × ℚ :=
  let t := mul211 rnd x yh
  let t3 := rnd (x * yl)
  let t4 := rnd (t.2 + t3)
  fastTwoSum rnd t.1 t4

/-- ml_blocks.py:678-681 `Mul221` -/
def mul221 (xh xl y : ℚ) : ℚ × ℚ := mul212 rnd y xh xl

/-- ml_blocks.py:683-699 `Mul222` (`fma=True`, the default; FMA(x,y,z) is x*y+z rounded once).
The other branch (700-706) raises NameError (`precsion`). -/
def mul222 (xh xl yh yl : ℚ) : ℚ × ℚ :=
  let ph := rnd (xh * yh)
  let pl := rnd (xh * yh - ph)
  let pl2 := rnd (xh * yl + pl)
  let pl3 := rnd (xl * yh + pl2)
  fastTwoSum rnd ph pl3

/-- ml_blocks.py:818-821 `MP_FMA2111` -/
def mpFma2111 (x y z : ℚ) : ℚ × ℚ :=
  let m := mul211 rnd x y
  add221 rnd m.1 m.2 z

/-- ml_blocks.py:823-826 `MP_FMA2211` -/
def mpFma2211 (xh xl y z : ℚ) : ℚ × ℚ :=
  let m := mul221 rnd xh xl y
  add221 rnd m.1 m.2 z

/-- ml_blocks.py:835-838 `MP_FMA2122` -/
def mpFma2122 (x yh yl zh zl : ℚ) : ℚ × ℚ :=
  let m := mul212 rnd x yh yl
  add222 rnd m.1 m.2 zh zl

/-- ml_blocks.py:840-843 `MP_FMA2212`: calls `Mul212(xh, xl, y)`. -/
def mpFma2212 (xh xl y zh zl : ℚ) : ℚ × ℚ :=
  let m := mul212 rnd xh xl y
  add222 rnd m.1 m.2 zh zl

/-- ml_blocks.py:943-951 `MP_Add333` -/
def add333 (xh xm xl yh ym yl : ℚ) : ℚ × ℚ × ℚ :=
  let a := add211 rnd xh yh
  let b := add211 rnd xm ym
  let c := add211 rnd a.2 b.1
  let t6 := rnd (xl + yl)
  let t5 := rnd (b.2 + c.2)
  let t8 := rnd (t5 + t6)
  let r := add211 rnd c.1 t8
  (a.1, r.1, r.2)

/-- ml_blocks.py:966-970 `MP_Add321` -/
def add321 (xh xl y : ℚ) : ℚ × ℚ × ℚ :=
  let r := fastTwoSum rnd xh y
  let s := twoSum rnd r.2 xl
  (r.1, s.1, s.2)

/-- ml_blocks.py:972-976 `MP_Add321_v2`: the last limb returned is `xl`, not `rl`. -/
def add321v2 (xh xl y : ℚ) : ℚ × ℚ × ℚ :=
  let r := fastTwoSum rnd y xh
  let s := fastTwoSum rnd r.2 xl
  (r.1, s.1, xl)

/-- ml_blocks.py:1453-1459 `Normalize_33` -/
def normalize33 (xh xm xl : ℚ) : ℚ × ℚ × ℚ :=
  let a := add211 rnd xm xl
  let b := add211 rnd xh a.1
  let c := add211 rnd b.2 a.2
  (b.1, c.1, c.2)

/-- ml_blocks.py:1556-1560 `Normalize_23` -/
def normalize23 (xh xm xl : ℚ) : ℚ × ℚ :=
  let a := add211 rnd xm xl
  let b := add211 rnd xh a.1
  let rl := rnd (b.2 + a.2)
  (b.1, rl)

/-! Declared errors (`_local_relative_error_eval`, `_global_relative_error_eval`); `p` is
`main_precision.get_mantissa_size()`. Sollya's arbitrary-precision arithmetic is exact ℚ. -/

/-- ml_blocks.py:270-271 `Op111_MetaBlock._local_relative_error_eval` -/
def local111 (p : ℕ) : ℚ := (2 : ℚ) ^ (-(p : ℤ))

/-- ml_blocks.py:306-310 `MB_Mul111._global_relative_error_eval` -/
def globalMul111 (p : ℕ) (ex ey : ℚ) : ℚ := ex + ey + local111 p

/-- ml_blocks.py:316-320 `MB_Add111._global_relative_error_eval` (also 527-530, 577-580, 737-740:
`eps_op` replaced by the block's own local error) -/
def globalMax (eop ex ey : ℚ) : ℚ := eop + max ex ey + eop * max ex ey

/-- ml_blocks.py:345-347 `MB_Mul211._global_relative_error_eval` -/
def globalMul211 (ex ey : ℚ) : ℚ := ex + ey + ex * ey

/-- ml_blocks.py:359-361 `MB_Add211._global_relative_error_eval` -/
def globalAdd211 (ex ey : ℚ) : ℚ := max ex ey

/-- ml_blocks.py:391-395 `MB_Mul221._local_relative_error_eval` (both limbs of mantissa `p`) -/
def localMul221 (p : ℕ) : ℚ := (2 : ℚ) ^ (-((p : ℤ) + p - 4))

/-- ml_blocks.py:397-401 `MB_Mul221._global_relative_error_eval` -/
def globalMul221 (p : ℕ) (ex ey : ℚ) : ℚ := ex + ey + localMul221 p

/-- ml_blocks.py:532-535 `MB_Add221._local_relative_error_eval` -/
def localAdd221 (p : ℕ) : ℚ := (2 : ℚ) ^ (-((p : ℤ) * 2 - 3))

/-- ml_blocks.py:582-585 `MB_Add222._local_relative_error_eval` -/
def localAdd222 (p : ℕ) : ℚ := (2 : ℚ) ^ (-((p : ℤ) * 2 - 6))

/-- ml_blocks.py:742-745 `MB_Mul222._local_relative_error_eval` -/
def localMul222 (p : ℕ) : ℚ := (2 : ℚ) ^ (-((p : ℤ) * 2 - 4))

/-! Selection of the fast sum from operand ranges. -/

/-- Sollya's `abs` of an interval `[lo, hi]`: its infimum. -/
def absInf (lo hi : ℚ) : ℚ := if lo ≤ 0 ∧ 0 ≤ hi then 0 else min |lo| |hi|

/-- Sollya's `abs` of an interval `[lo, hi]`: its supremum. -/
def absSup (lo hi : ℚ) : ℚ := max |lo| |hi|

/-- ml_blocks.py:1065-1067 `is_interval_lt(op0, factor, op1)` -/
def isIntervalLt (l0 h0 factor l1 h1 : ℚ) : Bool := decide (absSup l0 h0 < factor * absInf l1 h1)

/-- ml_blocks.py:1072-1073 `is_interval_gt(op0, factor, op1)` -/
def isIntervalGt (l0 h0 factor l1 h1 : ℚ) : Bool := isIntervalLt l1 h1 (1 / factor) l0 h0

/-- ml_blocks.py:363-373 `MB_Add211_Fast`: check on the operand ranges (formats given equal, ranges
known), then `expand`; `none` when the block is not selected. -/
def add211Fast (lx hx ly hy x y : ℚ) : Option (ℚ × ℚ) :=
  if isIntervalGt lx hx 1 ly hy then some (fastTwoSum rnd x y) else none

/-- ml_blocks.py:213-230,375-377 `MB_Add211_Fast_rev`: the commuted block checks and expands with
the operands swapped. -/
def add211FastRev (lx hx ly hy x y : ℚ) : Option (ℚ × ℚ) := add211Fast rnd ly hy lx hx y x

end Verif.Blocks
