import Verif.Blocks.Model

/-! # Model of the three-limb blocks, metalibm_core/opt/ml_blocks.py

`rnd` is the rounding of the limb format; the limbs are rationals.  Every `Mul211` below is called without `fma` argument, whose
default value is `True` (438). -/

namespace Verif.Blocks

variable (rnd : ℚ → ℚ)

/-- ml_blocks.py:953-961 `MP_Add332` -/
def add332 (xh xm xl yh yl : ℚ) : ℚ × ℚ × ℚ :=
  let a := add211 rnd xh yh
  let b := add211 rnd xm yl
  let c := add211 rnd a.2 b.1
  let t5 := rnd (b.2 + c.2)
  let t8 := rnd (t5 + xl)
  let r := add211 rnd c.1 t8
  (a.1, r.1, r.2)

/-- ml_blocks.py:1052-1060 `MP_Add322`: the heads go through the fast two-sum. -/
def add322 (xh xl yh yl : ℚ) : ℚ × ℚ × ℚ :=
  let a := fastTwoSum rnd xh yh
  let b := add211 rnd xl yl
  let c := add211 rnd a.2 b.1
  let t6 := rnd (b.2 + c.2)
  let r := add211 rnd c.1 t6
  (a.1, r.1, r.2)

/-- ml_blocks.py:1105-1110 `MP_Add313` -/
def add313 (x yh ym yl : ℚ) : ℚ × ℚ × ℚ :=
  let a := add211 rnd x yh
  let b := add211 rnd a.2 ym
  let t4 := rnd (b.2 + yl)
  let r := add211 rnd b.1 t4
  (a.1, r.1, r.2)

/-- ml_blocks.py:1112-1114 `MB_Add331.expand` -/
def add331 (xh xm xl y : ℚ) : ℚ × ℚ × ℚ := add313 rnd y xh xm xl

/-- ml_blocks.py:1159-1167 `MP_Mul322` -/
def mul322 (xh xl yh yl : ℚ) : ℚ × ℚ × ℚ :=
  let a := mul211 rnd xh yh
  let b := mul211 rnd xh yl
  let c := mul211 rnd xl yh
  let t6 := rnd (xl * yl)
  let d := add222 rnd b.1 b.2 c.1 c.2
  let e := add211 rnd a.2 t6
  let r := add222 rnd d.1 d.2 e.1 e.2
  (a.1, r.1, r.2)

/-- ml_blocks.py:1198-1202 `MP_Mul321` -/
def mul321 (xh xl y : ℚ) : ℚ × ℚ × ℚ :=
  let a := mul211 rnd xh y
  let b := mul211 rnd xl y
  let r := add221 rnd b.1 b.2 a.2
  (a.1, r.1, r.2)

/-- ml_blocks.py:1289-1303 `MP_Mul323` -/
def mul323 (xh xl yh ym yl : ℚ) : ℚ × ℚ × ℚ :=
  let a := mul211 rnd xh yh
  let b := mul211 rnd xh ym
  let c := mul211 rnd xh yl
  let d := mul211 rnd xl yh
  let e := mul211 rnd xl ym
  let t10 := rnd (xl * yl)
  let f := add222 rnd b.1 b.2 c.1 c.2
  let g := add222 rnd d.1 d.2 e.1 e.2
  let h := add222 rnd f.1 f.2 g.1 g.2
  let i := add211 rnd a.2 t10
  let r := add222 rnd i.1 i.2 h.1 h.2
  (a.1, r.1, r.2)

/-- ml_blocks.py:1306-1309 `MP_Mul332` -/
def mul332 (xh xm xl yh yl : ℚ) : ℚ × ℚ × ℚ := mul323 rnd yh yl xh xm xl

/-- ml_blocks.py:1312-1338 `MP_Mul333`: the product of the two low limbs is not computed. -/
def mul333 (xh xm xl yh ym yl : ℚ) : ℚ × ℚ × ℚ :=
  let a := mul211 rnd xh yh
  let b := mul211 rnd xh ym
  let c := mul211 rnd xm yh
  let d := mul211 rnd xm ym
  let t8 := rnd (xh * yl)
  let t9 := rnd (xl * yh)
  let t10 := rnd (xm * yl)
  let t11 := rnd (xl * ym)
  let t12 := rnd (t8 + t9)
  let t13 := rnd (t10 + t11)
  let e := add211 rnd a.2 d.1
  let t16 := rnd (d.2 + e.2)
  let t17 := rnd (t12 + t13)
  let t18 := rnd (t16 + t17)
  let f := add211 rnd e.1 t18
  let g := add222 rnd b.1 b.2 c.1 c.2
  let r := add222 rnd g.1 g.2 f.1 f.2
  (a.1, r.1, r.2)

/-- ml_blocks.py:1385-1396 `MP_Mul313` -/
def mul313 (x yh ym yl : ℚ) : ℚ × ℚ × ℚ :=
  let a := mul211 rnd x yh
  let b := mul211 rnd x ym
  let t5 := rnd (x * yl)
  let c := add211 rnd a.2 b.1
  let t8 := rnd (b.2 + t5)
  let t10 := rnd (c.2 + t8)
  let r := add211 rnd c.1 t10
  (a.1, r.1, r.2)

/-- ml_blocks.py:1062-1064 `is_interval_le(op0, factor, op1)` -/
def isIntervalLe (l0 h0 factor l1 h1 : ℚ) : Bool := decide (absSup l0 h0 ≤ factor * absInf l1 h1)

/-! Declared local errors.  `ao`, `au`, `bo`, `bu` are `floor(-log2(limb_diff_factor[i]))` of the operands; the numeric
constants are those of the code, written for binary64. -/

/-- ml_blocks.py:869-875 `MB_Add333._local_relative_error_eval` -/
def localAdd333 (ao au bo bu : ℤ) : ℚ :=
  (2:ℚ) ^ (-(min (ao + au) (bo + bu)) - 47) + (2:ℚ) ^ (-(min ao au) - 98)

/-- ml_blocks.py:910-914 `MB_Add332._local_relative_error_eval` -/
def localAdd332 (bo bu : ℤ) : ℚ := (2:ℚ) ^ (-bo - bu - 52) + (2:ℚ) ^ (-bo - 104) + (2:ℚ) ^ (-153 : ℤ)

/-- ml_blocks.py:1090-1092 `MB_Add322._local_relative_error_eval` -/
def localAdd322 : ℚ := (2:ℚ) ^ (-120 : ℤ)

/-- ml_blocks.py:1127-1130 `MB_Add331._local_relative_error_eval` -/
def localAdd331 (bo bu : ℤ) : ℚ := (2:ℚ) ^ (-52 - bo - bu) + (2:ℚ) ^ (-154 : ℤ)

/-- ml_blocks.py:1184-1186 `MB_Mul322._local_relative_error_eval` -/
def localMul322 : ℚ := (2:ℚ) ^ (-149 : ℤ)

/-- ml_blocks.py:1217-1219 `MB_Mul321._local_relative_error_eval` -/
def localMul321 : ℚ := (2:ℚ) ^ (-154 : ℤ)

/-- ml_blocks.py:1251-1255 `MB_Mul332._local_relative_error_eval` -/
def localMul332 (bo bu : ℤ) : ℚ :=
  ((2:ℚ) ^ (-99 - bo) + (2:ℚ) ^ (-99 - bo - bu) + (2:ℚ) ^ (-152 : ℤ)) /
    (1 - (2:ℚ) ^ (-53 : ℤ) - (2:ℚ) ^ (-bo + 1) - (2:ℚ) ^ (-bo - bu + 1))

/-- ml_blocks.py:1358-1367 `MB_Mul333._local_relative_error_eval` (the sixth and seventh terms are the same expression). -/
def localMul333 (ao au bo bu : ℤ) : ℚ :=
  (2:ℚ) ^ (-151 : ℤ) + (2:ℚ) ^ (-99 - ao) + (2:ℚ) ^ (-99 - bo) + (2:ℚ) ^ (-49 - ao - au) + (2:ℚ) ^ (-49 - bo - bu) +
    (2:ℚ) ^ (50 - ao - bo - bu) + (2:ℚ) ^ (50 - ao - bo - bu) + (2:ℚ) ^ (-101 - ao - bo) +
    (2:ℚ) ^ (-52 - ao - au - bo - bu)

/-- ml_blocks.py:1414-1419 `MB_Mul313._local_relative_error_eval` -/
def localMul313 (bo bu : ℤ) : ℚ := (2:ℚ) ^ (-49 - bo - bu) + (2:ℚ) ^ (-101 - bo) + (2:ℚ) ^ (-156 : ℤ)

/-! Declared bounds on the ratio of the middle limb of the result to its head (`limb_diff_factors[0]` of
`get_output_descriptor`); the ratio of the low limb to the middle limb is declared to be `2^-53` by every block. -/

/-- ml_blocks.py:877-887 `MB_Add333.get_output_descriptor` -/
def factorAdd333 (ao bo : ℤ) : ℚ := (2:ℚ) ^ (-(min ao bo) + 5)

/-- ml_blocks.py:916-926 `MB_Add332.get_output_descriptor` -/
def factorAdd332 (bo bu : ℤ) : ℚ := (2:ℚ) ^ (-(min 45 (min (bo - 4) (bo + bu + 2))))

/-- ml_blocks.py:1002-1010 `MB_Add321.get_output_descriptor`, 1094-1102 `MB_Add322.get_output_descriptor` -/
def factorAdd32 : ℚ := (2:ℚ) ^ (-53 + 1 : ℤ)

/-- ml_blocks.py:1132-1142 `MB_Add331.get_output_descriptor` -/
def factorAdd331 (bo bu : ℤ) : ℚ := (2:ℚ) ^ (min (-47) (min (3 - bo) (1 - bo - bu)))

/-- ml_blocks.py:1188-1196 `MB_Mul322.get_output_descriptor` -/
def factorMul322 : ℚ := (2:ℚ) ^ (-49 : ℤ)

/-- ml_blocks.py:1221-1229 `MB_Mul321.get_output_descriptor` -/
def factorMul321 : ℚ := (2:ℚ) ^ (-47 : ℤ)

/-- ml_blocks.py:1257-1269 `MB_Mul332.get_output_descriptor` -/
def factorMul332 (bo bu : ℤ) : ℚ := (2:ℚ) ^ (-(min 48 (min (bo - 4) (bo + bu - 4))))

/-- ml_blocks.py:1421-1433 `MB_Mul313.get_output_descriptor` -/
def factorMul313 (bo bu : ℤ) : ℚ := (2:ℚ) ^ (-(min 47 (min (-5 + bo) (-5 + bo + bu))))

end Verif.Blocks
