import Verif.LogFx.Spec
import Verif.Fixed.Model
import Mathlib.Algebra.Order.Floor.Ring
import Mathlib.Data.Rat.Floor

/-! # Model of `metalibm_functions/ml_log_fixed64.py`

Numbers are exact rationals: every node of the reduction has the precision `ML_Exact` or is an explicit `Conversion`. Gappa is an external
tool: where the code uses a bound it returned, the model takes the bound as an argument and the theorems ask that it be true. -/

namespace Verif.LogFx

/-- `Conversion` to `ML_Custom_FixedPoint_Format(_, k, False)` with `ML_RoundTowardMinusInfty`, `ml_log_fixed64.py` lines 159-161, 175-177 -/
def dn (k : ℕ) (v : ℚ) : ℚ := ⌊v * 2 ^ k⌋ / 2 ^ k

/-- `Conversion` to `ML_Custom_FixedPoint_Format(_, k, False)` with `ML_RoundTowardPlusInfty`, `ml_log_fixed64.py` lines 168-170, 184-186 -/
def up (k : ℕ) (v : ℚ) : ℚ := ⌈v * 2 ^ k⌉ / 2 ^ k

/-- the nodes of the reduction -/
structure Red where
  s : ℚ
  invX : ℚ
  y : ℚ
  dy : ℚ
  t : ℚ
  invY : ℚ
  z : ℚ
  dz : ℚ

/-- `MetaFixedLog.eval_argument_reduction`, `ml_log_fixed64.py` lines 150-190: the nodes of the two-step reduction -/
def reduce (size1 prec1 size2 prec2 : ℕ) (dx : ℚ) : Red :=
  let x := dx + 1
  let x1 := dn size1 x
  let s := (x1 - 1) * 2 ^ size1
  let inv_x1 := 1 / x1
  let inv_x := up prec1 inv_x1
  let y := x * inv_x
  let dy := y - 1
  let y1 := dn size2 y
  let t := (y1 - 1) * 2 ^ size2
  let inv_y1 := 1 / y1
  let inv_y := up prec2 inv_y1
  let z := y * inv_y
  let dz := z - 1
  ⟨s, inv_x, y, dy, t, inv_y, z, dz⟩

/-- `length_table1`, `length_table2`, `ml_log_fixed64.py` lines 221-222: from the upper end of the interval Gappa gives for the index -/
def tableLength (supIndex : ℚ) : ℤ := 1 + ⌊supIndex⌋

/-- `sizeof_table1`, `sizeof_table2`, `ml_log_fixed64.py` lines 234-235: bytes; `none` when the format has no container -/
def sizeofTable (length : ℤ) (prec : ℕ) : Option ℚ :=
  (Fixed.cBitSize 1 prec).map fun b => length * (16 + (b : ℚ) / 8)

/-- `MetaFixedLog.evaluate_argument_reduction`, `ml_log_fixed64.py` lines 87-136: one step; `(y - 1, length of the table)` for the upper end of
the interval of the argument -/
def reduceOne (supIn : ℚ) (inv_size inv_prec : ℕ) (dx : ℚ) : ℚ × ℤ :=
  let x := dx + 1
  let x1 := dn inv_size x
  let inv_x := up inv_prec (1 / x1)
  (x * inv_x - 1, 1 + ⌊supIn * 2 ^ inv_size⌋)

/-- `generate_argument_reduction`, `ml_log_fixed64.py` lines 245-249: the parameters are fixed, the search after the first `return` is dead
code and is not modelled -/
def params : ℕ × ℕ × ℕ × ℕ := (6, 10, 12, 13)

/-- the limit given by `generate_scheme`, `ml_log_fixed64.py` line 347 -/
def memoryLimit : ℚ := 2500

/-- entry `i` of `inv_table_1`, `ml_log_fixed64.py` lines 368-372; `i/S2*size1` is `(i/2)*size1`. Entries that are not set are `None`
(`core/ml_table.py` lines 62-69). -/
def invTable1 (length1 size1 prec1 : ℕ) (i : ℕ) : Option ℚ :=
  if i < length1 - 1 then
    let x1 : ℚ := 1 + (i : ℚ) / 2 * size1
    some (⌈2 ^ prec1 / x1⌉ * 2 ^ prec1)
  else none

/-- the value of the variable `x1` after the first loop, `ml_log_fixed64.py` lines 369-370 (`none`: the loop has no step and the name is not
bound) -/
def lastX1 (length1 size1 : ℕ) : Option ℚ :=
  if length1 - 1 = 0 then none else some (1 + ((length1 - 2 : ℕ) : ℚ) / 2 * size1)

/-- entry `i` of `inv_table_2`, `ml_log_fixed64.py` lines 382-386: the variable `x1` is the one left by the first loop -/
def invTable2 (length1 size1 length2 prec2 : ℕ) (i : ℕ) : Option ℚ :=
  if i < length2 - 1 then
    match lastX1 length1 size1 with
    | none => none
    | some x1 => some (⌈2 ^ prec2 / x1⌉ * 2 ^ prec2)
  else none

/-- the bits of `v` a result of the format `ML_Custom_FixedPoint_Format(int, frac, False)` keeps: the lower ones are cut and the higher ones
lost. Simplification: what the processor's fixed-point operators do when the format is too small is taken from the comments of
`ml_log_fixed64.py` (lines 436-437). -/
def keep (int : ℤ) (frac : ℕ) (v : ℚ) : ℚ :=
  let w := dn frac v
  w - 2 ^ int * ⌊w / 2 ^ int⌋

/-- the datapath of `generate_scheme`, `ml_log_fixed64.py` lines 417-439: from the significand `dx` to `v_dz`, for given tables. A missing
entry gives `none`. -/
def datapath (size1 prec1 size2 prec2 : ℕ) (T1 T2 : ℕ → Option ℚ) (dx : ℚ) : Option ℚ :=
  let index_x := ⌊dx * 2 ^ size1⌋.toNat
  match T1 index_x with
  | none => none
  | some inv_x =>
    let v_x := keep 1 52 (dx + 1)
    let v_dy := keep 0 (52 + prec1) (v_x * inv_x)
    let index_y := ⌊v_dy * 2 ^ size2⌋.toNat
    match T2 index_y with
    | none => none
    | some inv_y =>
      let v_y := keep 1 (52 + prec2) (v_dy + 1)
      some (keep (64 - 52 - prec1 - prec2) (52 + prec1 + prec2) (v_y * inv_y))

/-- a binary64 input by class; a normal positive one is `2 ^ e (1 + dx)` -/
inductive Input where
  | qNaN | sNaN | plusInf | minusInf | zero | subnormal | negative
  | normal (e : ℤ) (dx : ℚ)

/-- what the function does: return a value, return a NaN (and signal invalid or not), or reach its end without returning -/
inductive Out where
  | value (r : ℚ)
  | nan (invalid : Bool)
  | nothing
  deriving DecidableEq

/-- `generate_scheme`, `ml_log_fixed64.py` lines 392-448, for any tables and any polynomial `P`: special cases, then the value of the
polynomial at the reduced argument. The exponent `ve` is not used. A missing table entry is `nothing`. -/
def logFixed (size1 prec1 size2 prec2 : ℕ) (T1 T2 : ℕ → Option ℚ) (P : ℚ → ℚ) : Input → Out
  | .sNaN => .nan true
  | .qNaN => .nan false
  | .plusInf => .nothing
  | .minusInf => .nothing
  | .zero => .nothing
  | .subnormal => .nothing
  | .negative => .nothing
  | .normal _ dx =>
    match datapath size1 prec1 size2 prec2 T1 T2 dx with
    | none => .nothing
    | some dz => .value (P dz)

end Verif.LogFx
