import Verif.Fixed.Spec
import Mathlib.Data.Nat.Log

/-!
# Model of fixed-point formats, datapath sizing and format unification
-/

namespace Verif.Fixed

/-- Failure raised through `Log.report(Log.Error, ...)`. -/
inductive Err | outOfRange | negativeUnsigned | notDyadic | badSize
deriving DecidableEq, Repr

/-- Python's `int(x)` on a number: truncation toward zero. -/
def pyInt (q : ℚ) : ℤ := if 0 ≤ q then ⌊q⌋ else -⌊-q⌋

/-- `ML_Base_FixedPoint_Format.get_max_value`, `core/ml_formats.py` lines 793-797. -/
def maxValue (f : Fmt) : ℚ :=
  let offset : ℤ := if f.signed then -1 else 0
  let maxCodeExp := f.int + f.frac
  ((2 : ℚ) ^ (maxCodeExp + offset) - 1) * (2 : ℚ) ^ (-f.frac)

/-- `ML_Base_FixedPoint_Format.get_min_value`, `core/ml_formats.py` lines 815-821. -/
def minValue (f : Fmt) : ℚ :=
  if !f.signed then 0
  else -((2 : ℚ) ^ (f.int + f.frac - 1) * (2 : ℚ) ^ (-f.frac))

/-- `ML_Base_FixedPoint_Format.truncate`, `core/ml_formats.py` lines 824-830. The bitwise and with `2^bit_size - 1`
on a Python integer is the remainder modulo `2^bit_size`; formats have a positive bit size. -/
def truncate (f : Fmt) (value : ℚ) : ℚ :=
  let descaled := value * (2 : ℚ) ^ f.frac
  let masked : ℤ := pyInt descaled % (2 : ℤ) ^ f.bits.toNat
  let scaled := (masked : ℚ) * (2 : ℚ) ^ (-f.frac)
  if scaled > maxValue f then scaled - (2 : ℚ) ^ f.int else scaled

/-- `ML_Base_FixedPoint_Format.saturate`, `core/ml_formats.py` lines 849-852. -/
def saturate (f : Fmt) (value : ℚ) : ℚ := min (max value (minValue f)) (maxValue f)

/-- `ML_Base_FixedPoint_Format.get_integer_coding`, `core/ml_formats.py` lines 855-865 (this definition overrides the
one at lines 763-765). Log errors are exceptions. `~n + 1` is `-n`. -/
def integerCoding (f : Fmt) (value : ℚ) : Except Err ℤ :=
  if value > maxValue f ∨ value < minValue f then .error .outOfRange
  else if value < 0 then
    if !f.signed then .error .negativeUnsigned
    else .ok ((-(pyInt (|value| * (2 : ℚ) ^ f.frac))) % (2 : ℤ) ^ f.bits.toNat)
  else .ok (pyInt (value * (2 : ℚ) ^ f.frac))

/-- `ML_Base_FixedPoint_Format.get_value_from_integer_coding` with `base=None`, `core/ml_formats.py` lines 766-770. -/
def valueFromCoding (f : Fmt) (code : ℤ) : ℚ := code * (2 : ℚ) ^ (-f.frac)

/-- `ML_Base_SW_FixedPoint_Format.POSSIBLE_SIZES`, `core/ml_formats.py` line 918. -/
def possibleSizes : List ℕ := [8, 16, 32, 64, 128]

/-- Choice of `c_bit_size` in `ML_Base_SW_FixedPoint_Format.__init__`, `core/ml_formats.py` lines 948-960. Bit sizes
outside `[MIN_BIT_SIZE, MAX_BIT_SIZE]` = [1, 128] get no container (lines 949-951). -/
def cBitSize (int frac : ℤ) : Option ℕ :=
  let bitSize := int + frac
  if bitSize < 1 ∨ bitSize > 128 then none
  else (possibleSizes.filter (fun n : ℕ => decide (bitSize ≤ (n : ℤ)))).min?

/-! ## Datapath sizing -/

/-- A numeric range reported by `evaluate_range`: lower and upper bound. -/
abbrev Range := ℚ × ℚ

/-- `addsub_signed_predicate`, `opt/p_size_datapath.py` lines 226-237; `resultRange` is `safe(op)(left, right)`. -/
def addsubSigned (resultRange : Option Range) (default : Bool) : Bool :=
  match resultRange with
  | none => default
  | some (lo, _) => if lo < 0 then true else false

/-- `solve_format_Addition`, `opt/p_size_datapath.py` lines 254-265 with `solve_format_ArithOperation` lines 181-224 and
`add_signed_predicate` lines 243-250, for two fixed-point operands. Abstract `ML_Integer` operands are first replaced by
the format of their constant value, which `minimalCstFmt` models. -/
def solveAdd (l r : Fmt) (resultRange : Option Range) : Fmt :=
  { int := max l.int r.int + 1, frac := max l.frac r.frac,
    signed := addsubSigned resultRange (l.signed || r.signed) }

/-- `solve_format_Subtraction`, `opt/p_size_datapath.py` lines 287-312. -/
def solveSub (l r : Fmt) (resultRange : Option Range) : Fmt :=
  let intInc : ℤ := if !l.signed then 1 else 0
  { int := max l.int r.int + intInc, frac := max l.frac r.frac,
    signed := addsubSigned resultRange true }

/-- `solve_format_Multiplication`, `opt/p_size_datapath.py` lines 268-284. -/
def solveMul (l r : Fmt) : Fmt :=
  let extra : ℤ := if xor r.signed l.signed then 1 else 0
  { int := l.int + r.int + extra, frac := l.frac + r.frac, signed := l.signed || r.signed }

/-- `solve_format_Negation`, `opt/p_size_datapath.py` lines 355-373. -/
def solveNeg (x : Fmt) : Fmt :=
  let intInc : ℤ := if !x.signed then 1 else 0
  { int := x.int + intInc, frac := x.frac, signed := true }

/-- `solve_format_CLZ`, `opt/p_size_datapath.py` lines 141-167 for an input of `n` bits; `floor(log2 n)` is `Nat.log 2 n`. -/
def solveClz (n : ℕ) : Fmt := { int := Nat.log 2 n + 1, frac := 0, signed := false }

/-- `solve_format_Concatenation`, `opt/p_size_datapath.py` lines 471-477, for operands of the given bit sizes. -/
def solveConcat (sizes : List ℕ) : Fmt := { int := (sizes.foldl (· + ·) 0 : ℕ), frac := 0, signed := false }

/-- `solve_format_SubSignalSelection`, `opt/p_size_datapath.py` lines 479-497, for a fixed-point input. The result is
built with `fixed_point(integer_size, frac_size)`, whose default is signed (`core/ml_hdl_format.py` `fixed_point`). -/
def solveSubSignal (x : Fmt) (infIdx supIdx : ℤ) : Except Err Fmt :=
  let frac := x.frac - infIdx
  let int := x.int - (x.bits - 1 - supIdx)
  if frac + int ≤ 0 then .error .badSize else .ok { int := int, frac := frac, signed := true }

/-- First loop of `determine_minimal_fixed_format_cst`, `opt/p_size_datapath.py` lines 430-436: the first `i < 100` with
`int(value * 2^i) == value * 2^i`. -/
def findFrac (value : ℚ) : Option ℕ :=
  (List.range 100).find? (fun i => decide ((pyInt (value * (2 : ℚ) ^ i) : ℚ) = value * (2 : ℚ) ^ i))

/-- `ceil(log2 q)` for `q ≥ 1`: the least `k` with `q ≤ 2^k`, computed on `⌈q⌉`. -/
def ceilLog2 (q : ℚ) : ℕ := Nat.clog 2 ⌈q⌉₊

/-- `determine_minimal_fixed_format_cst`, `opt/p_size_datapath.py` lines 426-445. -/
def minimalCstFmt (value : ℚ) : Except Err Fmt :=
  match findFrac value with
  | none => .error .notDyadic
  | some frac =>
    let signed : Bool := decide (value < 0)
    let int : ℕ := ceilLog2 (|value| + 1) + (if signed then 1 else 0)
    let int := if frac = 0 ∧ int = 0 then 1 else int
    .ok { int := int, frac := frac, signed := signed }

/-- `format_does_fit`, `opt/p_size_datapath.py` lines 545-558. -/
def formatDoesFit (value : ℚ) (new : Fmt) : Except Err Bool :=
  match minimalCstFmt value with
  | .error e => .error e
  | .ok m =>
    let signBias : ℤ := if new.signed && !m.signed then 1 else 0
    .ok (decide (new.int - signBias ≥ m.int) && decide (new.frac ≥ m.frac) && (new.signed || !m.signed))

/-! ## Format unification -/

/-- `largest_format`, `opt/rtl_fixed_point_utils.py` lines 67-89, fixed-point branch. -/
def largestFixed (f0 f1 : Fmt) : Fmt :=
  let unsignedInt := if f1.signed then f0.int else f1.int
  let signedInt := if f1.signed then f1.int else f0.int
  let xorSigned := (f0.signed != f1.signed) && decide (unsignedInt ≥ signedInt)
  { int := max f0.int f1.int + (if xorSigned then 1 else 0), frac := max f0.frac f1.frac,
    signed := f0.signed || f1.signed }

/-- What a node's precision can be: undefined, the abstract integer format, a fixed-point format or another concrete
format of which only an identity and a bit size matter here. -/
inductive Prec
  | undef
  | integer
  | fixed (f : Fmt)
  | other (id bits : ℕ)
deriving DecidableEq, Repr

/-- `largest_format`, `opt/rtl_fixed_point_utils.py` lines 67-103, all branches. The function returns `None` both for an
undefined precision and for a failure; `Prec.undef` models both. `get_bit_size` of a fixed-point format is its `bits`. -/
def largestPrec (p0 p1 : Prec) : Prec :=
  match p0, p1 with
  | .fixed f0, .fixed f1 => .fixed (largestFixed f0 f1)
  | .undef, p => p
  | .integer, p => p
  | p, .undef => p
  | p, .integer => p
  | .fixed f, .other _ b => if f.bits = b then .fixed f else .undef
  | .other i b, .fixed f => if (b : ℤ) = f.bits then .other i b else .undef
  | .other i b, .other _ b' => if b = b' then .other i b else .undef

/-- `solve_equal_formats`, `opt/rtl_fixed_point_utils.py` lines 105-123. Python's `precision_list[0]` raises on an empty
list: modelled by `none`. -/
def solveEqual : List Prec → Option Prec
  | [] => none
  | p :: ps => some ((p :: ps).foldl largestPrec p)

end Verif.Fixed
