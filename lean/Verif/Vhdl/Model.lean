import Verif.Vhdl.Spec
import Verif.Fixed.Model

/-!
# Model of the fixed-point operations of the VHDL backend (property C116)

`metalibm_core/code_generation/vhdl_backend.py` rewrites every operation on fixed-point nodes into operations on bit
vectors: extensions, selections, and the arithmetic of the VHDL package `std_logic_arith` (the package named in
`metalibm_core/core/ml_entity.py` line 567). The model computes the bits of the rewritten circuit. `none` stands for VHDL
that is not legal: an empty or out of range selection, or an assignment between vectors of different lengths.

Not modelled: attributes and pipeline stages of the nodes, constants given as abstract integers (`ML_Integer`), the
printing of the VHDL text.
-/

namespace Verif.Vhdl

open Verif.Fixed

/-! ## Vectors -/

/-- `zext`, `metalibm_hw_blocks/rtl_blocks.py` lines 38-45, and `zext_modifier`, `vhdl_backend.py` lines 168-191: zero bits
concatenated on the left. -/
def zext (v : Vec) (s : ℕ) : Vec := ⟨v.size + s, v.val⟩

/-- `sext`, `rtl_blocks.py` lines 61-67, and `sext_modifier`, `vhdl_backend.py` lines 196-223: copies of the most
significant bit concatenated on the left. -/
def sext (v : Vec) (s : ℕ) : Vec :=
  ⟨v.size + s, v.val + (if 2 * v.val < 2 ^ v.size then 0 else (2 ^ s - 1) * 2 ^ v.size)⟩

/-- `rzext`, `rtl_blocks.py` lines 71-78: zero bits concatenated on the right. -/
def rzext (v : Vec) (s : ℕ) : Vec := ⟨v.size + s, v.val * 2 ^ s⟩

/-- `SubSignalSelection(v, lo, hi)` as printed by `sub_signal_generator`, `vhdl_backend.py` lines 303-329:
`v(hi downto lo)`. A selection that is empty or out of range is not legal. -/
def sel (v : Vec) (lo hi : ℤ) : Option Vec :=
  if 0 ≤ lo ∧ lo ≤ hi ∧ hi < v.size then
    some ⟨(hi - lo + 1).toNat, v.val / 2 ^ lo.toNat % 2 ^ (hi - lo + 1).toNat⟩
  else none

/-- `+` of `std_logic_arith` on two vectors of the same length and signedness. -/
def addV (a b : Vec) : Vec := ⟨a.size, (a.val + b.val) % 2 ^ a.size⟩

/-- `-` of `std_logic_arith` on two vectors of the same length and signedness. -/
def subV (a b : Vec) : Vec := ⟨a.size, (a.val + 2 ^ a.size - b.val) % 2 ^ a.size⟩

/-- `*` of `std_logic_arith`: the product has as many bits as the operands together, one more when one operand is signed
and the other is not. -/
def mulV (sa sb : Bool) (a b : Vec) : Vec :=
  let n := a.size + b.size + (if sa != sb then 1 else 0)
  ⟨n, ((a.num sa * b.num sb) % 2 ^ n).toNat⟩

/-- Negation of a bit vector, `negation_modifer`, `vhdl_backend.py` lines 226-243: the complement plus one. -/
def negV (a : Vec) : Vec := ⟨a.size, (2 ^ a.size - 1 - a.val + 1) % 2 ^ a.size⟩

/-! ## Operations on fixed-point nodes -/

/-- `fixed_conversion_modifier`, `vhdl_backend.py` lines 350-399: from format `f` to format `o`. -/
def conv (f o : Fmt) (v : Vec) : Option Vec :=
  let intExt := o.int - f.int
  let fracExt := o.frac - f.frac
  (if intExt > 0 then some ((if f.signed then sext else zext) v intExt.toNat)
    else if intExt < 0 then sel v 0 (v.size - 1 + intExt)
    else some v).bind fun l =>
  if fracExt > 0 then some (rzext l fracExt.toNat)
  else if fracExt < 0 then sel l (-fracExt) (l.size - 1)
  else some l

/-- `adapt_fixed_optree`, `vhdl_backend.py` lines 534-566: from `ri` integer and `rf` fraction bits to the format `o`. -/
def adapt (raw : Vec) (ri rf : ℤ) (o : Fmt) : Option Vec :=
  let msb := o.int - ri
  let lsb := o.frac - rf
  (if msb ≥ 0 then some ((if o.signed then sext else zext) raw msb.toNat)
    else sel raw 0 (rf + ri - 1 + msb)).bind fun l =>
  if lsb ≥ 0 then some (rzext l lsb.toNat) else sel l (-lsb) (l.size - 1)

/-- An operand of `fixed_point_op_modifier` after its extensions, `vhdl_backend.py` lines 615-635. -/
def operand (f : Fmt) (ri rf : ℤ) (v : Vec) : Vec :=
  (if f.signed then sext else zext) (rzext v (rf - f.frac).toNat) (ri - f.int).toNat

/-- `fixed_point_op_modifier`, `vhdl_backend.py` lines 571-646: addition when `sub` is false and subtraction when it is
true (`fixed_point_add_modifier`, `fixed_point_sub_modifier`, lines 713-718). -/
def addsub (sub : Bool) (lf rf o : Fmt) (a b : Vec) : Option Vec :=
  let fr := max lf.frac rf.frac
  let int := max lf.int rf.int + 1
  let l := operand lf int fr a
  let r := operand rf int fr b
  adapt (if sub then subV l r else addV l r) int fr o

/-- `fixed_point_mul_modifier`, `vhdl_backend.py` lines 649-710. -/
def mul (lf rf o : Fmt) (a b : Vec) : Option Vec :=
  let extra : ℤ := if lf.signed != rf.signed then 1 else 0
  adapt (mulV lf.signed rf.signed a b) (lf.int + rf.int + extra) (lf.frac + rf.frac) o

/-- `fixed_point_negation_modifier`, `vhdl_backend.py` lines 245-266. -/
def neg (f o : Fmt) (v : Vec) : Option Vec := (conv f o v).map negV

/-- The four order relations. -/
inductive Order | lt | le | gt | ge
deriving DecidableEq, Repr

/-- The order relations on a linear order. -/
def Order.on {α : Type} [LinearOrder α] : Order → α → α → Bool
  | .lt, x, y => decide (x < y)
  | .le, x, y => decide (x ≤ y)
  | .gt, x, y => decide (y < x)
  | .ge, x, y => decide (y ≤ x)

/-- `convert_if_needed`, `vhdl_backend.py` lines 470-478. -/
def convIfNeeded (f o : Fmt) (v : Vec) : Option Vec := if f = o then some v else conv f o v

/-- `fixed_comparison_modifier`, `vhdl_backend.py` lines 483-526: both operands in the larger format, each read with the
signedness it had. The comparison of `std_logic_arith` compares the numbers the two vectors spell, whatever their
signedness. -/
def compare (c : Order) (lf rf : Fmt) (a b : Vec) : Option Bool :=
  let u := largestFixed lf rf
  (convIfNeeded lf u a).bind fun l =>
  (convIfNeeded rf u b).bind fun r =>
  some (c.on (l.num lf.signed) (r.num rf.signed))

/-- `Equal` on two fixed-point nodes, `vhdl_backend.py` lines 1107-1110: the operator `=` of the two vectors themselves. -/
def equal (_lf _rf : Fmt) (a b : Vec) : Bool := decide (a = b)

/-- The shift operations. -/
inductive Shift | right | arith | left
deriving DecidableEq, Repr

/-- `shr` and `shl` of `std_logic_arith` as printed by `shift_generator`, `vhdl_backend.py` lines 281-283: the amount is
read without sign; a right shift of a signed vector copies its sign. -/
def shiftV : Shift → Vec → ℕ → Vec
  | .right, v, k => ⟨v.size, v.val / 2 ^ k⟩
  | .arith, v, k => ⟨v.size, ((v.sgn / 2 ^ k) % 2 ^ v.size).toNat⟩
  | .left, v, k => ⟨v.size, v.val * 2 ^ k % 2 ^ v.size⟩

/-- `fixed_shift_modifier`, `vhdl_backend.py` lines 426-463, with `legalizing_fixed_shift_amount`, lines 401-423: the
operand is first converted to the format of the result. The amount is a signal without fraction bits. -/
def shift (s : Shift) (f o : Fmt) (v k : Vec) : Option Vec := (conv f o v).map fun w => shiftV s w k.val

/-- `shift_by_cst_legalizer`, `vhdl_backend.py` lines 109-166: the shift by a constant. A concatenation whose length is
not that of the result is not legal. -/
def shiftCst (s : Shift) (_f o : Fmt) (v : Vec) (k : ℕ) : Option Vec :=
  if k = 0 then some v
  else
    let raw : Option Vec :=
      match s with
      | .right => (sel v k (v.size - 1)).map fun w => ⟨k + w.size, w.val⟩
      | .arith => (sel v k (v.size - 1)).map fun w =>
          ⟨k + w.size, (if 2 * v.val < 2 ^ v.size then 0 else 2 ^ k - 1) * 2 ^ w.size + w.val⟩
      | .left => (sel v 0 (v.size - 1 - k)).map fun w => ⟨w.size + k, w.val * 2 ^ k⟩
    raw.bind fun r => if (r.size : ℤ) = o.int + o.frac then some r else none

end Verif.Vhdl
