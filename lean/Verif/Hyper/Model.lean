import Verif.Elem.PowModel
import Verif.Rem.FmodModel

/-! # Models of ml_cosh.py, ml_sinh.py, erf.py, ml_expm1.py and ml_log1p.py

Every operation of the generated code is one of the operations of `Elem/Fp.lean`.  The polynomials (chosen by Sollya) are parameters, evaluated by any
function; the conversions out of range are a parameter `cv`; the constants of the argument reduction are parameters of the format.  Exception flags
are not modelled. -/

namespace Verif.Hyper

open Verif.Float (Fmt Val)
open Verif.Elem
open Verif.Rem (ftrunc)
open Verif.Check (numOf)

/-- the constants of ml_cosh.py:96-120 and ml_sinh.py:92-122: `inv_log2_value`, `log2_hi_value`, `log2_lo_value`, the overflow bound `ov_value` (ml_cosh.py:234,
ml_sinh.py:243), and the table (ml_cosh.py:150-166, ml_sinh.py:152-168): high and low parts of `2^(-i/2^s)` and of `2^(i/2^s)` -/
structure Consts where
  s : ℕ
  invLog2 : Val
  hi : Val
  lo : Val
  ov : Val
  negHi : ℕ → Val
  negLo : ℕ → Val
  posHi : ℕ → Val
  posLo : ℕ → Val

/-- ml_cosh.py:122, ml_sinh.py:124 `k`, of the absolute value `a` -/
noncomputable def kOf (F : Fmt) (C : Consts) (a : Val) : Val := ftrunc (fmul F C.invLog2 a)

/-- ml_cosh.py:123-129, ml_sinh.py:125-131 `r` -/
noncomputable def redOf (F : Fmt) (C : Consts) (a : Val) : Val :=
  fadd F (fsub F a (fmul F (kOf F C a) C.hi)) (fmul F (fneg (kOf F C a)) C.lo)

/-- ml_cosh.py:152, ml_sinh.py:154 `input_value` of the entry `i` of the table, `2^(s+1)` entries -/
def entry (s : ℕ) (i : ℤ) : ℕ := if 2 ^ s ≤ i then (i - 2 ^ s).toNat else i.toNat

/-- ml_cosh.py:145-148, 198-219, ml_sinh.py:146-149, 201-228 `pos_exp`, `neg_exp` and `hi_terms`: `k_lo` is the C remainder, `table_index` is `k_lo + 2^s`, `k_hi` is a right shift;
`Max` with the least normal exponent -/
noncomputable def terms (F : Fmt) (C : Consts) (P : Val → Val) (cv : Val → ℤ) (a : Val) : Val × Val × Val × Val :=
  let kI := convC F cv (kOf F C a)
  let r := redOf F C a
  let i := entry C.s (Int.tmod kI (2 ^ C.s) + 2 ^ C.s)
  let pp := insExp F (max (kI / 2 ^ C.s - 1) F.emin)
  let pn := insExp F (max (-(kI / 2 ^ C.s) - 1) F.emin)
  let posExp := fmul F (fadd F (fmul F (C.posHi i) (P r)) (fadd F (C.posLo i) (fmul F (C.posLo i) (P r)))) pp
  let negExp := fmul F (fadd F (fmul F (C.negHi i) (P (fneg r))) (fadd F (C.negLo i) (fmul F (C.negLo i) (P (fneg r))))) pn
  (posExp, negExp, fmul F (C.posHi i) pp, fmul F (C.negHi i) pn)

/-- ml_cosh.py:88-247 `generate_scalar_scheme` -/
noncomputable def cosh (F : Fmt) (C : Consts) (P : Val → Val) (cv : Val → ℤ) (x : Val) : Val :=
  let a := fabs x
  let t := terms F C P cv a
  if fgt a C.ov then .plusInf else fadd F (fadd F t.1 t.2.1) (fadd F t.2.2.1 t.2.2.2)

/-- ml_sinh.py:85-255 `generate_scalar_scheme` -/
noncomputable def sinh (F : Fmt) (C : Consts) (P : Val → Val) (cv : Val → ℤ) (x : Val) : Val :=
  let sign : Val := if flt x .plusZero then .num (-1) else .num 1
  let a := fabs x
  let t := terms F C P cv a
  if fgt a C.ov then fmul F sign .plusInf
  else fmul F sign (fadd F (fsub F t.1 t.2.1) (fsub F t.2.2.1 t.2.2.2))

/-- erf.py:101-213 `generate_scalar_scheme`: `eps`, `b1`, `b2` are the bounds of the three approximations, `Q` the polynomial of the first, `N` and `M` the piecewise
approximations -/
noncomputable def erf (F : Fmt) (eps b1 b2 : Val) (Q N M : Val → Val) (x : Val) : Val :=
  let sign : Val := if flt x .plusZero then .num (-1) else .num 1
  let a := fabs x
  if flt a eps then fmul F sign (ffma F (Q a) a a)
  else if flt a b1 then fmul F sign (N a)
  else if flt a b2 then fmul F sign (M a)
  else sign

/-- the constants of ml_expm1.py:100-129 -/
structure EConsts where
  over : Val
  under : Val
  invLog2 : Val
  hi : Val
  lo : Val

/-- ml_expm1.py:79-248 `generate_scalar_scheme`: `Q` is `pre_sub_poly`, the terms of degree two and more -/
noncomputable def expm1 (F : Fmt) (C : EConsts) (Q : Val → Val) (cv : Val → ℤ) (x : Val) : Val :=
  if isInfOrNaN x then (if isNaN x then .qNaN else if fgt x .plusZero then .plusInf else .num (-1))
  else if fgt x C.over then .plusInf
  else if flt x C.under then .num (-1)
  else
    let ik := convC F cv (fnearest (fmul F x C.invLog2))
    let k := cst F (ik : ℝ)
    let c1 := fmul F k C.hi
    let c2 := fmul F (fneg k) C.lo
    let d := fsub F x c1
    let s := fadd F d c2
    let z := fsub F s d
    let r := fadd F s (fsub F c2 z)
    let poly := fadd F r (Q r)
    if ik > F.emax then
      let off := F.emax - (F.f : ℤ) / 2
      fsub F (fmul F (fmul F (insExp F (ik - off)) (fadd F (.num 1) poly)) (insExp F off)) (.num 1)
    else if ik ≤ F.emin then
      fsub F (fmul F (fmul F (insExp F (ik + 2 * F.f)) (fadd F (.num 1) poly)) (insExp F (-(2 * F.f)))) (.num 1)
    else fmul F (insExp F ik) (fadd F poly (fsub F (.num 1) (insExp F (-ik))))

/-- ml_support_lib.h:187-188 `ml_mantissa_extraction`: the sign is kept; `nm` is the mantissa of a NaN -/
def signedMant (F : Fmt) (nm : Val) (x : Val) : Val := if sgn x then fneg (mantOf F nm x) else mantOf F nm x

/-- ml_log1p.py:82-291 `generate_scheme`: the result (ml_log1p.py:164-262) is a function `K` of `e + e_t` (`fp_e`), of `m_t` (the reciprocal seed and the entries of the table) and of the two numbers
`2^(-e-e_t)` and `m * 2^(-e_t)` (`red_vx`) -/
noncomputable def log1p (F : Fmt) (nm : Val) (K : ℤ → Val → Val → Val → Val) (x : Val) : Val :=
  if flt x (.num (-1)) then .qNaN
  else if isInfOrNaN x then (if isInf x then .plusInf else .qNaN)
  else
    let m := signedMant F nm x
    let e := expoOf F x
    let t := fadd F (insExp F (-e)) m
    let et := expoOf F t
    K (e + et) (signedMant F nm t) (insExp F (-e - et)) (fmul F m (insExp F (-et)))

end Verif.Hyper
