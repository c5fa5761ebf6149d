import Verif.Elem.DivModel
import Verif.Rem.Spec

/-! # Model of metalibm_functions/remquo.py, the function `MetaRemQuo` generates

The assigned nodes `mx`, `my`, `q`, `i` and `loop_watchdog` are the variables of the loops.  The integers are those of the integer format of the same
size; a signed overflow of `q` is modelled as two's complement wrapping (C leaves it undefined, the generated function relies on it). -/

namespace Verif.Rem

open Verif.Float (Fmt Val)
open Verif.Elem

/-- ml_formats.py:557-582 `get_integer_format`, size of the integer format associated to a binary format -/
def intSize (F : Fmt) : ℕ := 1 + F.e + F.f

/-- a value of the signed integer format of the size of `F` -/
def wrap (F : Fmt) (z : ℤ) : ℤ := Int.bmod z (2 ^ intSize F)

/-- ml_support_lib.h:187-188 `ml_mantissa_extraction`: the sign and the significand field, with the exponent of 1 (a NaN is not used) -/
def mantExtract (F : Fmt) : Val → Val
  | .num v =>
    if |v| < (2 : ℚ) ^ F.emin then .num (if v < 0 then -(1 + |v| * (2 : ℚ) ^ (-F.emin)) else 1 + |v| * (2 : ℚ) ^ (-F.emin))
    else .num (v * (2 : ℚ) ^ (-Int.log 2 |v|))
  | .plusZero => .num 1
  | .minusZero => .num (-1)
  | .plusInf => .num 1
  | .minusInf => .num (-1)
  | a => a

/-- remquo.py:164-179 `mx` and `pre_my`: the operand scaled by the opposite of its exponent field, in two steps -/
noncomputable def scaleDown (F : Fmt) (a : Val) : Val :=
  let real_e := expExtract F a
  let h0 := real_e.tdiv 2
  let h1 := real_e - h0
  fabs (fmul F (fmul F a (insExp F (-h0))) (insExp F (-h1)))

/-- remquo.py:191-194 `my` -/
noncomputable def initMy (F : Fmt) (y : Val) : Val :=
  if isSubnormal F y then fabs (mantExtract F (fmul F y (.num ((2 : ℚ) ^ (F.f + 1))))) else scaleDown F y

/-- remquo.py:218-228 first loop; `none` is the return of the watchdog -/
noncomputable def loop1 (F : Fmt) (my : Val) (n : ℤ) : ℕ → ℤ → ℤ → Val → Option (ℤ × Val × ℕ)
  | 0, i, q, mx => if i < n then none else some (q, mx, 0)
  | w + 1, i, q, mx =>
    if i < n then
      loop1 F my n w (i + 1) (wrap F (wrap F (q * 2) + if fge mx my then 1 else 0))
        (fmul F (.num 2) (fsub F mx (if fge mx my then my else .plusZero)))
    else some (q, mx, w + 1)

/-- remquo.py:184-189, 230-231 the unscaling of `mx` and `my` -/
noncomputable def unscale (F : Fmt) (ex ey : ℤ) (a : Val) : Val :=
  let s := if ey < ex then ey else ex
  let h0 := s.tdiv 2
  let h1 := s - h0
  fmul F (fmul F a (insExp F h0)) (insExp F h1)

/-- remquo.py:232-242 second loop -/
noncomputable def loop2 (F : Fmt) (y : Val) : ℕ → ℤ → Val → Val → Option (ℤ × Val × ℕ)
  | 0, q, mx, my => if fgt my (fabs y) then none else some (q, mx, 0)
  | w + 1, q, mx, my =>
    if fgt my (fabs y) then
      loop2 F y w (wrap F (wrap F (q * 2) + if fge mx (fabs my) then 1 else 0))
        (fsub F mx (if fge mx (fabs my) then fabs my else .plusZero)) (fmul F my (.num (1 / 2)))
    else some (q, mx, w + 1)

/-- remquo.py:244-253 third loop -/
noncomputable def loop3 (F : Fmt) (y : Val) : ℕ → ℤ → Val → Option (ℤ × Val × ℕ)
  | 0, q, mx => if fgt mx (fabs y) then none else some (q, mx, 0)
  | w + 1, q, mx =>
    if fgt mx (fabs y) then
      loop3 F y w (wrap F (q + if fgt mx (fabs y) then 1 else 0)) (fsub F mx (if fgt mx (fabs y) then fabs y else .plusZero))
    else some (q, mx, w + 1)

/-- remquo.py:254-255 the quotient and the remainder truncated -/
noncomputable def reduce (F : Fmt) (y : Val) (q : ℤ) (mx : Val) : ℤ × Val :=
  (wrap F (q + if fge mx (fabs y) then 1 else 0), fsub F mx (if fge mx (fabs y) then fabs y else .plusZero))

/-- remquo.py:256-264 the remainder is above half the divisor; lines 203-204 for the scaling factors -/
noncomputable def overHalf (F : Fmt) (y : Val) (s : ℤ × Val) : ℤ × Val :=
  if fgt (fmul F s.2 (if isSubnormal F y then .num 2 else .num 1)) (fabs (fmul F y (if isSubnormal F y then .num 1 else .num (1 / 2)))) then
    (wrap F (s.1 + 1), fsub F s.2 (fabs y))
  else s

/-- remquo.py:265-276 the remainder is half the divisor and the quotient is odd -/
noncomputable def atHalf (F : Fmt) (y : Val) (s : ℤ × Val) : ℤ × Val :=
  if Check.cEq (fmul F s.2 (if isSubnormal F y then .num 2 else .num 1)) (fabs (fmul F y (if isSubnormal F y then .num 1 else .num (1 / 2)))) &&
      decide (s.1.tmod 2 = 1) then
    (wrap F (s.1 + 1), fsub F s.2 (fabs y))
  else s

/-- remquo.py:277-281, with `rem_sign` and `quo_sign` of lines 209-210; `k` is `quotient_size` -/
noncomputable def signs (F : Fmt) (k : ℕ) (x y : Val) (s : ℤ × Val) : Val × ℤ :=
  (fmul F (if flt x .plusZero then .num (-1) else .num 1) s.2,
   (if xor (flt x .plusZero) (flt y .plusZero) then -1 else 1) * (s.1 % 2 ^ intSize F % 2 ^ k))

/-- remquo.py:214-282 `loop`; `none` is a return of the watchdog -/
noncomputable def remLoop (F : Fmt) (k : ℕ) (x y : Val) : Option (Val × ℤ) :=
  let ex := expExtract F x
  let ey := expExtract F y
  match loop1 F (initMy F y) (ex - ey) 5000 0 0 (scaleDown F x) with
  | none => none
  | some (q, mx, w) =>
    match loop2 F y w q (unscale F ex ey mx) (unscale F ex ey (initMy F y)) with
    | none => none
    | some (q, mx, w) =>
      match loop3 F y w (wrap F (q * 2)) mx with
      | none => none
      | some (q, mx, _) => some (signs F k x y (atHalf F y (overHalf F y (reduce F y q mx))))

/-- remquo.py:301-366 `mod_scheme`: the remainder and the quotient -/
noncomputable def remquo (F : Fmt) (k : ℕ) (x y : Val) : Option (Val × ℤ) :=
  if isNaN x || isNaN y then some (.qNaN, 0)
  else if isZero y then some (.qNaN, 0)
  else if isZero x then some (x, 0)
  else if isInf x then some (.qNaN, 0)
  else if isInf y then some (x, 0)
  else if flt (fabs x) (fabs (fmul F y (.num (1 / 2)))) then some (x, 0)
  else if Check.cEq x y then some (fsub F x x, 1)
  else if Check.cEq x (fneg y) then some (fsub F x x, -1)
  else remLoop F k x y

/-- the value returned in the modes `remainder` and `full`, remquo.py:289-294; a watchdog returns -1 -/
noncomputable def remResult (F : Fmt) (k : ℕ) (x y : Val) : Val := ((remquo F k x y).map Prod.fst).getD (.num (-1))

/-- the value returned in the mode `quotient`, remquo.py:285-288; a watchdog returns -1 -/
noncomputable def quoResult (F : Fmt) (k : ℕ) (x y : Val) : ℤ := ((remquo F k x y).map Prod.snd).getD (-1)

/-- what the mode `full` writes through the pointer, remquo.py:292-294; a watchdog writes nothing -/
noncomputable def quoWritten (F : Fmt) (k : ℕ) (x y : Val) : Option ℤ := (remquo F k x y).map Prod.snd

end Verif.Rem
