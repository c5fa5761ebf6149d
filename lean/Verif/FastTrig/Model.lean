import Verif.FastTrig.Spec
import Verif.FixC.Model

/-! # Model of the fast sine and cosine, metalibm_functions/ml_fast_sincos.py

The operations are those of the fixed-point backend (`Verif.FixC.Model`), the default target (line 88). `m` is the logarithm
of the bound of the input interval (lines 103-104), `t` the logarithm of the size of the table. The values of the table and
the two coefficients are parameters (they are computed by Sollya). The coefficients of degree 0 are not used by the code
(lines 155, 165). The conversion of the result to floating point (line 178) is not part of the model. `none` is an exception, an undefined shift, or an access outside of the table. -/

namespace Verif.FastTrig

open Verif.Fixed (Fmt)
open Verif.FixC

/-- ml_fast_sincos.py:106, 131, 136 `computation_precision`: the scaling power is `31 - m` -/
def comp (m : ℤ) : Fmt := ⟨m, 31 - m, true⟩

/-- ml_fast_sincos.py:109 `storage_precision` -/
def store : Fmt := ⟨1, 30, true⟩

/-- ml_fast_sincos.py:157, 167: format of the coefficients and of `cos_C2`, `sin_C2`, `S2_u2` -/
def coef : Fmt := ⟨-1, 32, true⟩

/-- `ML_Int32` -/
def i32 : CInt := ⟨32, true⟩

/-- ml_fast_sincos.py:150 `table_index`: the shift is `scaling_power - (t - m)`, that is `31 - t` -/
def index (t : ℕ) (n : ℤ) : Option ℤ := if t ≤ 31 then srl i32 n (31 - t) else none

/-- ml_fast_sincos.py:142-147 `red_vx_hi_int`, with the mask `2^32 - 2^(31-t)`, which clears the low `31 - t` bits -/
def high (t : ℕ) (n : ℤ) : ℤ := wrap i32 (n - n % 2 ^ (31 - t))

/-- ml_fast_sincos.py:148-149 `red_vx_lo` -/
def low (m : ℤ) (t : ℕ) (n : ℤ) : Option ℤ := sub (comp m) (comp m) (comp m) n (high t n)

/-- ml_fast_sincos.py:152-153: a line of the table; an index outside of the table is an error -/
def load (l : List ℤ) (i : ℤ) : Option ℤ := if 0 ≤ i then l[i.toNat]? else none

/-- ml_fast_sincos.py:193-259 `generate_cos_scheme` -/
def cosScheme (m : ℤ) (k : Coefs) (c s u : ℤ) : Option ℤ :=
  (mul store coef coef c k.c2).bind fun a => (mul (comp m) (comp m) (comp m) u u).bind fun u2 =>
  (mul store (comp m) (comp m) s u).bind fun su => (mul coef (comp m) (comp m) a u2).bind fun cu =>
  (mul coef (comp m) coef k.s2 u2).bind fun w => (mul coef (comp m) (comp m) w su).bind fun s3 =>
  (add store (comp m) (comp m) c cu).bind fun p => (sub (comp m) (comp m) (comp m) p su).bind fun q =>
  sub (comp m) (comp m) (comp m) q s3

/-- ml_fast_sincos.py:269-329 `generate_sin_scheme` -/
def sinScheme (m : ℤ) (k : Coefs) (c s u : ℤ) : Option ℤ :=
  (mul store coef coef s k.c2).bind fun a => (mul (comp m) (comp m) (comp m) u u).bind fun u2 =>
  (mul store (comp m) (comp m) c u).bind fun cu => (mul coef (comp m) coef k.s2 u2).bind fun w =>
  (mul coef (comp m) (comp m) a u2).bind fun su => (mul coef (comp m) (comp m) w cu).bind fun c3 =>
  (add store (comp m) (comp m) s cu).bind fun p => (add (comp m) (comp m) (comp m) p su).bind fun q =>
  add (comp m) (comp m) (comp m) q c3

/-- ml_fast_sincos.py:139-176: from the input in fixed point to the result in fixed point -/
def fixedFn (isCos : Bool) (m : ℤ) (t : ℕ) (T : Tab) (k : Coefs) (n : ℤ) : Option ℤ :=
  (low m t n).bind fun u => (index t n).bind fun i => (load T.cos i).bind fun c => (load T.sin i).bind fun s =>
  if isCos then cosScheme m k c s u else sinScheme m k c s u

/-- ml_fast_sincos.py:134: the input becomes a fixed-point number; and the result, before the conversion of line 178 -/
def fast (isCos : Bool) (F : Float.Fmt) (m : ℤ) (t : ℕ) (T : Tab) (k : Coefs) (x : ℚ) : Option ℤ :=
  (fromFp F (comp m) x).bind fun n => fixedFn isCos m t T k n

end Verif.FastTrig
