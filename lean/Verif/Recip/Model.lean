import Verif.Recip.Spec
import Verif.Vhdl.Model
import Verif.FpHw.Model

/-!
# Model of the hardware reciprocal (property C122)

File: metalibm_hw_blocks/ml_fp_div.py (`FP_Divider`, which computes 1/x).  The fixed-point operations are those of property C116
(`Verif.Vhdl`).  The pipeline stages delay the signals and do not change the values: they are not modelled.  The table is a parameter: how
an entry is made an integer (`int` of a number of sollya in `generic_get_vhdl_cst`, ml_hdl_format.py:73-95) is outside of the repository.
-/

namespace Verif.Recip

open Verif.Vhdl (Vec sel zext addsub mul)

/-- `RTL_FixedPointFormat(i, f)`, ml_hdl_format.py:135-137: signed -/
def fx (i f : ℤ) : Fixed.Fmt := ⟨i, f, true⟩

/-- The constant 1 in a fixed-point format, ml_hdl_format.py:141-143 -/
def one (f : Fixed.Fmt) : Vec := ⟨(f.int + f.frac).toNat, 2 ^ f.frac.toNat % 2 ^ (f.int + f.frac).toNat⟩

/-- ml_fp_div.py:66-134 `generate_NR_iteration`: `m` in the format `mf`, the previous approximation `a` in the format `af`, then the formats
of the product, of the error, of the correction and of the new approximation -/
def nr (mf af multF errF tmpF newF : Fixed.Fmt) (m a : Vec) : Option Vec :=
  (mul mf af multF m a).bind fun p =>
  (addsub true multF multF errF (one multF) p).bind fun e =>
  (mul errF af tmpF e a).bind fun t =>
  addsub false af tmpF newF a t

/-- ml_fp_div.py:202-206 `inv_approx_table`, with the integer parts of the values -/
def table (i : ℕ) : ℕ := 65536 / (256 + i)

/-- ml_fp_div.py:196-307, from the significand of `p` bits to `final_approx` -/
def approx (tab : ℕ → ℕ) (p M : ℕ) : Option Vec :=
  let mant : Vec := ⟨p, M⟩
  (sel mant ((p : ℤ) - 2 - 8 + 1) ((p : ℤ) - 2)).bind fun idx =>
  (sel mant ((p : ℤ) - 1 - 8) ((p : ℤ) - 1)).bind fun s0 =>
  (sel mant ((p : ℤ) - 1 - 16) ((p : ℤ) - 1)).bind fun s1 =>
  (nr (fx 2 8) (fx 2 8) (fx 2 16) (fx (-3) 16) (fx 2 24) (fx 2 16) (zext s0 1) ⟨10, tab idx.val % 2 ^ 10⟩).bind fun a1 =>
  (nr (fx 2 16) (fx 2 16) (fx 2 24) (fx (-6) 24) (fx 2 24) (fx 2 24) (zext s1 1) a1).bind fun a2 =>
  (nr (fx 2 (p - 1)) (fx 2 24) (fx 2 (2 * p - 1)) (fx (-12) (16 + p - 1)) (fx 2 (16 + p - 1)) (fx 2 p) (zext mant 1) a2).bind fun a3 =>
  nr (fx 2 (p - 1)) (fx 2 p) (fx 2 (2 * p)) (fx (-((4 * p / 5 : ℕ) : ℤ)) (2 * p)) (fx 2 (2 * p)) (fx 2 (2 * p)) (zext mant 1) a3

/-- ml_fp_div.py:312-493, from `final_approx` (the vector spells `N`) to the result.  The selections of bits are written as quotients and
remainders; they are in range. -/
def pack (F : Float.Fmt) (x N : ℕ) : ℕ :=
  let p := F.f + 1
  let lsbIndex := 2 * p - F.f
  let notDecrement := N / 2 ^ (2 * p) % 2 = 1
  let lsb := if notDecrement then lsbIndex else lsbIndex - 1
  let result := N / 2 ^ lsb % 2 ^ F.f
  let leastBit := N / 2 ^ lsb % 2
  let roundBit := N / 2 ^ (lsb - 1) % 2
  let stickyBit := if N % 2 ^ (lsb - 1) = 0 then 0 else 1
  let roundIncr := if roundBit = 1 ∧ (stickyBit = 1 ∨ leastBit = 1) then 1 else 0
  let biasX2 := 2 * (2 ^ (F.e - 1) - 1)
  let negExp := (biasX2 + 2 ^ (F.e + 2) - FpHw.expField F x) % 2 ^ (F.e + 2)
  let resExp := (negExp % 2 ^ F.e + (if notDecrement then 0 else 2 ^ F.e - 1)) % 2 ^ F.e
  let expMant := (resExp * 2 ^ F.f + result + roundIncr) % 2 ^ (F.e + F.f)
  (if FpHw.signBit F x then 1 else 0) * 2 ^ (F.e + F.f) + expMant

/-- ml_fp_div.py:163-497 `generate_scheme` -/
def recip (tab : ℕ → ℕ) (F : Float.Fmt) (x : ℕ) : Option ℕ := (approx tab (F.f + 1) (FpHw.mant F x)).map fun v => pack F x v.val

end Verif.Recip
