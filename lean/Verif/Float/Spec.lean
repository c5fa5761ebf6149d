import Mathlib.Data.Rat.Floor
import Mathlib.Data.Int.Log
import Mathlib.Tactic.Linarith
import Mathlib.Tactic.Ring

/-!
# What a binary floating-point format means

Independent of the code: IEEE-754 binary formats with `e` exponent bits and `f` explicit significand bits.
-/

namespace Verif.Float

/-- A binary interchange-like format: `e` exponent bits, `f` stored significand bits. -/
structure Fmt where
  e : ℕ
  f : ℕ
  deriving DecidableEq, Repr

/-- Largest exponent (IEEE-754 clause 3.3): `2^(e-1) - 1`. -/
def Fmt.emax (F : Fmt) : ℤ := 2 ^ (F.e - 1) - 1

/-- Smallest normal exponent (IEEE-754 clause 3.3): `1 - emax`. -/
def Fmt.emin (F : Fmt) : ℤ := 1 - F.emax

/-- The finite numbers of the format: `m * 2^(E - f)` with an integral significand of at most `f + 1` bits and an
exponent in range (IEEE-754 clause 3.3). -/
def Fmt.Finite (F : Fmt) (v : ℚ) : Prop :=
  ∃ m E : ℤ, |m| < 2 ^ (F.f + 1) ∧ F.emin ≤ E ∧ E ≤ F.emax ∧ v = m * (2 : ℚ) ^ (E - F.f)

/-- Normal numbers: finite with magnitude at least `2^emin`. -/
def Fmt.Normal (F : Fmt) (v : ℚ) : Prop := F.Finite v ∧ (2 : ℚ) ^ F.emin ≤ |v|

/-- Subnormal numbers: finite, non-zero, with magnitude below `2^emin`. -/
def Fmt.Subnormal (F : Fmt) (v : ℚ) : Prop := F.Finite v ∧ v ≠ 0 ∧ |v| < (2 : ℚ) ^ F.emin

/-- `w` is the number of the format right after `v`. -/
def Fmt.NextAfter (F : Fmt) (v w : ℚ) : Prop := F.Finite w ∧ v < w ∧ ∀ x, F.Finite x → v < x → w ≤ x

/-- `w` is the number of the format right before `v`. -/
def Fmt.PrevBefore (F : Fmt) (v w : ℚ) : Prop := F.Finite w ∧ w < v ∧ ∀ x, F.Finite x → x < v → x ≤ w

/-- A datum as the code represents it: one of the special-value objects, or a non-zero number. -/
inductive Val where
  | plusInf | minusInf | qNaN | sNaN | plusZero | minusZero
  | num (v : ℚ)
  deriving DecidableEq

/-- The data of a format: special values and its non-zero finite numbers. -/
def Fmt.Datum (F : Fmt) : Val → Prop
  | .num v => F.Finite v ∧ v ≠ 0
  | _ => True

/-- The datum of a bit pattern (IEEE-754 clause 3.4): sign, `e` exponent bits, `f` significand bits, from the most to the
least significant; a NaN is quiet when the most significant significand bit is set. -/
def Fmt.decode (F : Fmt) (c : ℕ) : Val :=
  let negative := c / 2 ^ (F.e + F.f) = 1
  let E := c / 2 ^ F.f % 2 ^ F.e
  let m := c % 2 ^ F.f
  if E = 2 ^ F.e - 1 then
    if m = 0 then (if negative then .minusInf else .plusInf)
    else if 2 ^ (F.f - 1) ≤ m then .qNaN else .sNaN
  else if E = 0 then
    if m = 0 then (if negative then .minusZero else .plusZero)
    else .num ((if negative then -1 else 1) * (m * (2 : ℚ) ^ (F.emin - F.f)))
  else .num ((if negative then -1 else 1) * ((2 ^ F.f + m) * (2 : ℚ) ^ ((E : ℤ) - F.emax - F.f)))

end Verif.Float
