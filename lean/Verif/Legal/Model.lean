import Verif.Legal.Spec
import Verif.Float.Model

/-!
# Model of the bit-level lowerings of `core/legalizer.py`

Scalar formats; vectors are treated lane by lane by the code.  The working format is the signed
integer format of the width of the floating-point format (`get_integer_format`, ml_formats.py:557-567):
a bit vector, shifted right arithmetically.  `TypeCast` reinterprets the bits.
-/

namespace Verif.Legal

open Verif.Float (Fmt bias nanOrInfField)

/-- `generate_field_extraction` (legalizer.py:338-358). -/
def fieldExtraction {w : ℕ} (x : BitVec w) (lo hi : ℕ) : BitVec w :=
  let r := if lo ≠ 0 then x.sshiftRight lo else x
  if hi - lo + 1 ≠ w then r &&& BitVec.ofNat w (2 ^ (hi - lo + 1) - 1) else r

/-- `generate_raw_exp_extraction` (legalizer.py:360-384). -/
def rawExpExtraction (F : Fmt) (x : BitVec (width F)) : BitVec (width F) :=
  fieldExtraction x F.f (F.f + F.e - 1)

/-- `generate_exp_extraction` (legalizer.py:387-411). -/
def expExtraction (F : Fmt) (x : BitVec (width F)) : BitVec (width F) :=
  rawExpExtraction F x + BitVec.ofInt _ (bias F)

/-- `generate_raw_mantissa_extraction` (legalizer.py:414-439). -/
def rawMantissaExtraction (F : Fmt) (x : BitVec (width F)) : BitVec (width F) :=
  fieldExtraction x 0 (F.f - 1)

/-- `generate_static_raw_exp_insertion` (legalizer.py:480-498). -/
def staticRawExpInsertion (F : Fmt) (k : ℤ) : BitVec (width F) :=
  BitVec.ofInt _ ((k + -bias F) * 2 ^ F.f)

/-- `generate_mantissa_extraction` (legalizer.py:442-478). -/
def mantissaExtraction (F : Fmt) (x : BitVec (width F)) : BitVec (width F) :=
  (x &&& BitVec.ofNat _ ((2 ^ F.f - 1) ||| (1 <<< (width F - 1)))) ||| staticRawExpInsertion F 0

/-- `generate_exp_insertion` (legalizer.py:506-547); the operand is already in the working format. -/
def expInsertion (F : Fmt) (k : BitVec (width F)) : BitVec (width F) :=
  (k + BitVec.ofInt _ (-bias F)) <<< F.f

/-- Test predicates (ml_operations.py:1566-1610), those on one floating-point operand. -/
inductive Pred where
  | isNaN | isQuietNaN | isSignalingNaN | isInfty | isPositiveInfty | isNegativeInfty
  | isIEEENormalPositive | isInfOrNaN | isZero | isPositiveZero | isNegativeZero | isSubnormal
  deriving DecidableEq

/-- `generate_test_expansion` (legalizer.py:557-694); `none` is the `NotImplementedError` of
693-694. -/
def testExpansion (F : Fmt) (p : Pred) (x : BitVec (width F)) : Option Bool :=
  let expIsMax := rawExpExtraction F x == BitVec.ofNat _ (nanOrInfField F)
  let quiet := fieldExtraction x (F.f - 1) (F.f - 1)
  match p with
  | .isInfOrNaN => some expIsMax
  | .isNaN => some (expIsMax && rawMantissaExtraction F x != 0)
  | .isSubnormal => some (rawExpExtraction F x == 0)
  | .isSignalingNaN => some (expIsMax && (rawMantissaExtraction F x != 0 && quiet == 0))
  | .isQuietNaN => some (expIsMax && (rawMantissaExtraction F x != 0 && quiet == 1))
  | .isInfty => some (expIsMax && rawMantissaExtraction F x == 0)
  | .isZero => some (fieldExtraction x 0 (width F - 2) == 0)
  | _ => none

/-! ## Comparisons -/

open Verif.Float (Val)
open Classical in
/-- `minmax_legalizer_wrapper(Comparison.Less)` and `(Comparison.Greater)` (legalizer.py:100-125):
`Select(op0 pred op1, op0, op1)`. -/
noncomputable def minLegalizer (a b : Val) : Val := if less a b then a else b
open Classical in
noncomputable def maxLegalizer (a b : Val) : Val := if less b a then a else b

/-- `legalize_comp_sign` (legalizer.py:699-711). -/
def compSign (a b : Val) : Prop :=
  (lessEq .plusZero a ∧ lessEq .plusZero b) ∨ (lessEq a .plusZero ∧ lessEq b .plusZero)

end Verif.Legal
