import Verif.Legal.Spec

/-! # Specification: powers of two in a binary interchange format -/

namespace Verif.Exp2i

open Verif.Float (Fmt)
open Verif.Legal (width cls value)

/-- the pattern is a finite number whose value is `v` -/
def Encodes (F : Fmt) (c : ℕ) (v : ℚ) : Prop := cls F c ≠ .inf ∧ cls F c ≠ .qNaN ∧ cls F c ≠ .sNaN ∧ value F c = v

/-- the smallest exponent of a non-zero number -/
def low (F : Fmt) : ℤ := F.emin - F.f

end Verif.Exp2i
