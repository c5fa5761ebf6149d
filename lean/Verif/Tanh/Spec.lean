import Mathlib.Analysis.SpecialFunctions.Trigonometric.DerivHyp
import Verif.Atan.Spec

/-! # Hyperbolic tangent: what the generated function has to return

Independent of the code. `Verif.Atan.Near`: a finite datum within a distance of a real. -/

namespace Verif.Tanh

open Verif.Float (Fmt Val)
open Verif.Atan (Near)

/-- `N` evaluates `tanh(z)/z` below `nz`: the product with `z` is within `δ z` of `tanh z`. -/
def NearZero (F : Fmt) (δ nz : ℝ) (N : Val → Val) : Prop :=
  ∀ (r : Val) (z : ℝ), Elem.IsReal F r z → 0 ≤ z → z < nz → ∃ q, Elem.IsReal F (N r) q ∧ |z * q - Real.tanh z| ≤ δ * z

/-- `P` evaluates the hyperbolic tangent on `[nz, hb)` with an absolute error at most `ε`. -/
def Piece (F : Fmt) (ε nz hb : ℝ) (P : Val → Val) : Prop :=
  ∀ (r : Val) (z : ℝ), Elem.IsReal F r z → nz ≤ z → z < hb → Near F ε (P r) (Real.tanh z)

end Verif.Tanh
