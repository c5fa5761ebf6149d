import Mathlib.Analysis.SpecialFunctions.Trigonometric.Arctan
import Mathlib.Analysis.SpecialFunctions.Complex.Arg
import Verif.Special.Spec
import Verif.Elem.Spec

/-! # Arc tangent and angle of a point: what the generated functions have to return

Independent of the code. -/

namespace Verif.Atan

open Verif.Float (Fmt Val)
open Verif.Special (neg finVal)

/-- `r` is a finite datum within `δ` of the real `t`. -/
def Near (F : Fmt) (δ : ℝ) (r : Val) (t : ℝ) : Prop := ∃ z : ℝ, Elem.IsReal F r z ∧ |z - t| ≤ δ

/-- The arc tangent of a datum which is no NaN: the one of its number, and `±π/2` at the infinities (C99 F.9.1.3). -/
noncomputable def atanVal (x : Val) : ℝ :=
  match finVal x with
  | some v => Real.arctan v
  | none => if neg x then -(Real.pi / 2) else Real.pi / 2

/-- The angle `atan2(y, x)` of C99 F.9.1.4: the argument of the point `(x, y)` of the plane, where a null or infinite coordinate counts with
its sign. -/
noncomputable def angle (y x : Val) : ℝ :=
  let s : ℝ := if neg y then -1 else 1
  match finVal y, finVal x with
  | some b, some a => if b = 0 then (if neg x then s * Real.pi else 0) else Complex.arg ⟨a, b⟩
  | none, some _ => s * (Real.pi / 2)
  | some _, none => if neg x then s * Real.pi else 0
  | none, none => if neg x then s * (3 * Real.pi / 4) else s * (Real.pi / 4)

/-- An evaluation of the arc tangent on `[0, 1]`, with an absolute error at most `ε`. -/
def Approx (F : Fmt) (ε : ℝ) (P : Val → Val) : Prop :=
  ∀ (r : Val) (z : ℝ), Elem.IsReal F r z → 0 ≤ z → z ≤ 1 → Near F ε (P r) (Real.arctan z)

end Verif.Atan
