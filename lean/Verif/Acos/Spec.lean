import Mathlib.Analysis.SpecialFunctions.Trigonometric.Inverse

/-! # What a user expects of an arc cosine -/

namespace Verif.Acos

/-- Floating-point data, numbers taken as reals. -/
inductive Val
  | nan
  | inf (neg : Bool)
  | fin (x : ℝ)

/-- `r` is an arc cosine of `v` up to `ε`: a number within `ε` of it in the domain, not a
number elsewhere. -/
def IsAcos (ε : ℝ) (v r : Val) : Prop :=
  match v with
  | .fin x => if -1 ≤ x ∧ x ≤ 1 then ∃ y, r = .fin y ∧ |y - Real.arccos x| ≤ ε else r = .nan
  | _ => r = .nan

end Verif.Acos
