import Mathlib.Analysis.SpecialFunctions.Log.Base
import Verif.Elem.Fp

/-! # The generated hyperbolic tangent: metalibm_functions/ml_tanh.py

The Horner scheme of the polynomial near zero (`N`, ml_tanh.py:213-219,243-247) and the piecewise approximation (`P`, ml_tanh.py:225-233), whose
coefficients Sollya computes, are parameters. -/

namespace Verif.Tanh

open Verif.Float (Fmt Val)
open Verif.Elem

/-- Python `int(x)`, towards zero -/
noncomputable def pyInt (x : ℝ) : ℤ := if x < 0 then ⌈x⌉ else ⌊x⌋

/-- ml_tanh.py:177 `high_bound`, before the intervals are counted; `p` is the size of the significand -/
noncomputable def highBound0 (p : ℕ) : ℝ := (p + 2) * Real.log 2 / 2

/-- ml_tanh.py:182-183 `new_interval_size` -/
noncomputable def newSize (p : ℕ) (nz : ℝ) (num : ℕ) : ℝ := (2 : ℝ) ^ pyInt (Real.logb 2 ((highBound0 p - nz) / num))

/-- ml_tanh.py:184-185 `high_bound` -/
noncomputable def highBound (p : ℕ) (nz : ℝ) (num : ℕ) : ℝ := newSize p nz num * ((2 * num : ℕ) : ℝ) + nz

/-- ml_tanh.py:241-265 `complete_scheme`, of the absolute value and of the constants `near_zero_bound` and `high_bound` -/
noncomputable def complete (F : Fmt) (N P : Val → Val) (nz hb a : Val) : Val :=
  if flt a nz then fmul F a (N a) else if flt a hb then P a else .num 1

/-- ml_tanh.py:146-271 `generate_scalar_scheme`: the value returned -/
noncomputable def tanh (F : Fmt) (N P : Val → Val) (nz hb x : Val) : Val :=
  if flt x .plusZero then fneg (complete F N P nz hb (fabs x)) else complete F N P nz hb (fabs x)

end Verif.Tanh
