import Verif.Acos.Spec

/-! # Model of `ML_Acos.generate_scheme` (`metalibm_functions/ml_acos.py`) -/

namespace Verif.Acos

/-- The statements of the two schemes: a condition on the input, and returns. -/
inductive Scheme
  | ret (r : Val → Val)
  | block (c : Val → Prop) (yes no : Scheme)

open Classical in
/-- What a scheme returns. -/
noncomputable def Scheme.run : Scheme → Val → Val
  | .ret r, v => r v
  | .block c a b, v => if c v then a.run v else b.run v

/-- `vx > 1.0 or vx < -1.0` (ml_acos.py:95); comparisons with a NaN are false. -/
def outside : Val → Prop
  | .nan => False
  | .inf _ => True
  | .fin x => 1 < x ∨ x < -1

/-- `main_block` (ml_acos.py:94-98), which is built and not used; the polynomial is a
parameter, evaluated exactly, and gives NaN on NaN. -/
def mainBlock (p : ℝ → ℝ) : Scheme :=
  .block outside (.ret fun _ => .nan) (.ret fun v => match v with
    | .fin x => .fin (p x)
    | v => v)

/-- `scheme` (ml_acos.py:101), which is returned. -/
def scheme : Scheme := .ret fun _ => .nan

end Verif.Acos
