import Verif.Elem.Fp
import Verif.Arr.Model

/-! # Model of metalibm_functions/softmax.py

The exponential is a parameter: `E` is the inlined scheme of `ML_Exponential` (lines 124-138), or `expf` (118-122). Loops run on fuel. -/

namespace Verif.Softmax

open Verif.Float (Fmt Val)
open Verif.Elem
open Verif.Arr (Mem u32)

/-- `TableStore` of one element -/
def store1 (m : Mem Val) (a : ℕ) (v : Val) : Mem Val := fun x => if x = a then v else m x

/-- softmax.py:142-152 `exp_loop`: the exponential of each element is stored and accumulated -/
noncomputable def expLoop (F : Fmt) (E : Val → Val) (dst src n : ℕ) : ℕ → ℕ → Val → Mem Val → Option (Val × Mem Val)
  | 0, _, _, _ => none
  | fuel + 1, i, acc, m =>
      if i < n then expLoop F E dst src n fuel (u32 (i + 1)) (fadd F acc (E (m (src + i)))) (store1 m (dst + i) (E (m (src + i))))
      else some (acc, m)

/-- softmax.py:156-163 `div_loop` -/
noncomputable def divLoop (F : Fmt) (rcp : Val) (dst n : ℕ) : ℕ → ℕ → Mem Val → Option (Mem Val)
  | 0, _, _ => none
  | fuel + 1, i, m =>
      if i < n then divLoop F rcp dst n fuel (u32 (i + 1)) (store1 m (dst + i) (fmul F (m (dst + i)) rcp))
      else some m

/-- softmax.py:103-173 `generate_scheme`: 154 is `sum_rcp`, 166 the initial value of the accumulator -/
noncomputable def softmaxFn (F : Fmt) (E : Val → Val) (dst src n fuel : ℕ) (m : Mem Val) : Option (Mem Val) :=
  match expLoop F E dst src n fuel 0 .plusZero m with
  | none => none
  | some (acc, m') => divLoop F (fdiv F (.num 1) acc) dst n fuel 0 m'

end Verif.Softmax
