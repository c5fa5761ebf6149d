import Verif.Check.Model

/-! # Model of the evaluation of the largest error of a function: metalibm_core/core/ml_function.py and the `compute_error` methods of
metalibm_core/core/precisions.py

All values are in one format `F` (`compute_error` otherwise converts the result to the larger of two formats first).  The arithmetic is
that of C; its signed zeros are not distinguished, as only comparisons of absolute values follow. -/

namespace Verif.Check

open Verif.Float (Fmt Val)

/-- NaN test -/
def isNaN : Val → Bool
  | .qNaN => true
  | .sNaN => true
  | _ => false

/-- the C comparison `a < b` -/
def cLt (a b : Val) : Bool := cLe a b && !cLe b a

/-- C subtraction -/
noncomputable def fsub (F : Fmt) (a b : Val) : Val :=
  if isNaN a || isNaN b then .qNaN
  else match a, b with
    | .plusInf, .plusInf => .qNaN
    | .minusInf, .minusInf => .qNaN
    | .plusInf, _ => .plusInf
    | .minusInf, _ => .minusInf
    | _, .plusInf => .minusInf
    | _, .minusInf => .plusInf
    | a, b => sround F .RN ((numOf a - numOf b : ℚ) : ℝ)

/-- C absolute value -/
def fabs : Val → Val
  | .minusInf => .plusInf
  | .minusZero => .plusZero
  | .num v => .num |v|
  | v => v

/-- is an infinity -/
def isInf : Val → Bool
  | .plusInf => true
  | .minusInf => true
  | _ => false

/-- the absolute value of the C division -/
noncomputable def absDiv (F : Fmt) (a b : Val) : Val :=
  if isNaN a || isNaN b then .qNaN
  else if isInf a then (if isInf b then .qNaN else .plusInf)
  else if isInf b then .plusZero
  else if numOf b = 0 then (if numOf a = 0 then .qNaN else .plusInf)
  else fabs (sround F .RN ((numOf a / numOf b : ℚ) : ℝ))

/-- precisions.py:82-98 `errorValidGraph` -/
def errorValid (r w : Val) : Bool := (isNaN r && isNaN w) || !(isNaN r || isNaN w)

/-- The relative error, the absolute error and the validity of a test -/
structure Err where
  rel : Val
  abs : Val
  valid : Bool

/-- precisions.py:195-200, 103-108: the division by the result -/
noncomputable def relative (F : Fmt) (error r : Val) : Val :=
  if cEq error .plusZero && cEq r .plusZero then r else absDiv F error r

/-- precisions.py:186-204 `ML_CorrectlyRounded.compute_error` of the result `r` and the stored value `e` -/
noncomputable def crError (F : Fmt) (r e : Val) : Err :=
  let error := fsub F r e
  ⟨relative F error r, fabs error, errorValid r e⟩

/-- core/legalizer.py `min_legalizer`: `a < b ? a : b` -/
def cMin (a b : Val) : Val := if cLt a b then a else b

/-- core/legalizer.py `max_legalizer`: `a > b ? a : b` -/
def cMax (a b : Val) : Val := if cLt b a then a else b

/-- precisions.py:86-109 `ML_TwoFactorPrecision.compute_error` of the result `r` and the stored bounds -/
noncomputable def twoError (F : Fmt) (r lo hi : Val) : Err :=
  let error := cMin (fabs (fsub F r lo)) (fabs (fsub F r hi))
  ⟨relative F error r, error, errorValid r hi⟩

/-- ml_function.py:1741-1745: the variables of the scalar loop; the index −1 is `none` -/
structure MaxSt where
  valid : Bool := true
  rel : Val := .num (-1)
  abs : Val := .num (-1)
  index : Option ℕ := none

/-- ml_function.py:1717-1738: one iteration of the scalar loop, on the test of index `i` -/
def maxStep (st : MaxSt) (i : ℕ) (x : Err) : MaxSt :=
  let valid := st.valid && x.valid
  let upd := (cLt st.rel x.rel && valid) || !x.valid
  { valid := valid
    rel := if upd then x.rel else st.rel
    index := if upd then some i else st.index
    abs := if cLt st.abs x.abs then x.abs else st.abs }

/-- the loop from the test of index `i` -/
def maxLoop : ℕ → List Err → MaxSt → MaxSt
  | _, [], st => st
  | i, x :: xs, st => maxLoop (i + 1) xs (maxStep st i x)

/-- What `max_error_eval` computes: the value it returns, the absolute error it prints and the index it reads the inputs at. -/
structure MaxRes where
  ret : Val
  abs : Val
  index : Option ℕ

/-- ml_function.py:1665-1759 `generate_scalar_max_error_eval` -/
def scalarMax (l : List Err) : MaxRes :=
  let st := maxLoop 0 l {}
  ⟨if st.valid then st.rel else .num (-2), st.abs, st.index⟩

/-- ml_function.py:1625-1655: one lane of the vector loop -/
def vecStep (st : Val × Val) (x : Err) : Val × Val :=
  (if isNaN x.rel then st.1 else cMax x.rel st.1, if isNaN x.abs then st.2 else cMax x.abs st.2)

/-- ml_function.py:1584-1662 `generate_vector_max_error_eval`: the value returned and the two values printed, as absolute and relative errors -/
def vectorMax (l : List Err) : Val × Val × Val :=
  let st := l.foldl vecStep (.num (-1), .num (-1))
  (st.1, st.2, st.2)

end Verif.Check
