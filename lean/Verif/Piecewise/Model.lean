import Verif.Piecewise.Spec

/-! # Model of the piecewise polynomial approximations

metalibm_core/core/approximation.py: the tables generated for a function, the tables loaded from a stored approximation, and the graph which
evaluates them.  The polynomials come from Sollya (`Polynomial.build_from_approximation_with_error`): they are inputs of the model. -/

namespace Verif.Piecewise

/-- what is computed for one sub-interval, approximation.py:142-229: the degree asked (`poly_degree`), the coefficients (`poly_object.coeff_map`,
a dictionary) and the error (`approx_error.value`) -/
structure Sub where
  degree : ℕ
  coeff : ℕ → Option ℝ
  error : ℝ

/-- approximation.py:115-122 `max_degree` when it is not given -/
def maxDegree (subs : List Sub) : ℕ := (subs.map (·.degree)).foldr max 0

/-- approximation.py:149-152 (degree 0) and 214-222: the row of `poly_table` of a sub-interval -/
noncomputable def genRow (s : Sub) (m : ℕ) : ℝ :=
  if m ≤ s.degree then (match s.coeff m with | some v => v | none => 0) else 0

/-- approximation.py:128-129, 234 `max_error = max(approx_error, max_error)`: the maximum of the two values -/
noncomputable def genError (subs : List Sub) : ℝ := subs.foldl (fun e s => if e > s.error then e else s.error) 0

/-- approximation.py:76-109 `load_piecewese_poly_params_from_axf`: the row of `poly_table` -/
noncomputable def loadRow (s : Sub) (m : ℕ) : ℝ := match s.coeff m with | some v => v | none => 0

/-- approximation.py:96-107: the loop on the monomials of one sub-interval as far as `max_error` is concerned; the update (102-107) is in the
branch of the monomials which are absent from the polynomial -/
noncomputable def loadErrorSub (n : ℕ) (e : ℝ) (s : Sub) : ℝ :=
  (List.range (n + 1)).foldl (fun e m => match s.coeff m with | some _ => e | none => if s.error > e then s.error else e) e

/-- approximation.py:85-109: the error returned by the loader -/
noncomputable def loadError (n : ℕ) (subs : List Sub) : ℝ := subs.foldl (loadErrorSub n) 0

/-- approximation.py:255-262: the loop from the monomial `max_degree` down to 0, `poly` initialised with the coefficient of `max_degree`; `rd` is the
rounding of the `FMA` -/
noncomputable def evalLoop (rd : ℝ → ℝ) (c : ℕ → ℝ) (r : ℝ) : ℕ → ℝ → ℝ
  | 0, p => rd (r * p + c 0)
  | m + 1, p => evalLoop rd c r m (rd (r * p + c (m + 1)))

/-- approximation.py:244-262 `generate_piecewise_poly_approx_from_params`: the value of the graph for the index `i` -/
noncomputable def evalScheme (rd : ℝ → ℝ) (offset : ℕ → ℝ) (table : ℕ → ℕ → ℝ) (n i : ℕ) (x : ℝ) : ℝ :=
  evalLoop rd (table i) (rd (x - offset i)) n (table i n)

end Verif.Piecewise
