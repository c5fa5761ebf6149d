import Verif.Poly.Spec
import Mathlib.Data.List.Sort
import Mathlib.Data.Rat.Defs

/-!
# Model of metalibm_core/core/polynomials.py: powers, Horner and Estrin schemes
-/

namespace Verif.Poly

/-- Python exceptions; `recursion` is a recursion that does not end. -/
inductive Err where
  | recursion | valueError | indexError
  deriving DecidableEq, Repr

variable {K : Type}

/-- A power map: metalibm keys it by `(power, precision)`.  The precision is a number here. -/
abbrev PMap (K : Type) := (ℕ × ℕ) → Option (Expr K)

/-- Dictionary update. -/
def PMap.set (m : PMap K) (k : ℕ × ℕ) (e : Expr K) : PMap K := fun k' => if k' = k then some e else m k'

/-- `generate_power`, metalibm_core/core/polynomials.py:258-290; returns the node and the updated map.  Exponents are natural
numbers: a negative exponent recurses for ever like 0 does. Tags are ignored. -/
def genPower (v : Expr K) (power : ℕ) (m : PMap K) (prec : ℕ) : Except Err (Expr K × PMap K) :=
  match m (power, prec) with
  | some e => .ok (e, m)
  | none =>
    if power = 1 then .ok (v, m.set (1, prec) v)
    else if power = 0 then .error .recursion
    else if power % 2 = 1 then
      match genPower v (power - 1) m prec with
      | .error e => .error e
      | .ok (sub, m1) => .ok (.mul v sub, m1.set (power, prec) (.mul v sub))
    else
      match genPower v (power / 2) m prec with
      | .error e => .error e
      | .ok (sub, m1) => .ok (.mul sub sub, m1.set (power, prec) (.mul sub sub))
termination_by power
decreasing_by all_goals omega

/-- `AbstractOperation.__pow__`, metalibm_core/core/ml_operations.py:210-218.  `n/2` is Python's true division, so the exponent
becomes a fraction; `depth` is the number of recursive calls the interpreter allows.  The division is exact here: that is the
case for doubles down to 2^-1022, beyond the default recursion limit. -/
def pow (v : Expr ℚ) (depth : ℕ) (n : ℚ) : Except Err (Expr ℚ) :=
  if n = 0 then .ok (.cst 1)
  else if n = 1 then .ok v
  else
    match depth with
    | 0 => .error .recursion
    | d + 1 =>
      match pow v d (n / 2) with
      | .error e => .error e
      | .ok tmp => if n.den = 1 ∧ n.num % 2 = 1 then .ok (.mul (.mul tmp tmp) v) else .ok (.mul tmp tmp)

/-- A polynomial object, polynomials.py:80-120: the degree attribute and the coefficient map (distinct keys). -/
structure PolyObj (K : Type) where
  degree : ℕ
  coeffs : List (ℕ × K)

/-- Construction from a list of coefficients, polynomials.py:96-99: the degree attribute is the length of the list. -/
def ofList (l : List K) : PolyObj K := ⟨l.length, l.zipIdx.map fun p => (p.2, p.1)⟩

/-- Construction from a dictionary, polynomials.py:101-105. -/
def ofDict (m : List (ℕ × K)) : PolyObj K := ⟨(m.map Prod.fst).foldl (fun d i => if i ≤ d then d else i) 0, m⟩

/-- `get_ordered_coeff_list`, polynomials.py:170-178, reversed as at line 305. -/
def orderedDesc (p : PolyObj K) : List (ℕ × K) := (p.coeffs.mergeSort fun a b => decide (a.1 ≤ b.1)).reverse

/-- `sub_poly`, polynomials.py:137-145; with `stop = none` the last index is the degree attribute. -/
def subPoly (p : PolyObj K) (start : ℕ) (stop : Option ℕ) (offset : ℕ) : PolyObj K :=
  let endIndex := match stop with
    | none => p.degree + 1
    | some s => s + 1
  ofDict ((p.coeffs.filter fun q => decide (start ≤ q.1 ∧ q.1 < endIndex)).map fun q => (q.1 - offset, q.2))

/-- `is_cst_with_value`, polynomials.py:41-50. -/
def isCst [DecidableEq K] (e : Expr K) (c : K) : Bool :=
  match e with
  | .cst d => d = c
  | _ => false

/-- The loop of `generate_horner_scheme2` over `coeff_list[1:-1]`, polynomials.py:335-343. -/
def hornerLoop (v : Expr K) (prec : ℕ) : List (ℕ × Expr K) → ℕ → Expr K → PMap K → Except Err (ℕ × Expr K × PMap K)
  | [], cur, scheme, m => .ok (cur, scheme, m)
  | (index, coeff) :: rest, cur, scheme, m =>
    match genPower v (cur - index) m prec with
    | .error e => .error e
    | .ok (pw, m1) => hornerLoop v prec rest index (.add coeff (.mul pw scheme)) m1

/-- The last coefficient, polynomials.py:345-372. -/
def hornerLast [CommRing K] [DecidableEq K] (v : Expr K) (prec : ℕ) (index : ℕ) (coeff : Expr K) (cur : ℕ) (scheme : Expr K)
    (m : PMap K) : Except Err (Expr K × PMap K) :=
  if (isCst coeff 1 || isCst coeff (-1)) && decide (index ≤ 1) then
    match genPower v cur m prec with
    | .error e => .error e
    | .ok (pw, m1) =>
      let mult := Expr.mul pw scheme
      if index = 0 then .ok (.add coeff mult, m1)
      else if isCst coeff 1 then .ok (.add v mult, m1)
      else .ok (.sub mult v, m1)
  else
    match genPower v (cur - index) m prec with
    | .error e => .error e
    | .ok (pw, m1) =>
      let scheme' := Expr.add coeff (.mul pw scheme)
      if 0 < index then
        match genPower v index m1 prec with
        | .error e => .error e
        | .ok (lp, m2) => .ok (.mul lp scheme', m2)
      else .ok (scheme', m1)

/-- `generate_horner_scheme2`, polynomials.py:312-374: the list holds (index, coefficient node), highest index first. -/
def horner2 [CommRing K] [DecidableEq K] (v : Expr K) (prec : ℕ) (l : List (ℕ × Expr K)) (m : PMap K) :
    Except Err (Expr K × PMap K) :=
  match l with
  | [] => .ok (.cst 0, m)
  | [(index, coeff)] =>
    if index = 0 then .ok (coeff, m)
    else
      match genPower v index m prec with
      | .error e => .error e
      | .ok (pw, m1) => .ok (.mul pw coeff, m1)
  | (i0, c0) :: q :: rest =>
    match hornerLoop v prec (q :: rest).dropLast i0 c0 m with
    | .error e => .error e
    | .ok (cur, scheme, m1) =>
      let last := (q :: rest).getLast (by simp)
      hornerLast v prec last.1 last.2 cur scheme m1

/-- `generate_horner_scheme`, polynomials.py:296-310. -/
def horner [CommRing K] [DecidableEq K] (p : PolyObj K) (v : Expr K) (prec : ℕ) (m : PMap K) : Except Err (Expr K × PMap K) :=
  horner2 v prec ((orderedDesc p).map fun q => (q.1, Expr.cst q.2)) m

/-- `generate_estrin_scheme`, polynomials.py:400-420.  `depth` bounds the recursion depth as the interpreter does; the smallest
index of an empty map raises `ValueError`. -/
def estrin (v : Expr K) (prec : ℕ) : ℕ → PolyObj K → PMap K → Except Err (Expr K × PMap K)
  | 0, _, _ => .error .recursion
  | depth + 1, p, m =>
    match p.coeffs with
    | [] => .error .valueError
    | [(index, coeff)] =>
      if index = 0 then .ok (.cst coeff, m)
      else
        match genPower v index m prec with
        | .error e => .error e
        | .ok (pw, m1) => .ok (.mul (.cst coeff) pw, m1)
    | q :: rest =>
      let minDegree := (rest.map Prod.fst).foldl min q.1
      let maxDegree := p.degree
      let polyDegree := (maxDegree - minDegree + 2) / 2 + minDegree - 1
      let offset := polyDegree + 1 - minDegree
      let lo := subPoly p 0 (some polyDegree) 0
      let hi := subPoly p (polyDegree + 1) none offset
      match estrin v prec depth lo m with
      | .error e => .error e
      | .ok (loNode, m1) =>
        match estrin v prec depth hi m1 with
        | .error e => .error e
        | .ok (hiNode, m2) =>
          match genPower v offset m2 prec with
          | .error e => .error e
          | .ok (off, m3) => .ok (.add loNode (.mul off hiNode), m3)

end Verif.Poly
