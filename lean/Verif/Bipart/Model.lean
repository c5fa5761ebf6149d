import Verif.Bipart.Spec
import Mathlib.Algebra.Order.Round
import Mathlib.Algebra.Order.Floor.Ring

/-! # Model of the bipartite approximation (metalibm_hw_blocks/bipartite_approx.py)

The values of the function are exact reals (Sollya computes them to far more bits than the tables hold).  The reduced input is the index `X` made of `alpha + beta + gamma` bits;
its computation from the input signal (a subtraction and a shift) is not modelled. -/

namespace Verif.Bipart

/-- metalibm_core/core/ml_formats.py:803-812 `round_sollya_object` of a fixed-point format with `p` fractional bits (Sollya rounds ties to even, here they are rounded up) -/
noncomputable def rn (p : ℕ) (y : ℝ) : ℝ := round (2 ^ p * y) / 2 ^ p

/-- bipartite_approx.py:210-222 the position of the medium bits: the index of the slope -/
def alphaIndex (β γ X : ℕ) : ℕ := X / 2 ^ (β + γ)

/-- bipartite_approx.py:230-237 -/
def betaIndex (β γ X : ℕ) : ℕ := X / 2 ^ γ % 2 ^ β

/-- bipartite_approx.py:223-229 -/
def gammaIndex (γ X : ℕ) : ℕ := X % 2 ^ γ

/-- bipartite_approx.py:257-261 `tiv_index`, a concatenation of bits -/
def tivIndex (β γ X : ℕ) : ℕ := alphaIndex β γ X * 2 ^ β + betaIndex β γ X

/-- bipartite_approx.py:263-267 `to_index` -/
def toIndex (β γ X : ℕ) : ℕ := alphaIndex β γ X * 2 ^ γ + gammaIndex γ X

/-- bipartite_approx.py:284-295 the slope of a segment, a difference quotient at its middle -/
noncomputable def slope (f : ℝ → ℝ) (lo R : ℝ) (α i : ℕ) : ℝ :=
  let slopeDelta := 1 / 2 ^ α
  let deltaU := R * slopeDelta * (1 / 2 ^ 15)
  let slopeX := lo + (i + 1 / 2) * R * slopeDelta
  (f (slopeX + deltaU / 2) - f (slopeX - deltaU / 2)) / deltaU

/-- bipartite_approx.py:297-308 the table of initial values -/
noncomputable def tableIv (f : ℝ → ℝ) (lo R : ℝ) (α β p i : ℕ) : ℝ :=
  let steps := 1 / 2 ^ (α + β)
  let ivX := lo + i * steps * R
  let offsetX := 1 / 2 * steps * R
  rn p (f (ivX + offsetX) - offsetX * slope f lo R α (i / 2 ^ β))

/-- bipartite_approx.py:322-329 and 355-357 the table of offsets; the entry 0 is not rounded -/
noncomputable def tableOffset (f : ℝ → ℝ) (lo R : ℝ) (α β γ q i : ℕ) : ℝ :=
  let offset := slope f lo R α (i / 2 ^ γ) * (i % 2 ^ γ : ℕ) * (R / 2 ^ (α + β + γ))
  if i = 0 then offset else rn q offset

/-- bipartite_approx.py:372 the sum of the two table values -/
noncomputable def approx (f : ℝ → ℝ) (lo R : ℝ) (α β γ p q X : ℕ) : ℝ :=
  tableIv f lo R α β p (tivIndex β γ X) + tableOffset f lo R α β γ q (toIndex β γ X)

/-- bipartite_approx.py:375-380 the output: a conversion to a fixed-point format with `o` fractional bits drops the others -/
noncomputable def output (f : ℝ → ℝ) (lo R : ℝ) (α β γ p q o X : ℕ) : ℝ := (⌊2 ^ o * approx f lo R α β γ p q X⌋ : ℝ) / 2 ^ o

/-- bipartite_approx.py:384-394 the error evaluated over the three nested loops -/
noncomputable def reported (f : ℝ → ℝ) (lo R : ℝ) (α β γ p q : ℕ) : ℝ :=
  (List.range (2 ^ α)).foldl (fun e i => (List.range (2 ^ β)).foldl (fun e j => (List.range (2 ^ γ)).foldl (fun e k =>
    max e |f (lo + R * ((i * 2 ^ β + j) * 2 ^ γ + k : ℕ) / 2 ^ (α + β + γ)) -
      (tableOffset f lo R α β γ q (i * 2 ^ γ + k) + tableIv f lo R α β p (i * 2 ^ β + j))|) e) e) 0

end Verif.Bipart
