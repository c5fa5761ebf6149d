import Verif.Rng.Spec
import Verif.Float.Model

/-! # Model of the random test-input generators, metalibm_core/core/random_gen.py and ml_entity.py:119-129

A generator owns a `random.Random` object.  One call of `get_new_value` reads draws of this object: the draw of index `i` is the
natural number `d i`, from which `randrange` and `random` compute their result.  Some categories draw from the global `random`
module instead: its draws are `g i`.  `none` is an exception.  Numbers are exact rationals (Sollya objects of sufficient
precision); the order of the categories is the insertion order of the weight map. -/

namespace Verif.Rng

/-- `random.randrange(lo, hi)`: a number of `lo .. hi - 1`, `ValueError` when the range is empty. -/
def randrange (d : ℕ) (lo hi : ℤ) : Option ℤ := if lo < hi then some (lo + (d : ℤ) % (hi - lo)) else none

/-- `randrange` of Sollya objects: `ValueError` on a bound that is not an integer -/
def randrangeQ (d : ℕ) (lo hi : ℚ) : Option ℤ := if lo.den = 1 ∧ hi.den = 1 then randrange d lo.num hi.num else none

/-- `random.random()`: a multiple of `2^-53` in `[0, 1)`. -/
def random01 (d : ℕ) : ℚ := (d % 2 ^ 53 : ℕ) / 2 ^ 53

/-- random_gen.py:99-105 `get_category_from_weight_index`; line 105 indexes a `dict_keys` object, which raises.  `sub` is the
subtraction of Python floats. -/
def pick {C : Type} (sub : ℚ → ℚ → ℚ) : List (C × ℚ) → ℚ → Option C
  | [], _ => none
  | (c, w) :: cs, x => if sub x w ≤ 0 then some c else pick sub cs (sub x w)

/-! ## Fixed-point -/

/-- random_gen.py:116-152 the categories of `IntRandomGen` -/
inductive Cat where
  | max | min | zero | high | low | nearZero | standard
deriving DecidableEq, Repr

/-- random_gen.py:155-163, 215-223: the weights (their sum is 1 already, so that `normalize_map` divides by 1) -/
def weights : List (Cat × ℚ) :=
  [(.max, 1 / 100), (.min, 1 / 100), (.zero, 1 / 100), (.high, 7 / 100), (.low, 7 / 100), (.nearZero, 7 / 100), (.standard, 76 / 100)]

/-- random_gen.py:229-243: a `FixedPointRandomGen` object, with its attributes `min_value` and `max_value` -/
structure FixGen where
  fmt : Fixed.Fmt
  lo : ℚ
  hi : ℚ

/-- random_gen.py:245-246 `scale` -/
def FixGen.scale (G : FixGen) (v : ℚ) : ℚ := v * (2 : ℚ) ^ (-G.fmt.frac)

/-- random_gen.py:247-248 `unscale` -/
def FixGen.unscale (G : FixGen) (v : ℚ) : ℚ := v * (2 : ℚ) ^ G.fmt.frac

/-- random_gen.py:236 `highlow_range` (sizes are not negative) -/
def FixGen.highlow (G : FixGen) : ℤ := 2 ^ ((G.fmt.int + G.fmt.frac).toNat / 5)

/-- random_gen.py:250-254 `gen_raw_max_value` -/
def FixGen.rawMax (G : FixGen) : ℚ := G.scale ((2 : ℚ) ^ (G.fmt.int + G.fmt.frac - if G.fmt.signed then 1 else 0) - 1)

/-- random_gen.py:255-261 `gen_raw_min_value` -/
def FixGen.rawMin (G : FixGen) : ℚ :=
  if G.fmt.signed then G.scale (-(2 : ℚ) ^ (G.fmt.int + G.fmt.frac - 1)) else G.scale 0

/-- random_gen.py:195-197 `rectify_value` -/
def FixGen.rectify (G : FixGen) (v : ℚ) : ℚ := Max.max G.lo (Min.min G.hi v)

/-- random_gen.py:272-274 `gen_low_value` -/
def FixGen.genLow (G : FixGen) (d : ℕ → ℕ) : Option ℚ :=
  (randrange (d 1) 0 G.highlow).map fun (r : ℤ) => G.rectify (G.lo + G.scale r)

/-- random_gen.py:262-291 the generation of one category -/
def FixGen.gen (G : FixGen) (d : ℕ → ℕ) : Cat → Option ℚ
  | .max => some (G.rectify G.rawMax)
  | .min => some (G.rectify G.rawMin)
  | .zero => some 0
  | .high => (randrange (d 1) 0 G.highlow).map fun (r : ℤ) => G.rectify (G.hi - G.scale r)
  | .low => G.genLow d
  | .nearZero =>
      if G.fmt.signed then (randrange (d 1) 0 (G.highlow * 2)).map fun (r : ℤ) => G.rectify (G.scale ((0 - G.highlow + r : ℤ) : ℚ))
      else (G.genLow d).map G.scale
  | .standard => (randrangeQ (d 1) (G.unscale G.lo) (G.unscale G.hi + 1)).map fun (r : ℤ) => G.scale r

/-- random_gen.py:107-111 `get_new_value` of a `FixedPointRandomGen` -/
def FixGen.newValue (sub : ℚ → ℚ → ℚ) (G : FixGen) (d : ℕ → ℕ) : Option ℚ :=
  (pick sub weights (random01 (d 0))).bind (G.gen d)

/-- random_gen.py:497 (`get_precision_rng` without range): the bounds are those of the format (239-240) -/
def FixGen.full (f : Fixed.Fmt) : FixGen :=
  let G : FixGen := ⟨f, 0, 0⟩
  ⟨f, G.rawMin, G.rawMax⟩

/-! ## Integers -/

/-- random_gen.py:176-209 `IntRandomGen`: `rectify_value` reads the attributes `min_value` and `max_value`, which this class does not
define (AttributeError). -/
def intGen (size : ℕ) (signed : Bool) (d : ℕ → ℕ) : Cat → Option ℤ
  | .max => some (2 ^ (size - if signed then 1 else 0) - 1)
  | .min => some (if signed then -2 ^ (size - 1) else 0)
  | .zero => some 0
  | .high => none
  | .low => none
  | .nearZero => none
  | .standard => randrange (d 1) (if signed then -2 ^ (size - 1) else 0) (2 ^ (size - if signed then 1 else 0) - 1 + 1)

/-- random_gen.py:107-111 `get_new_value` of an `IntRandomGen` -/
def intNewValue (sub : ℚ → ℚ → ℚ) (size : ℕ) (signed : Bool) (d : ℕ → ℕ) : Option ℤ :=
  (pick sub weights (random01 (d 0))).bind (intGen size signed d)

/-- ml_entity.py:119-129 `RawLogicVectorRandomGen.get_new_value` -/
def rawNewValue (size : ℕ) (lo hi : ℤ) (g : ℕ → ℕ) : Option ℤ :=
  (randrange (g 0) 0 (size + 1)).bind fun sub =>
    (randrange (g 1) 0 (2 ^ sub.toNat)).map fun r => Max.max (Min.min r hi) lo

/-! ## Floating-point -/

/-- random_gen.py:304-388 the categories of `FPRandomGen` -/
inductive FCat where
  | special | subnormal | normal | zeroExp
  | logInterval (lo hi : ℚ)
  | uniform (lo hi : ℚ)

/-- random_gen.py:389-394, 420, 429-434: the special values, without the signalling NaN -/
def specials (F : Float.Fmt) : List Float.Val :=
  [.plusInf, .minusInf, .plusZero, .minusZero, .num (Float.omega F), .num (-Float.omega F), .qNaN]

/-- random_gen.py:437-440 `generate_sign` -/
def sign (d : ℕ) : Option ℚ := (randrange d 0 2).map fun s => if s = 1 then -1 else 1

/-- random_gen.py:357-358: `ceil(log2(abs(b)))`; `none` is the logarithm of 0, minus infinity -/
def ceilLog (b : ℚ) : Option ℤ := if b = 0 then none else some (Int.clog 2 |b|)

/-- random_gen.py:356-357: first value of the exponent range (`min_exp`, or `get_emin_normal` at 366) -/
def minExp (F : Float.Fmt) (lo hi : ℚ) : Option ℤ :=
  if lo ≤ 0 ∧ 0 ≤ hi then some (Float.eminNormal F)
  else (ceilLog lo).bind fun a => (ceilLog hi).map fun b => Min.min a b

/-- random_gen.py:358 `max_exp`; `none` when both bounds are 0 (minus infinity, on which `randrange` raises) -/
def maxExp (lo hi : ℚ) : Option ℤ :=
  match ceilLog lo, ceilLog hi with
  | none, none => none
  | none, some b => some b
  | some a, none => some a
  | some a, some b => some (Max.max a b)

/-- random_gen.py:304-388 `generate_value` of each category -/
def fgen (F : Float.Fmt) (d g : ℕ → ℕ) : FCat → Option Float.Val
  | .special => (specials F)[g 0 % (specials F).length]? -- 312
  | .subnormal => -- 319-326
      (sign (d 1)).bind fun s => (randrange (d 2) 0 (2 ^ F.f)).map fun (field : ℤ) =>
        .num ((0 + field * (2 : ℚ) ^ (-(F.f : ℤ))) * s * (2 : ℚ) ^ Float.eminNormal F)
  | .normal => -- 333-341
      (randrange (d 1) (Float.eminNormal F) (Float.emaxM F + 1)).bind fun exp => (sign (d 2)).bind fun s =>
        (randrange (d 3) 0 (2 ^ F.f)).map fun (field : ℤ) => .num ((1 + field * (2 : ℚ) ^ (-(F.f : ℤ))) * s * (2 : ℚ) ^ exp)
  | .zeroExp => -- 347-350
      (randrange (d 1) 0 (2 ^ F.f)).map fun (field : ℤ) => .num (1 + field * (2 : ℚ) ^ (-(F.f : ℤ)))
  | .logInterval lo hi => -- 360-373
      (minExp F lo hi).bind fun e0 => (maxExp lo hi).bind fun e1 => (randrange (d 1) e0 (e1 + 1)).bind fun exp =>
        (sign (d 2)).bind fun s => (randrange (d 3) 0 (2 ^ F.f)).map fun (field : ℤ) =>
          .num (Min.min (Max.max lo ((1 + field * (2 : ℚ) ^ (-(F.f : ℤ))) * s * (2 : ℚ) ^ exp)) hi)
  | .uniform lo hi => -- 378-384
      (Float.rnd F (lo + (hi - lo) * random01 (g 0))).map .num

/-- random_gen.py:107-111 `get_new_value` of an `FPRandomGen` with the given (normalized) weight map -/
def fNewValue (sub : ℚ → ℚ → ℚ) (F : Float.Fmt) (w : List (FCat × ℚ)) (d g : ℕ → ℕ) : Option Float.Val :=
  (pick sub w (random01 (d 0))).bind (fgen F d g)

/-- random_gen.py:406-410 the default weights -/
def defaultWeights : List (FCat × ℚ) := [(.special, 1 / 10), (.subnormal, 2 / 10), (.normal, 7 / 10)]

/-- random_gen.py:423-427 `from_interval` -/
def intervalWeights (lo hi : ℚ) (uniform : Bool) : List (FCat × ℚ) :=
  [(if uniform then .uniform lo hi else .logInterval lo hi, 1)]

/-! ## Multi-limb -/

/-- random_gen.py:450-454 the default weights of the head of a multi-limb value -/
def mpWeights : List (FCat × ℚ) := [(.special, 0), (.subnormal, 0), (.normal, 1)]

/-- random_gen.py:481-485 the loop over the lower limbs; `ds` are the draws of their generators, `fs` pairs the format of the
previous limb with that of the limb -/
def mpLoop : List (Float.Fmt × Float.Fmt) → List (ℕ → ℕ) → ℤ → ℚ → Option ℚ
  | [], _, _, acc => some acc
  | _ :: _, [], _, _ => none
  | (prev, F) :: fs, d :: ds, e, acc =>
      let e' := e - (prev.f + 1)
      match fgen F d (fun _ => 0) .zeroExp with
      | some (.num m) => mpLoop fs ds e' (acc + (2 : ℚ) ^ e' * m)
      | _ => none

/-- random_gen.py:478-486 `MPFPRandomGen.get_new_value`: `fs` are the formats of the limbs, `w` the weights of the head.
A special value has no exponent (TypeError); the exponent of 0 is minus infinity, and every other limb is 0. -/
def mpNewValue (sub : ℚ → ℚ → ℚ) (F : Float.Fmt) (fs : List Float.Fmt) (w : List (FCat × ℚ)) (d g : ℕ → ℕ)
    (ds : List (ℕ → ℕ)) : Option ℚ :=
  match fNewValue sub F w d g with
  | some (.num acc) => if acc = 0 then some 0 else mpLoop (List.zip (F :: fs) fs) ds (Int.clog 2 |acc|) acc
  | _ => none

end Verif.Rng
