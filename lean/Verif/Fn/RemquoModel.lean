import Mathlib.Data.Int.Log
import Mathlib.Data.Rat.Floor
import Mathlib.Algebra.Order.Field.Rat

/-! Model of `metalibm_functions/remquo.py` `MetaRemQuo.generate_scheme` on finite operands with a
non-zero divisor. The generated code is modelled in the format of precision `p` and least normal
exponent `emin`, with every floating-point operation rounded by `rnd`. Simplifications: overflow and
the sign of zero are left out, the early exits for NaN, infinities and a zero divisor
(remquo.py:303-338) are left out, signed overflow of `q` wraps. -/

namespace Verif.Fn

/-- two's complement of width `w` -/
def wrapS (w : ℕ) (z : ℤ) : ℤ := (z + 2 ^ (w - 1)) % 2 ^ w - 2 ^ (w - 1)

/-- support_lib/ml_support_lib.h:184-185 `ml_exp_extraction_dirty`: the exponent field minus the
bias; the field of a subnormal number (or zero) is 0. -/
def expo (emin : ℤ) (v : ℚ) : ℤ := if |v| < (2:ℚ) ^ emin then emin - 1 else Int.log 2 |v|

/-- support_lib/ml_support_lib.h:187-188 `ml_mantissa_extraction` of a normal number -/
def mantissa (v : ℚ) : ℚ := v / (2:ℚ) ^ Int.log 2 |v|

/-- remquo.py:170-179, 185-189, 230-231: scaling by `2^e` in two halves (C division truncates) -/
def scale2 (rnd : ℚ → ℚ) (v : ℚ) (e : ℤ) : ℚ :=
  rnd (rnd (v * (2:ℚ) ^ (Int.tdiv e 2)) * (2:ℚ) ^ (e - Int.tdiv e 2))

/-- remquo.py:178-179 scaling by `2^-e`, halving `e` before negating -/
def unscale2 (rnd : ℚ → ℚ) (v : ℚ) (e : ℤ) : ℚ :=
  rnd (rnd (v * (2:ℚ) ^ (-Int.tdiv e 2)) * (2:ℚ) ^ (-(e - Int.tdiv e 2)))

/-- remquo.py:218-228 the first loop; `n` is the number of iterations left, `wd` is
`loop_watchdog`, `none` is `Return(-1)` of the watchdog -/
def loop1 (rnd : ℚ → ℚ) (w : ℕ) (my : ℚ) : ℕ → ℤ → ℚ → ℕ → Option (ℤ × ℚ × ℕ)
  | 0, q, mx, wd => some (q, mx, wd)
  | n + 1, q, mx, wd =>
      let q' := wrapS w (2 * q + if my ≤ mx then 1 else 0)
      let mx' := rnd (2 * rnd (mx - if my ≤ mx then my else 0))
      match wd with
      | 0 => none
      | wd + 1 => loop1 rnd w my n q' mx' wd

/-- remquo.py:232-242 the second loop -/
def loop2 (rnd : ℚ → ℚ) (w : ℕ) (ay : ℚ) : ℕ → ℤ → ℚ → ℚ → Option (ℤ × ℚ × ℕ)
  | 0, q, mx, my => if my > ay then none else some (q, mx, 0)
  | wd + 1, q, mx, my =>
      if my > ay then
        loop2 rnd w ay wd (wrapS w (2 * q + if |my| ≤ mx then 1 else 0))
          (rnd (mx - if |my| ≤ mx then |my| else 0)) (rnd (my * (1 / 2)))
      else some (q, mx, wd + 1)

/-- remquo.py:244-253 the third loop -/
def loop3 (rnd : ℚ → ℚ) (w : ℕ) (ay : ℚ) : ℕ → ℤ → ℚ → Option (ℤ × ℚ)
  | 0, q, mx => if mx > ay then none else some (q, mx)
  | wd + 1, q, mx =>
      if mx > ay then
        loop3 rnd w ay wd (wrapS w (q + if mx > ay then 1 else 0))
          (rnd (mx - if mx > ay then ay else 0))
      else some (q, mx)

/-- remquo.py:254-281 the last steps, with `sub` the test `vy_subnormal` -/
def finish (rnd : ℚ → ℚ) (w k : ℕ) (sub : Bool) (x y : ℚ) (q : ℤ) (mx : ℚ) : ℤ × ℚ :=
  let ay := |y|
  let q1 := wrapS w (q + if mx ≥ ay then 1 else 0)
  let mx1 := rnd (mx - if mx ≥ ay then ay else 0)
  -- 203-204, 259
  let vys : ℚ := if sub then 1 else 1 / 2
  let vxs : ℚ := if sub then 2 else 1
  let half := |rnd (y * vys)|
  let s2 := if rnd (mx1 * vxs) > half then (wrapS w (q1 + 1), rnd (mx1 - ay)) else (q1, mx1)
  let s3 := if rnd (s2.2 * vxs) = half ∧ Int.tmod s2.1 2 = 1
    then (wrapS w (s2.1 + 1), rnd (s2.2 - ay)) else s2
  -- 209-210, 277-281
  let remSign : ℚ := if x < 0 then -1 else 1
  let quoSign : ℤ := if (x < 0 ∧ ¬ y < 0) ∨ (¬ x < 0 ∧ y < 0) then -1 else 1
  (wrapS w (quoSign * ((s3.1 % 2 ^ w) % 2 ^ k)), rnd (remSign * s3.2))

/-- remquo.py:164-165, 178-194: the scaled operands and the number of first-loop iterations -/
def myOf (rnd : ℚ → ℚ) (p : ℕ) (emin : ℤ) (y : ℚ) : ℚ :=
  if |y| < (2:ℚ) ^ emin then |mantissa (rnd (y * (2:ℚ) ^ p))| else |unscale2 rnd y (expo emin y)|

/-- remquo.py:214-282 `loop` -/
def mainLoop (rnd : ℚ → ℚ) (p : ℕ) (emin : ℤ) (w k : ℕ) (x y : ℚ) : Option (ℤ × ℚ) :=
  let ex := expo emin x
  let ey := expo emin y
  let mx := |unscale2 rnd x ex|
  let my := myOf rnd p emin y
  let m := if ey < ex then ey else ex
  match loop1 rnd w my (ex - ey).toNat 0 mx 5000 with
  | none => none
  | some (q, mx, wd) =>
      match loop2 rnd w |y| wd q (scale2 rnd mx m) (scale2 rnd my m) with
      | none => none
      | some (q, mx, wd) =>
          match loop3 rnd w |y| wd (wrapS w (2 * q)) mx with
          | none => none
          | some (q, mx) => some (finish rnd w k (decide (|y| < (2:ℚ) ^ emin)) x y q mx)

/-- remquo.py:301-366 `mod_scheme` in full mode (quotient and remainder), from line 318 on;
`none` is the value -1 returned by the watchdog. -/
def remquo (rnd : ℚ → ℚ) (p : ℕ) (emin : ℤ) (w k : ℕ) (x y : ℚ) : Option (ℤ × ℚ) :=
  if x = 0 then some (0, x)
  else if |x| < |rnd (y * (1 / 2))| then some (0, x)
  else if x = y then some (1, x - x)
  else if x = -y then some (-1, x - x)
  else mainLoop rnd p emin w k x y

end Verif.Fn
