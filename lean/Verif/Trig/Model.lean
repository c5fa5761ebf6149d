import Verif.Rem.FmodModel

/-! # Model of metalibm_core/core/payne_hanek.py: the reduction `generate_payne_hanek` generates, for binary64

The C operations are those of Elem/Fp.lean.  Not modelled: binary32, for which lines 112 and 184 give sizes that are not integers. -/

namespace Verif.Trig

open Verif.Float (Fmt Val)
open Verif.Elem
open Verif.Check (numOf)
open Verif.Rem (truncQ)

/-- the format -/
def b64 : Fmt := ⟨11, 52⟩

/-- payne_hanek.py:102 `p` -/
def p : ℤ := b64.f

/-- payne_hanek.py:105 `cst_msb` -/
def cstMsb (c : ℚ) : ℤ := Int.log 2 |c|

/-- payne_hanek.py:108 `cst_exp_range` -/
def cstExpRange (c : ℚ) : ℤ := cstMsb c - (b64.emin - b64.f) + 1

/-- payne_hanek.py:112 `chunk_size` -/
def chunkSize : ℤ := p / 2 - 2

/-- payne_hanek.py:113 `chunk_number` -/
def chunkNumber (c : ℚ) : ℤ := ⌈((cstExpRange c + chunkSize - 1 : ℤ) : ℚ) / chunkSize⌉

/-- payne_hanek.py:146-147 `local_cst`, of what is left of the constant -/
def localCst (c t : ℚ) (i : ℕ) : ℚ :=
  truncQ (t * (2 : ℚ) ^ (chunkSize * (i + 1) - cstMsb c)) / (2 : ℚ) ^ (chunkSize * (i + 1) - cstMsb c)

/-- payne_hanek.py:134,153 `tmp_cst` when the chunk of that index is extracted -/
def tmpCst (c : ℚ) : ℕ → ℚ
  | 0 => c
  | i + 1 => tmpCst c i - localCst c (tmpCst c i) i

/-- payne_hanek.py:114,148 `local_scale` -/
def localScale (i : ℕ) : ℚ := ((2 : ℚ) ^ (-(chunkSize / 2))) ^ i

/-- payne_hanek.py:150,215 a read of `cst_table`; `none`: out of the table -/
noncomputable def cstLoad (c : ℚ) (i : ℤ) : Option Val :=
  if 0 ≤ i ∧ i < chunkNumber c then some (cst b64 ((localCst c (tmpCst c i.toNat) i.toNat / localScale i.toNat ^ 2 : ℚ) : ℝ)) else none

/-- payne_hanek.py:151,216 a read of `scale_table`; `none`: out of the table -/
noncomputable def scaLoad (c : ℚ) (i : ℤ) : Option Val :=
  if 0 ≤ i ∧ i < chunkNumber c then some (cst b64 ((localScale i.toNat : ℚ) : ℝ)) else none

/-- payne_hanek.py:161 `vx_exp`: exponent of a normal number -/
def vxExp (x : Val) : ℤ := Int.log 2 |numOf x|

/-- payne_hanek.py:164 `msb_exp` -/
def msbExp (k : ℕ) (x : Val) : ℤ := -(vxExp x - p + 1 - k)

/-- payne_hanek.py:169 `msb_index`; the division of C truncates -/
def msbIndex (c : ℚ) (k : ℕ) (x : Val) : ℤ := if cstMsb c < msbExp k x then 0 else (cstMsb c - msbExp k x).tdiv chunkSize

/-- payne_hanek.py:175 `lsb_exp` -/
def lsbExp (n : ℕ) (x : Val) : ℤ := -(vxExp x + n + 4)

/-- payne_hanek.py:180 `lsb_index` -/
def lsbIndex (c : ℚ) (n : ℕ) (x : Val) : ℤ := (cstMsb c - lsbExp n x).tdiv chunkSize

/-- payne_hanek.py:184 `half_size` -/
def halfSize : ℤ := p / 2 + 1

/-- payne_hanek.py:187 `vx_hi`: clearing the `half_size` low bits of the encoding of a normal number truncates its significand -/
noncomputable def vxHi (x : Val) : Val :=
  cst b64 ((truncQ (numOf x / (2 : ℚ) ^ (vxExp x - p + halfSize)) * (2 : ℚ) ^ (vxExp x - p + halfSize) : ℚ) : ℝ)

/-- payne_hanek.py:190 `vx_lo` -/
noncomputable def vxLo (x : Val) : Val := fsub b64 x (vxHi x)

/-- an integer of 64 bits; `none`: overflow, undefined in C -/
def int64 (n : ℤ) : Option ℤ := if -2 ^ 63 ≤ n ∧ n < 2 ^ 63 then some n else none

/-- `NearestInteger` to a 64-bit integer; `none`: the value is not representable, and the result of the C conversion is unspecified -/
noncomputable def nearInt (a : Val) : Option ℤ := if isInfOrNaN a then none else int64 (nearestZ a)

/-- `Conversion` of a 64-bit integer to binary64 -/
noncomputable def ofInt (n : ℤ) : Val := rnd b64 false ((n : ℚ) : ℝ)

/-- payne_hanek.py:227 `pre_exclude_hi` -/
def preExcludeHi (c : ℚ) (x : Val) (i : ℤ) : ℤ := (cstMsb c - (i + 1) * chunkSize + 1) + (vxExp x + (-halfSize + 1))

/-- payne_hanek.py:221-223,229-234 `hi_mult_red` and `hi_mult_int`, from `hi_mult` and the weight tested.  A conversion that is not selected has no
effect. -/
noncomputable def hiPart (k : ℕ) (w : ℤ) (hiMult : Val) : Option (Val × ℤ) :=
  if w ≤ k then (nearInt hiMult).bind fun n => some (fsub b64 hiMult (ofInt n), n) else some (.plusZero, 0)

/-- payne_hanek.py:215-257 an iteration of the loop: `acc` and `acc_int` -/
noncomputable def body (c : ℚ) (k : ℕ) (x : Val) (i : ℤ) (s : Val × ℤ) : Option (Val × ℤ) := do
  let cl ← cstLoad c i
  let sl ← scaLoad c i
  let hiMult := fmul b64 (fmul b64 (vxHi x) sl) (fmul b64 cl sl)
  let hi ← hiPart k (preExcludeHi c x i) hiMult
  let loMult := fmul b64 (fmul b64 (vxLo x) sl) (fmul b64 cl sl)
  let loInt ← nearInt loMult
  let loRed := fsub b64 loMult (ofInt loInt)
  let accExpr := fadd b64 (fadd b64 s.1 hi.1) loRed
  let sum ← int64 (s.2 + hi.2)
  let sum ← int64 (sum + loInt)
  let intExpr := sum.tmod (2 ^ (k + 1))
  let accExprInt ← nearInt accExpr
  let r ← int64 (intExpr + accExprInt)
  return (fsub b64 accExpr (ofInt accExprInt), r)

/-- payne_hanek.py:263-271 `red_loop`: as many iterations as the first argument, from an index on -/
noncomputable def loop (c : ℚ) (k : ℕ) (x : Val) : ℕ → ℤ → Val × ℤ → Option (Val × ℤ)
  | 0, _, s => some s
  | m + 1, i, s => (body c k x i s).bind (loop c k x m (i + 1))

/-- payne_hanek.py:86-278 the reduction of `x` by the constant `c`: `acc` and `acc_int` after the loop.
`none`: a table is read out of its bounds, or a value does not fit its integer format. -/
noncomputable def reduce (c : ℚ) (n k : ℕ) (x : Val) : Option (Val × ℤ) :=
  loop c k x (lsbIndex c n x - msbIndex c k x + 1).toNat (msbIndex c k x) (.plusZero, 0)

end Verif.Trig
