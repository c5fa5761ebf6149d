import Verif.Float.Model

/-! # Model of the constants, conversions and table accesses of the x86 backend -/

namespace Verif.X86

open Verif.Float (Fmt Val)

/-! ## Constants -/

/-- x86_processor.py:78-84 `signed2unsigned` -/
def s2u (w : ℕ) (v : ℤ) : ℤ := if 0 ≤ v then v else v + 2 ^ w

/-- x86_processor.py:85-89 `unsigned2signed` -/
def u2s (w : ℕ) (v : ℤ) : ℤ := v - v / 2 ^ (w - 1) * 2 ^ w

/-- x86_processor.py:106-110, the loop that cuts the packed constant into words of 64 bits; `none` if it does not end within the fuel -/
def words : ℕ → ℤ → Option (List ℤ)
  | fuel, c =>
    if c = 0 then some []
    else match fuel with
      | 0 => none
      | n + 1 => (words n (c / 2 ^ 64)).map (u2s 64 (c % 2 ^ 64) :: ·)

/-- x86_processor.py:101-113 `get_sse_vector_int_cst`: the words of the initializer of a vector of integers of `w` bits -/
def intCst (w fuel : ℕ) (value : List ℤ) : Option (List ℤ) :=
  words fuel (value.reverse.foldl (fun acc x => acc * 2 ^ w + s2u w x) 0)

/-! ## Conversion of 64-bit integers; a register is the function from the index of a word of 32 bits to the word -/

/-- a cast of four integers of 64 bits to eight words: x86_processor.py:402-406 -/
def castWords (x : ℕ → BitVec 64) (i : ℕ) : BitVec 32 := if i % 2 = 0 then (x (i / 2)).setWidth 32 else (x (i / 2) >>> 32).setWidth 32

/-- `_mm256_permute_ps` (x86_processor.py:384, 407): the same choice of words in the two halves -/
def permutePs (imm : ℕ) (r : ℕ → BitVec 32) (i : ℕ) : BitVec 32 := r (4 * (i / 4) + imm / 4 ^ (i % 4) % 4)

/-- `_mm256_extractf128_ps` (x86_processor.py:378, 419) -/
def extract128 (k : ℕ) (r : ℕ → BitVec 32) (i : ℕ) : BitVec 32 := r (4 * k + i)

/-- `_mm_unpacklo_pd` (x86_processor.py:368, 422): the low pairs of words of the operands -/
def unpackLo (a b : ℕ → BitVec 32) (i : ℕ) : BitVec 32 := if i < 2 then a i else b (i - 2)

/-- x86_processor.py:401-430 `conversion_to_avx_mm256_cvtepi64_pd`; the last instruction, `_mm256_cvtepi32_pd`, is exact: its result is given as an integer.  The cast of the
permuted register to 128 bits (432-436) keeps its low half. -/
def cvtInt64 (x : ℕ → BitVec 64) (i : ℕ) : ℤ :=
  let p := permutePs (((3 * 4 + 1) * 4 + 2) * 4 + 0) (castWords x)
  let hi := extract128 1 p
  (unpackLo p hi i).toInt

/-! ## Conversion of floating-point numbers -/

/-- `_mm_cvtps_epi32` and `_mm256_cvtps_epi32` on a finite number: x86_processor.py:1489, 1712, 1825, 1938; the rounding mode is to nearest, the value out of range the integer indefinite -/
def cvtps (q : ℚ) : ℤ := if -2 ^ 31 ≤ Float.rne q ∧ Float.rne q < 2 ^ 31 then Float.rne q else -2 ^ 31

/-! ## Mantissa extraction -/

/-- x86_processor.py:959-980 `expand_vec_mantissa_extraction`, on the encoding of a lane; the constants are encoded by the format -/
def mantExt (F : Fmt) (x : ℕ) : Except Float.Err ℕ := do
  let m ← Float.integerCoding F (.num (-((2 : ℚ) ^ (1 + Float.bias F) - (2 : ℚ) ^ (1 + Float.bias F - F.f))))
  let o ← Float.integerCoding F (.num 1)
  return (x &&& m) ||| o

/-! ## Tables of two dimensions -/

/-- x86_processor.py:854-889 `linearize_2d_tableload`: the index of the element, computed in a signed format of `w` bits -/
def linIndex (w : ℕ) (d1 i0 i1 : ℕ) : ℤ := (((i0 : ℤ) * d1).bmod (2 ^ w) + i1).bmod (2 ^ w)

end Verif.X86
