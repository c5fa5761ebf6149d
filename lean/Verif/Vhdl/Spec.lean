import Verif.Fixed.Spec

/-!
# Specification for the fixed-point hardware operations (property C116)

A fixed-point signal of a generated circuit is a vector of bits. What number such a vector stands for, and what it means
to keep only some fraction bits of a number, is said here without reference to the code generator. The formats and the
values a format can hold (`Fmt`, `Fmt.Holds`) are those of `Verif.Fixed`.
-/

namespace Verif.Vhdl

open Verif.Fixed

/-- A vector of bits: how many there are and the natural number they spell, most significant bit first. -/
structure Vec where
  size : ℕ
  val : ℕ
deriving DecidableEq, Repr

/-- The number a vector spells when it is read as a two's complement number. -/
def Vec.sgn (v : Vec) : ℤ := if 2 * v.val < 2 ^ v.size then v.val else (v.val : ℤ) - 2 ^ v.size

/-- The number a vector spells, read with or without sign. -/
def Vec.num (signed : Bool) (v : Vec) : ℤ := if signed then v.sgn else v.val

/-- `v` can be the content of a signal of format `f`: it has as many bits as the format, at least one. -/
def Is (f : Fmt) (v : Vec) : Prop := (v.size : ℤ) = f.int + f.frac ∧ 0 < v.size ∧ v.val < 2 ^ v.size

/-- The number that a signal of format `f` stands for when it contains `v`. -/
def value (f : Fmt) (v : Vec) : ℚ := v.num f.signed * (2 : ℚ) ^ (-f.frac)

/-- The largest multiple of `2^(-frac)` that is not above `x`. -/
def cut (frac : ℤ) (x : ℚ) : ℚ := (⌊x * (2 : ℚ) ^ frac⌋ : ℚ) * (2 : ℚ) ^ (-frac)

/-- The signal has the format and stands for the number. -/
def Stands (f : Fmt) (v : Vec) (x : ℚ) : Prop := Is f v ∧ value f v = x

end Verif.Vhdl
