import Verif.Float.Spec

/-! # What an exact accumulation of products is

Independent of the code: the real number a datum stands for, the number a word of the accumulator stands for, and sums of products. -/

namespace Verif.Kulisch

open Verif.Float (Fmt Val)

/-- The number a datum stands for; infinities and NaNs stand for none. -/
def number : Val → Option ℚ
  | .plusZero => some 0
  | .minusZero => some 0
  | .num v => some v
  | _ => none

/-- `a` is the number encoded by the `1 + e + f`-bit word `c`. -/
def Encodes (F : Fmt) (c : ℕ) (a : ℚ) : Prop := c < 2 ^ (1 + F.e + F.f) ∧ number (F.decode c) = some a

/-- The integer a word of `W` bits stands for in two's complement. -/
def signed (W c : ℕ) : ℤ := if c < 2 ^ (W - 1) then c else (c : ℤ) - 2 ^ W

/-- The integer a sign and a magnitude stand for. -/
def signMag (s : Bool) (m : ℕ) : ℤ := if s then -(m : ℤ) else m

/-- The sum of the products of the pairs. -/
def dot : List (ℚ × ℚ) → ℚ
  | [] => 0
  | (a, b) :: l => a * b + dot l

/-- The words of the two lists encode the numbers, pair by pair. -/
def EncodesAll (F : Fmt) (cs : List (ℕ × ℕ)) (l : List (ℚ × ℚ)) : Prop :=
  List.Forall₂ (fun c a => Encodes F c.1 a.1 ∧ Encodes F c.2 a.2) cs l

/-- Neither number is subnormal, unless both are below twice the smallest normal number (or one is zero). -/
def Aligned (F : Fmt) (a b : ℚ) : Prop :=
  a = 0 ∨ b = 0 ∨ ((2 : ℚ) ^ F.emin ≤ |a| ∧ (2 : ℚ) ^ F.emin ≤ |b|) ∨ (|a| < (2 : ℚ) ^ (F.emin + 1) ∧ |b| < (2 : ℚ) ^ (F.emin + 1))

end Verif.Kulisch
