import Verif.Fixed.Spec

/-! # Specification of fixed-point arithmetic carried by C integers (C68) -/

namespace Verif.FixC

open Verif.Fixed (Fmt)

/-- An integer type of C: a width and a signedness. -/
structure CInt where
  w : ℕ
  signed : Bool
deriving DecidableEq, Repr

/-- The values of an integer type. -/
def CInt.Fits (t : CInt) (n : ℤ) : Prop :=
  if t.signed then -2 ^ (t.w - 1) ≤ n ∧ n < 2 ^ (t.w - 1) else 0 ≤ n ∧ n < 2 ^ t.w

/-- The width of the C type that carries a format of `b` bits: the smallest standard width that is large enough. -/
def Container (b : ℤ) (c : ℕ) : Prop := 
  c ∈ ([8, 16, 32, 64, 128] : List ℕ) ∧ b ≤ c ∧ ∀ n ∈ ([8, 16, 32, 64, 128] : List ℕ), b ≤ (n : ℤ) → c ≤ n

/-- The integer `n`, in a variable of format `f`, stands for the number `v`. -/
def Stores (f : Fmt) (n : ℤ) (v : ℚ) : Prop := v = n * (2 : ℚ) ^ (-f.frac)

/-- The greatest multiple of `2^-frac` that is at most `v` (rounding toward minus infinity). -/
def down (frac : ℤ) (v : ℚ) : ℚ := ⌊v * (2 : ℚ) ^ frac⌋ * (2 : ℚ) ^ (-frac)

/-- Comparison predicates. -/
inductive Pred
  | eq | ne | lt | le | gt | ge

def Pred.Rel : Pred → ℚ → ℚ → Prop
  | .eq, a, b => a = b
  | .ne, a, b => a ≠ b
  | .lt, a, b => a < b
  | .le, a, b => a ≤ b
  | .gt, a, b => b < a
  | .ge, a, b => b ≤ a

end Verif.FixC
