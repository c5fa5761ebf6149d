import Mathlib.Data.Rat.Defs
import Mathlib.Algebra.Order.Ring.Rat
import Mathlib.Data.Nat.Digits.Defs

/-! # What a C program prints for a fixed-point number -/

namespace Verif.Disp

/-- A fixed-point format: sizes of the integer and fractional parts, signedness, and the support format given by the
user, if any (formats are numbered). -/
structure Fmt where
  int : ℤ
  frac : ℤ
  signed : Bool
  support : Option ℕ
  deriving DecidableEq

/-- The integer conversions of `printf`: `PRIi<w>`, `PRIu<w>` and `PRIx64`. -/
inductive Conv
  | dec (signed : Bool) (w : ℕ)
  | hex64
  deriving DecidableEq

/-- `inttypes.h` has conversions for 8, 16, 32 and 64 bits. -/
def Conv.Exists : Conv → Prop
  | .dec _ w => w = 8 ∨ w = 16 ∨ w = 32 ∨ w = 64
  | .hex64 => True

/-- The number written by a conversion for an integer argument. -/
def Conv.shows : Conv → ℤ → ℤ
  | .dec true w, v => if v % 2 ^ w < 2 ^ (w - 1) then v % 2 ^ w else v % 2 ^ w - 2 ^ w
  | .dec false w, v => v % 2 ^ w
  | .hex64, v => v % 2 ^ 64

/-- A way to display an integer code `v`: the scale of the `%e` conversion, if there is one (the argument is
`v * 2^-scale`), then integer conversions, and arguments, which are `v` shifted right. -/
structure Display where
  scale : Option ℤ
  convs : List Conv
  shifts : List ℕ
  deriving DecidableEq

/-- The integers displayed. -/
def Display.codes (d : Display) (v : ℤ) : List ℤ :=
  List.zipWith (fun c s => c.shows (v / 2 ^ s)) d.convs d.shifts

/-- Words of 64 bits, the lowest first, as one number. -/
def join : List ℤ → ℤ
  | [] => 0
  | x :: l => x + 2 ^ 64 * join l

/-- The codes which fit in a C integer of `w` bits. -/
def InRange (signed : Bool) (w : ℕ) (v : ℤ) : Prop :=
  if signed then -2 ^ (w - 1) ≤ v ∧ v < 2 ^ (w - 1) else 0 ≤ v ∧ v < 2 ^ w

/-- A display is right for a format held in `w` bits: it is well formed (as many arguments as conversions, all of which
exist), the real value displayed is the value of the format, and the integers displayed are the code itself, or its
words. -/
structure Right (f : Fmt) (w : ℕ) (d : Display) : Prop where
  arity : d.convs.length = d.shifts.length
  exist : ∀ c ∈ d.convs, c.Exists
  scale : ∀ e, d.scale = some e → e = f.frac
  plain : d.scale = none → f.frac = 0
  code : ∀ v, InRange f.signed w v →
    d.codes v = [v] ∨ (w = 64 * d.convs.length ∧ join (d.codes v) = v % 2 ^ w)

/-- The digits of a number in base 16 as `printf` writes them: no leading zeros. -/
def hexText (n : ℕ) : List ℕ := if n = 0 then [0] else (Nat.digits 16 n).reverse

end Verif.Disp
