import Mathlib.Data.Rat.Defs
import Mathlib.Algebra.Field.Rat

/-!
# Hardware and software formats

A design which was described for hardware can be simulated in software once the
formats of its nodes are software formats.  The bits must keep their meaning.
-/

namespace Verif.RtlSw

/-- Formats: one hardware bit, hardware fixed point (integer size, fractional size,
signed), vectors of hardware bits, hardware signed and unsigned integers, software
fixed point, and anything else. -/
inductive Fmt
  | bit
  | hwFixed (int frac : ℤ) (signed : Bool)
  | bits (n : ℕ)
  | numeric (n : ℕ) (signed : Bool)
  | swFixed (int frac : ℤ) (signed : Bool)
  | other (k : ℕ)
  deriving DecidableEq

/-- The formats which only exist in hardware. -/
def Fmt.Hardware : Fmt → Prop
  | .bit | .hwFixed .. | .bits _ | .numeric .. => True
  | _ => False

/-- Number of bits. -/
def Fmt.width : Fmt → ℕ
  | .bit => 1
  | .hwFixed i f _ | .swFixed i f _ => (i + f).toNat
  | .bits n | .numeric n _ => n
  | .other _ => 0

/-- The integer which the `w` bits of `b` stand for. -/
def integer (signed : Bool) (w b : ℕ) : ℤ :=
  if signed ∧ 2 ^ w ≤ 2 * b then (b : ℤ) - 2 ^ w else b

/-- The number which the bits `b` stand for in each format. -/
def Fmt.meaning : Fmt → ℕ → Option ℚ
  | .bit, b => some b
  | .bits _, b => some b
  | .numeric n s, b => some (integer s n b)
  | .hwFixed i f s, b | .swFixed i f s, b => some (integer s (i + f).toNat b * (2 : ℚ) ^ (-f))
  | .other _, _ => none

/-- `g` is a software format with as many bits as `f`, and the same meaning. -/
structure SameInSoftware (f g : Fmt) : Prop where
  software : ∃ i fr s, g = .swFixed i fr s
  width : g.width = f.width
  meaning : ∀ b, b < 2 ^ f.width → g.meaning b = f.meaning b

/-- `g` is what `f` should become: its software counterpart if `f` only exists in
hardware, `f` itself otherwise. -/
def Translated (f g : Fmt) : Prop :=
  (f.Hardware → SameInSoftware f g) ∧ (¬ f.Hardware → g = f)

/-- Signed and unsigned hardware integers. -/
def Fmt.Numeric (f : Fmt) : Prop := ∃ n s, f = .numeric n s

/-- The format of a node: none, a format, or the table format number `k`, an object
which several nodes may share. -/
inductive Prec
  | none
  | fmt (f : Fmt)
  | table (k : ℕ)
  deriving DecidableEq

/-- Nodes: operations; calls, with the result format of the called function; tables of
the first kind, with the format of their elements; tables of the second kind, with their table format and the element format they were
built with. -/
inductive Kind
  | op
  | call (f : Fmt)
  | table (f : Fmt)
  | newTable (k : ℕ) (built : Fmt)

/-- Graphs: the operands of a node come before it. -/
structure Graph where
  kind : ℕ → Kind
  leaf : ℕ → Bool
  inputs : ℕ → List ℕ
  before : ∀ n a, a ∈ inputs n → a < n

/-- The nodes below `root`. -/
inductive Reach (G : Graph) (root : ℕ) : ℕ → Prop
  | root : Reach G root root
  | step {n a} : Reach G root n → G.leaf n = false → a ∈ G.inputs n → Reach G root a

end Verif.RtlSw
