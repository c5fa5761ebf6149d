import Verif.Float.Spec

/-! # Formats and the values they hold, independently of the typing passes -/

namespace Verif.Typing

open Verif.Float (Fmt)

/-- formats: abstract floating-point, integer and boolean ones, IEEE formats and integer ones by size, and the boolean one -/
inductive T
  | aFloat | aInt | aBool
  | fp (bits : ℕ)
  | ix (signed : Bool) (bits : ℕ)
  | bool
  deriving DecidableEq, Repr

/-- not abstract -/
def T.concrete : T → Bool
  | .aFloat | .aInt | .aBool => false
  | _ => true

/-- size in bits; abstract formats have none -/
def T.bits : T → ℕ
  | .fp n => n
  | .ix _ n => n
  | .bool => 32
  | _ => 0

/-- IEEE-754 binary formats by size -/
def ieee : ℕ → Option Fmt
  | 16 => some ⟨5, 10⟩
  | 32 => some ⟨8, 23⟩
  | 64 => some ⟨11, 52⟩
  | _ => none

/-- the number is one of the values of the format -/
def T.holds (t : T) (v : ℚ) : Prop :=
  match t with
  | .fp n => ∃ F, ieee n = some F ∧ F.Finite v
  | .ix true n => ∃ k : ℤ, v = k ∧ -2 ^ (n - 1) ≤ k ∧ k < 2 ^ (n - 1)
  | .ix false n => ∃ k : ℤ, v = k ∧ 0 ≤ k ∧ k < 2 ^ n
  | _ => False

end Verif.Typing
