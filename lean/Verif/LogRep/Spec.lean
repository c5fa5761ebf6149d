import Mathlib.Data.Nat.Notation
import Mathlib.Data.List.Basic

/-!
# Reports

Every error of the generator goes through one reporting function.
-/

namespace Verif.LogRep

abbrev Text := List Char

/-- Levels of messages: objects with a number (identity), a name and perhaps a
sub-level. -/
structure Level where
  id : ℕ
  name : Text
  sub : Option Text
  deriving DecidableEq

/-- What the user asked to see: a level, or only one of its sub-levels. -/
structure Filter where
  name : Text
  sub : Option Text
  deriving DecidableEq

/-- The filter asks for the messages of this level. -/
def Filter.Asks (f : Filter) (l : Level) : Prop :=
  f.name = l.name ∧ (f.sub = none ∨ f.sub = l.sub)

/-- How a call of the reporting function ends. -/
inductive End
  | returned
  | raised
  | exited
  deriving DecidableEq

/-- What has been written to the log and on the screen. -/
structure Out where
  log : List Text
  screen : List Text
  deriving DecidableEq

/-- No brace in the text. -/
def Plain (t : Text) : Prop := '{' ∉ t ∧ '}' ∉ t

/-- `t` with a pair of braces between the pieces, and the pieces with the arguments
instead. -/
def template : List Text → Text
  | [] => []
  | [p] => p
  | p :: l => p ++ '{' :: '}' :: template l

def filled : List Text → List Text → Text
  | [], _ => []
  | [p], _ => p
  | p :: l, [] => p ++ filled l []
  | p :: l, a :: as => p ++ a ++ filled l as

end Verif.LogRep
