import Verif.LogRep.Spec

/-!
# Model of `metalibm_core/utility/log_report.py`
-/

namespace Verif.LogRep

/-- The predefined levels (log_report.py:92-96), created in this order. -/
def warning : Level := ⟨0, "Warning".toList, none⟩
def info : Level := ⟨1, "Info".toList, none⟩
def error : Level := ⟨2, "Error".toList, none⟩

/-- `gen_sub_level` (log_report.py:78-79): a new object, with number `id`. -/
def genSubLevel (l : Level) (id : ℕ) (sub : Text) : Level := ⟨id, l.name, some sub⟩

/-- The class attributes of `Log` (log_report.py:41-47, 99-103). -/
structure Cfg where
  enabled : List Filter
  stream : Bool
  stdout : Bool
  brk : Bool
  exitOnError : Bool

/-- The initial attributes (log_report.py:41-47, 99-103). -/
def initial : Cfg := ⟨[⟨"Error".toList, none⟩], false, true, false, false⟩

/-- `LogLevelFilter.match` (log_report.py:82-88). -/
def Filter.matches (f : Filter) (l : Level) : Bool :=
  if l.name ≠ f.name then false
  else if f.sub = none ∨ f.sub = l.sub then true
  else false

/-- `filter_log_level` (log_report.py:105-112). -/
def filterLevel : List Filter → Level → Bool
  | [], _ => false
  | f :: fs, l => if f.matches l then true else filterLevel fs l

/-- `enable_level` (log_report.py:139-141). -/
def enable (c : Cfg) (name : Text) (sub : Option Text) : Cfg :=
  { c with enabled := c.enabled ++ [⟨name, sub⟩] }

/-- Python's `str.format` with positional arguments: `{}` takes the next one, doubled
braces stand for themselves, `none` is an exception.  Simplification: every other field is
an exception (no keyword argument, index or format specification). -/
def fmt : Text → List Text → Option Text
  | [], _ => some []
  | '{' :: '{' :: t, as => (fmt t as).map ('{' :: ·)
  | '}' :: '}' :: t, as => (fmt t as).map ('}' :: ·)
  | '{' :: '}' :: t, a :: as => (fmt t as).map (a ++ ·)
  | c :: t, as => if c = '{' ∨ c = '}' then none else (fmt t as).map (c :: ·)

/-- The first part of `report` (log_report.py:125-129): what is written, `none` when the
formatting fails; the output so far is kept. -/
def display (c : Cfg) (l : Level) (msg : Text) (as : List Text) (o : Out) : Bool × Out :=
  if filterLevel c.enabled l then
    match fmt msg as with
    | none => (!(c.stream || c.stdout), o)
    | some t =>
      let o1 := if c.stream then { o with log := o.log ++ [t] } else o
      let o2 := if c.stdout then { o1 with screen := o1.screen ++ [l.name ++ ": ".toList ++ t] }
        else o1
      (true, o2)
  else (true, o)

/-- `report` (log_report.py:121-137).  An exception made from the message or given by the
caller, and the one of a failed formatting, are all `raised`. -/
def report (c : Cfg) (l : Level) (msg : Text) (as : List Text) (o : Out) : End × Out :=
  match display c l msg as o with
  | (false, o') => (.raised, o')
  | (true, o') =>
    if l.id = error.id then
      if c.brk then (.raised, o')
      else if c.exitOnError then (.exited, o')
      else (.raised, o')
    else (.returned, o')

end Verif.LogRep
