import Verif.Fixed.Model
import Verif.Disp.Spec

/-! # Display formats of fixed-point formats -/

namespace Verif.Disp

/-- `num_64b_chunk` words of `multi_word_fixed_point_beautify` (`core/display_utils.py` lines 53-69): the value shifted by
`64 * i` for `i` in `range(word_num)`. Names of variables and the text of the cast are not modelled. -/
def wordShifts (n : ℕ) : List ℕ := (List.range n).map (fun i => 64 * i)

/-- The display format built when the map has none (`build_display_format_object`, `core/ml_formats.py` lines 973-991),
for a container of `c` bits. -/
def fresh (f : Fmt) (c : ℕ) : Display :=
  if f.frac = 0 then ⟨none, [.dec f.signed c], [0]⟩
  else if c ≤ 64 then ⟨some f.frac, [.dec f.signed c], [0]⟩
  else ⟨some f.frac, List.replicate (c / 64) .hex64, wordShifts (c / 64)⟩

/-- The key of the map: both sizes and the support format (`core/ml_formats.py` line 971). The support format is still
the one given by the user: the default one is set later (lines 966-967). -/
def key (f : Fmt) : ℤ × ℤ × Option ℕ := (f.int, f.frac, f.support)

/-- `DISPLAY_FORMAT_MAP`, shared by all the formats of a run (`core/ml_formats.py` line 920). -/
abbrev Map := List ((ℤ × ℤ × Option ℕ) × Display)

/-- `build_display_format_object` with its memoization (`core/ml_formats.py` lines 970-999). -/
def build (m : Map) (f : Fmt) (c : ℕ) : Map × Display :=
  match m.lookup (key f) with
  | some d => (m, d)
  | none => ((key f, fresh f c) :: m, fresh f c)

/-- The creation of a format (`ML_Base_SW_FixedPoint_Format.__init__`, `core/ml_formats.py` lines 938-967): the display
format is built when there is a container. -/
def create (m : Map) (f : Fmt) : Map × Option Display :=
  match Fixed.cBitSize f.int f.frac with
  | none => (m, none)
  | some c => ((build m f c).1, some (build m f c).2)

/-- The map after formats were created, the first of the list first. -/
def run (l : List Fmt) : Map := l.foldl (fun m f => (create m f).1) []

/-- The display format of `f` when the formats of `l` were created before it. -/
def displayAfter (l : List Fmt) (f : Fmt) : Option Display := (create (run l) f).2

end Verif.Disp
