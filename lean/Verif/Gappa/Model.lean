import Verif.Gappa.Spec

/-!
# Model of the generation of Gappa scripts (property C117)

`metalibm_core/code_generation/gappa_code_generator.py` writes, for an operation graph, the script from which the tool
Gappa proves an interval. The model produces the script as data; what the script says is `Proves`.

Simplifications: only the precisions binary32, binary64 and exact; constants appear with their value where the code
declares a name for them; the arguments of a node are generated from left to right (the code sorts them by the index of
the node; the order does not change any value); the hints for nodes marked exact, fixed-point formats, tables and
conditions are not modelled; a commuted fused operation is the same as one that is not; an exact fused operation is given
a line of its own where the code writes it in place.
-/

namespace Verif.Gappa

open Verif.Names (Name indexed)

/-- An operand in the script: a name or a number. -/
inductive At
  | v (n : Name)
  | c (q : ℚ)
deriving DecidableEq, Repr

/-- A right-hand side in the script. -/
inductive G
  | at (x : At)
  | bin (o : Op2) (x y : At)
  | fma (s : Fma) (x y z : At)
  | neg (x : At)
  | rnd (p : Prec) (g : G)
  | int (g : G)
deriving DecidableEq, Repr

/-- The memoization map and the lines written so far. -/
structure St where
  memo : List (ℕ × At)
  lines : List (Name × G)

/-- The names declared so far. -/
def St.used (st : St) : List Name := st.lines.map Prod.fst

/-- `get_free_var_name`, `code_generation/code_object.py` lines 442-448: the prefix if it is free, or else the prefix with
the first index that makes it free (the index the search starts from is not modelled). The names of the variables of the
graph are not declared, so they do not count as taken. -/
def freeName (used : List Name) (p : Name) : Name :=
  if p ∉ used then p
  else match (List.range (used.length + 1)).find? (fun i => decide (indexed p i ∉ used)) with
    | some i => indexed p i
    | none => p

/-- The name given to the nodes that have no tag. -/
def tmp : Name := ['t', 'm', 'p']

/-- Assignment of a right-hand side to a new name, `SymbolOperator.assemble_code`,
`code_generation/generator_utility.py` lines 466-473. -/
def emit (st : St) (tag : Option Name) (g : G) : At × St :=
  let n := freeName st.used (tag.getD tmp)
  (.v n, ⟨st.memo, st.lines ++ [(n, g)]⟩)

def E.prec : E → Prec
  | .var _ _ p | .cst _ _ p | .bin _ _ p _ _ _ | .fma _ _ p _ _ _ _ | .neg _ p _ _ | .conv _ p _ _ | .rint _ p _ _ => p

/-- `type_relax_match`, `generator_utility.py` lines 1108-1117, for one argument of a node of precision `p`. -/
def relax (p q : Prec) : Bool := q = p || q = .exact

/-- The rounding of a node by the table entries that `build_simplified_operator_generation_nomap` makes with explicit
rounding and extension to exact (`generator_utility.py` lines 1143-1160): none for an exact node, and the rounding to the
precision of the node when its arguments have that precision or are exact. `none` stands for an operation that the table
does not support. -/
def rounded (p : Prec) (args : List Prec) (g : G) : Option G :=
  if p = .exact then some g
  else if args.all (relax p) then some (.rnd p g)
  else none

/-- The entries for the operations with two operands, `code_generation/generic_processor.py` lines 920-955: the division is
not rounded, whatever its precision. -/
def binCode (o : Op2) (p : Prec) (pa pb : Prec) (x y : At) : Option G :=
  if o = .div then some (.bin o x y) else rounded p [pa, pb] (.bin o x y)

/-- The entries for the fused operations, `generic_processor.py` lines 956-1022: the standard operation has strict matching,
the others relaxed matching. -/
def fmaCode (s : Fma) (p : Prec) (ps : List Prec) (x y z : At) : Option G :=
  if p ≠ .exact ∧ s = .std ∧ ps.any (· ≠ p) then none else rounded p ps (.fma s x y z)

/-- The entries for `NearestInteger`, `generic_processor.py` lines 1047-1054, with `RoundOperator.assemble_code`,
`generator_utility.py` lines 945-960: a node of exact precision is not rounded. -/
def rintCode (p q : Prec) (x : At) : Option G :=
  if p = .exact then some (.at x) else if relax p q then some (.int (.at x)) else none

/-- `GappaCodeGenerator.generate_expr`, `gappa_code_generator.py` lines 128-256. A conversion is returned before it is
memoized (line 167), and has no operator for the exact precision (`RoundOperator.__init__`, `generator_utility.py` line
930). -/
def gen : E → St → Option (At × St)
  | .var _ t _, st => some (.v t, st)
  | .cst _ v _, st => some (.c v, st)
  | .bin i o p t a b, st =>
    match st.memo.lookup i with
    | some x => some (x, st)
    | none =>
      (gen a st).bind fun (x, s1) => (gen b s1).bind fun (y, s2) =>
      (binCode o p a.prec b.prec x y).bind fun g =>
      let (z, s3) := emit s2 t g
      some (z, ⟨(i, z) :: s3.memo, s3.lines⟩)
  | .fma i s p t a b c, st =>
    match st.memo.lookup i with
    | some x => some (x, st)
    | none =>
      (gen a st).bind fun (x, s1) => (gen b s1).bind fun (y, s2) => (gen c s2).bind fun (w, s3) =>
      (fmaCode s p [a.prec, b.prec, c.prec] x y w).bind fun g =>
      let (z, s4) := emit s3 t g
      some (z, ⟨(i, z) :: s4.memo, s4.lines⟩)
  | .neg i p t a, st =>
    match st.memo.lookup i with
    | some x => some (x, st)
    | none =>
      (gen a st).bind fun (x, s1) =>
      (rounded p [a.prec] (.neg x)).bind fun g =>
      let (z, s2) := emit s1 t g
      some (z, ⟨(i, z) :: s2.memo, s2.lines⟩)
  | .conv i p t a, st =>
    match st.memo.lookup i with
    | some x => some (x, st)
    | none =>
      (gen a st).bind fun (x, s1) =>
      if p = .exact then none else some (emit s1 t (.rnd p (.at x)))
  | .rint i p t a, st =>
    match st.memo.lookup i with
    | some x => some (x, st)
    | none =>
      (gen a st).bind fun (x, s1) =>
      (rintCode p a.prec x).bind fun g =>
      let (z, s2) := emit s1 t g
      some (z, ⟨(i, z) :: s2.memo, s2.lines⟩)

/-- The copy of the graph that is evaluated with roundings (`pre_optree.copy`, `gappa_code_generator.py` line 345): other
nodes with the same contents, here with the even identities. -/
def approxCopy : E → E
  | .var i t p => .var (2 * i) t p
  | .cst i v p => .cst (2 * i) v p
  | .bin i o p t a b => .bin (2 * i) o p t (approxCopy a) (approxCopy b)
  | .fma i s p t a b c => .fma (2 * i) s p t (approxCopy a) (approxCopy b) (approxCopy c)
  | .neg i p t a => .neg (2 * i) p t (approxCopy a)
  | .conv i p t a => .conv (2 * i) p t (approxCopy a)
  | .rint i p t a => .rint (2 * i) p t (approxCopy a)

/-- The name of the exact counterpart of a variable: an underscore is added (`gappa_code_generator.py` line 359). -/
def under (t : Name) : Name := t ++ ['_']

/-- The exact counterpart of the variable with identity `i` (lines 350-366): the variable itself if it has no error. -/
def exactTag (bs : List Bnd) (i : ℕ) (t : Name) : Name :=
  match bs.find? (fun b => decide (b.id = i)) with
  | some b => if b.err.isSome then under t else t
  | none => t

/-- The copy of the graph that is evaluated exactly (lines 370-371): `exactify`, `core/ml_optimization_engine.py` lines
286-310, with the table `exactify_rule`, lines 85-122, which has entries for the arithmetic operations and the fused
operations. Here with the odd identities. -/
def exactCopy (bs : List Bnd) : E → E
  | .var i t p => .var (2 * i + 1) (exactTag bs i t) p
  | .cst i v p => .cst (2 * i + 1) v p
  | .bin i o _ t a b => .bin (2 * i + 1) o .exact t (exactCopy bs a) (exactCopy bs b)
  | .fma i s _ t a b c => .fma (2 * i + 1) s .exact t (exactCopy bs a) (exactCopy bs b) (exactCopy bs c)
  | .neg i p t a => .neg (2 * i + 1) p t (exactCopy bs a)
  | .conv i p t a => .conv (2 * i + 1) p t (exactCopy bs a)
  | .rint i p t a => .rint (2 * i + 1) p t (exactCopy bs a)

/-- The names that stand for the variables in a script. -/
def varNames (bs : List Bnd) : List Name :=
  bs.map (·.tag) ++ (bs.filter (·.err.isSome)).map (fun b => under b.tag)

/-- A hypothesis of a script: an interval and, for the floating-point formats, `@FLT` with the number of bits
(`GappaCodeObject.gen_complete_goal`, `code_object.py` lines 575-592). -/
structure Hyp where
  x : At
  lo : ℚ
  hi : ℚ
  flt : Option ℕ
deriving DecidableEq, Repr

/-- A script: hypotheses, lines, and the operand whose interval is asked for. `den` is the divisor of the last line when
the relative error is asked for. -/
structure Script where
  hyps : List Hyp
  lines : List (Name × G)
  goal : At
  den : Option At
deriving DecidableEq

def fltOf (p : Prec) : Option ℕ := if p = .exact then none else some p.bits

/-- The hypotheses on the variables, `get_eval_error_v2`, `gappa_code_generator.py` lines 350-368. -/
def genHyps : List Bnd → St → List Hyp × St
  | [], st => ([], st)
  | b :: bs, st =>
    match b.err with
    | none =>
      let (hs, s') := genHyps bs st
      (⟨.v b.tag, b.lo, b.hi, fltOf b.p⟩ :: hs, s')
    | some e =>
      let (z, s1) := emit st none (.bin .sub (.v b.tag) (.v (under b.tag)))
      let (hs, s') := genHyps bs s1
      (⟨.v (under b.tag), b.lo, b.hi, fltOf b.p⟩ :: ⟨z, -e, e, none⟩ :: hs, s')

def start : St := ⟨[], []⟩

/-- `get_eval_error_v2`, `gappa_code_generator.py` lines 326-395. -/
def evalError (bs : List Bnd) (relative : Bool) (e : E) : Option Script :=
  let (hs, s0) := genHyps bs start
  (gen (exactCopy bs e) s0).bind fun (gre, s1) => (gen (approxCopy e) s1).bind fun (gra, s2) =>
  if relative then
    let (d, s3) := emit s2 (some ['g', 'o', 'a', 'l', '_', 'd', 'i', 'f', 'f']) (.bin .sub gra gre)
    let (g, s4) := emit s3 (some ['g', 'o', 'a', 'l']) (.bin .div d gre)
    some ⟨hs, s4.lines, g, some gre⟩
  else
    let (d, s3) := emit s2 (some ['g', 'o', 'a', 'l']) (.bin .sub gra gre)
    some ⟨hs, s3.lines, d, none⟩

/-- `get_eval_error`, `gappa_code_generator.py` lines 301-323: the graph is generated twice from the same copy, and the
second generation returns what the first one memoized. The precision of the goal is binary32. -/
def evalErrorOld (bs : List Bnd) (e : E) : Option Script :=
  (gen (approxCopy e) start).bind fun (x, s1) => (gen (approxCopy e) s1).bind fun (y, s2) =>
  let (g, s3) := emit s2 (some ['g', 'o', 'a', 'l']) (.rnd .b32 (.bin .sub x y))
  some ⟨bs.map (fun b => ⟨.v b.tag, b.lo, b.hi, fltOf b.p⟩), s3.lines, g, none⟩

/-- The precision of the root set to exact, as `get_interval_code` does with its goal (line 465). -/
def rootExact : E → E
  | .var i t _ => .var i t .exact
  | .cst i v _ => .cst i v .exact
  | .bin i o _ t a b => .bin i o .exact t a b
  | .fma i s _ t a b c => .fma i s .exact t a b c
  | .neg i _ t a => .neg i .exact t a
  | .conv i _ t a => .conv i .exact t a
  | .rint i _ t a => .rint i .exact t a

/-- `get_interval_code`, `gappa_code_generator.py` lines 442-478, for one goal. -/
def intervalCode (bs : List Bnd) (e : E) : Option Script :=
  (gen (rootExact (approxCopy e)) start).bind fun (g, s1) =>
  some ⟨bs.map (fun b => ⟨.v b.tag, b.lo, b.hi, fltOf b.p⟩), s1.lines, g, none⟩

/-- The interval of one variable in one case of `get_eval_error_v3`, `gappa_code_generator.py` lines 415-424: the interval
given by the case, or else the initial one. -/
def caseBnd (case : List (ℕ × ℚ × ℚ)) (b : Bnd) : Bnd :=
  match case.lookup b.id with
  | some (lo, hi) => { b with lo := lo, hi := hi }
  | none => b

def caseBounds (init : List Bnd) (case : List (ℕ × ℚ × ℚ)) : List Bnd := init.map (caseBnd case)

/-- `get_eval_error_v3`, `gappa_code_generator.py` lines 398-438: the scripts of the cases, and the intervals that the
variables have at the end (each case sets the intervals of the variables themselves). -/
def evalErrorCases (init : List Bnd) (relative : Bool) (e : E) :
    List (List (ℕ × ℚ × ℚ)) → List Bnd → Option (List Script × List Bnd)
  | [], now => some ([], now)
  | c :: cs, _ =>
    (evalError (caseBounds init c) relative e).bind fun s =>
    (evalErrorCases init relative e cs (caseBounds init c)).bind fun (ss, last) => some (s :: ss, last)

/-! ## What a script says -/

def At.eval (ρ : Name → ℚ) : At → ℚ
  | .v n => ρ n
  | .c q => q

def G.eval (R : Rnd) (ρ : Name → ℚ) : G → ℚ
  | .at x => x.eval ρ
  | .bin o x y => o.on (x.eval ρ) (y.eval ρ)
  | .fma s x y z => s.on (x.eval ρ) (y.eval ρ) (z.eval ρ)
  | .neg x => -x.eval ρ
  | .rnd p g => R.fp p (g.eval R ρ)
  | .int g => R.int (g.eval R ρ)

/-- The values of all names after the lines. -/
def run (R : Rnd) (ρ : Name → ℚ) : List (Name × G) → (Name → ℚ)
  | [] => ρ
  | (n, g) :: ls => run R (fun m => if m = n then g.eval R ρ else ρ m) ls

/-- Gappa's `@FLT(x, p)`: at most `p` significant bits. -/
def Flt (p : ℕ) (x : ℚ) : Prop := ∃ m e : ℤ, x = m * (2 : ℚ) ^ e ∧ |m| < 2 ^ p

def Hyp.Holds (ρ : Name → ℚ) (h : Hyp) : Prop :=
  h.lo ≤ h.x.eval ρ ∧ h.x.eval ρ ≤ h.hi ∧ ∀ p, h.flt = some p → Flt p (h.x.eval ρ)

/-- The interval `[lo, hi]` is a right answer to the script: for all values of the names that satisfy the hypotheses (and
for which the last division is defined), the goal is in the interval. -/
def Proves (R : Rnd) (s : Script) (lo hi : ℚ) : Prop :=
  ∀ ρ, (∀ h ∈ s.hyps, h.Holds (run R ρ s.lines)) → (∀ d, s.den = some d → d.eval (run R ρ s.lines) ≠ 0) →
    lo ≤ s.goal.eval (run R ρ s.lines) ∧ s.goal.eval (run R ρ s.lines) ≤ hi

end Verif.Gappa
