import Verif.Axf.Spec

/-! # Model of the storage of approximations

metalibm_core/utility/axf_utils.py: the AXF objects, their dictionaries, the JSON exporter and importer.  An exception is `none`.  The JSON text
itself is not modelled: `trip` is the effect of `json.dumps(…, sort_keys=True)` followed by `json.loads` on dictionaries (integer keys become
strings, the items are sorted).  Sollya's printing and parsing are parameters. -/

namespace Verif.Axf

/-- Python dictionaries and lists of basic values; `imap` is a dictionary with integer keys -/
inductive J where
  | str (s : String)
  | int (i : ℤ)
  | bool (b : Bool)
  | list (l : List J)
  | obj (l : List (String × J))
  | imap (l : List (ℕ × J))

def sortStr (l : List (String × J)) : List (String × J) := l.mergeSort fun a b => decide (a.1 ≤ b.1)
def sortNat {α : Type} (l : List (ℕ × α)) : List (ℕ × α) := l.mergeSort fun a b => decide (a.1 ≤ b.1)

/- axf_utils.py:527-529, 544: `json.loads(json.dumps(d, sort_keys=True))` -/
mutual
def trip : J → J
  | .str s => .str s
  | .int i => .int i
  | .bool b => .bool b
  | .list l => .list (tripList l)
  | .obj l => .obj (sortStr (tripObj l))
  | .imap l => .obj ((sortNat (tripMap l)).map fun p => (Nat.repr p.1, p.2))
def tripList : List J → List J
  | [] => []
  | a :: l => trip a :: tripList l
def tripObj : List (String × J) → List (String × J)
  | [] => []
  | (k, a) :: l => (k, trip a) :: tripObj l
def tripMap : List (ℕ × J) → List (ℕ × J)
  | [] => []
  | (k, a) :: l => (k, trip a) :: tripMap l
end

/-- `d[k]` -/
def J.get (d : J) (k : String) : Option J := match d with | .obj l => l.lookup k | _ => none
def J.asStr : J → Option String | .str s => some s | _ => none
def J.asInt : J → Option ℤ | .int i => some i | _ => none
def J.asBool : J → Option Bool | .bool b => some b | _ => none
def J.asList : J → Option (List J) | .list l => some l | _ => none

/-- axf_utils.py:130-134 `AXF_ApproxError` -/
structure AErr where
  kind : String
  value : String

/-- axf_utils.py:195-210 `AXF_SimplePolyApprox`, with the `coeff_map` of its `AXF_Polynomial` (272-273) -/
structure ASimple where
  coeffs : List (ℕ × String)
  function : String
  degrees : List ℤ
  formats : List String
  interval : String
  error : AErr
  tag : String

/-- axf_utils.py:392-406 `AXF_GenericPolynomialSplit` -/
structure ASplit where
  offsetFct : String
  precision : String
  interval : String
  indexing : String
  maxDegree : ℤ
  error : AErr
  tag : String
  pieces : List ASimple
  odd : Bool
  even : Bool

/-- axf_utils.py:293-313 `AXF_UniformPiecewiseApprox` -/
structure AUniform where
  function : String
  precision : String
  interval : String
  num : ℤ
  maxDegree : ℤ
  error : AErr
  odd : Bool
  even : Bool
  tag : String
  pieces : List ASimple
  indexing : String

/-- axf_utils.py:136-137 -/
def AErr.toDict (e : AErr) : J := .obj [("type", .str e.kind), ("value", .str e.value)]

/-- axf_utils.py:140-142 -/
def AErr.ofDict (d : J) : Option AErr := do
  let k ← (← d.get "type").asStr
  let v ← (← d.get "value").asStr
  return ⟨k, v⟩

/-- axf_utils.py:287-288 `AXF_Polynomial.serialize_to_dict` -/
def polyToDict (c : List (ℕ × String)) : J := .imap (c.map fun p => (p.1, .str p.2))

/-- axf_utils.py:281-283 `AXF_Polynomial.deserialize_from_dict` -/
def polyOfDict : J → Option (List (ℕ × String))
  | .obj l => l.mapM fun p => do return ((← p.1.toNat?), (← p.2.asStr))
  | .imap l => l.mapM fun p => do return (p.1, (← p.2.asStr))
  | _ => none

/-- axf_utils.py:215-229 -/
def ASimple.toDict (s : ASimple) : J :=
  .obj ([("class", .str "!SimplePolyApprox"),
    ("function", .str s.function),
    ("approx_params", .obj [("degree_list", .list (s.degrees.map .int)), ("format_list", .list (s.formats.map .str))]),
    ("interval", .str s.interval),
    ("approx_data", polyToDict s.coeffs),
    ("approx_error", s.error.toDict)] ++ (if s.tag ≠ "" then [("tag", .str s.tag)] else []))

/-- axf_utils.py:242-252 -/
def ASimple.ofDict (d : J) : Option ASimple := do
  let coeffs ← polyOfDict (← d.get "approx_data")
  let function ← (← d.get "function").asStr
  let degrees ← (← (← (← d.get "approx_params").get "degree_list").asList).mapM J.asInt
  let formats ← (← (← (← d.get "approx_params").get "format_list").asList).mapM J.asStr
  let interval ← (← d.get "interval").asStr
  let error ← AErr.ofDict (← d.get "approx_error")
  let tag ← (match d.get "tag" with | some t => t.asStr | none => some "")
  return ⟨coeffs, function, degrees, formats, interval, error, tag⟩

/-- axf_utils.py:412-430 -/
def ASplit.toDict (s : ASplit) : J :=
  .obj [("class", .str "!GenericPolynomialSplit"),
    ("precision", .str s.precision),
    ("approx_params", .obj [("offset_fct", .str s.offsetFct), ("indexing", .str s.indexing), ("max_degree", .int s.maxDegree),
      ("odd", .bool s.odd), ("even", .bool s.even)]),
    ("interval", .str s.interval),
    ("function", .str s.offsetFct),
    ("approx_error", s.error.toDict),
    ("approx_data", .list (s.pieces.map ASimple.toDict)),
    ("tag", .str s.tag)]

/-- axf_utils.py:449-462 -/
def ASplit.ofDict (d : J) : Option ASplit := do
  let offsetFct ← (← (← d.get "approx_params").get "offset_fct").asStr
  let precision ← (← d.get "precision").asStr
  let interval ← (← d.get "interval").asStr
  let indexing ← (← (← d.get "approx_params").get "indexing").asStr
  let maxDegree ← (← (← d.get "approx_params").get "max_degree").asInt
  let error ← AErr.ofDict (← d.get "approx_error")
  let tag ← (← d.get "tag").asStr
  let pieces ← (← (← d.get "approx_data").asList).mapM ASimple.ofDict
  let odd ← (← (← d.get "approx_params").get "odd").asBool
  let even ← (← (← d.get "approx_params").get "even").asBool
  return ⟨offsetFct, precision, interval, indexing, maxDegree, error, tag, pieces, odd, even⟩

/-- axf_utils.py:319-336 -/
def AUniform.toDict (s : AUniform) : J :=
  .obj [("class", .str "!PieceWiseApprox"),
    ("function", .str s.function),
    ("precision", .str s.precision),
    ("interval", .str s.interval),
    ("approx_params", .obj [("indexing", .str s.indexing), ("num_intervals", .int s.num), ("max_degree", .int s.maxDegree),
      ("odd", .bool s.odd), ("even", .bool s.even)]),
    ("approx_error", s.error.toDict),
    ("tag", .str s.tag),
    ("approx_data", .list (s.pieces.map ASimple.toDict))]

/-- axf_utils.py:356-369 -/
def AUniform.ofDict (d : J) : Option AUniform := do
  let function ← (← d.get "function").asStr
  let precision ← (← d.get "precision").asStr
  let interval ← (← d.get "interval").asStr
  let num ← (← (← d.get "approx_params").get "num_intervals").asInt
  let maxDegree ← (← (← d.get "approx_params").get "max_degree").asInt
  let error ← AErr.ofDict (← d.get "approx_error")
  let odd ← (← (← d.get "approx_params").get "odd").asBool
  let even ← (← (← d.get "approx_params").get "even").asBool
  let tag ← (← d.get "tag").asStr
  let pieces ← (← (← d.get "approx_data").asList).mapM ASimple.ofDict
  let indexing ← (← (← d.get "approx_params").get "indexing").asStr
  return ⟨function, precision, interval, num, maxDegree, error, odd, even, tag, pieces, indexing⟩

/-- Sollya's and metalibm's `str` and parsers for the values, and `sup(abs(v))` of axf_utils.py:72-73 -/
structure Env (V F I P X : Type) where
  num : Codec V
  fct : Codec F
  ivl : Codec I
  prec : Codec P
  idx : Codec X
  supAbs : V → V
  /-- `indexing.interval` -/
  idxIvl : X → I

variable {V F I P X : Type}

/-- axf_utils.py:75-76, 102-103 `error_type` -/
def ErrKind.str : ErrKind → String | .absolute => "absolute" | .relative => "relative"

/-- axf_utils.py:151-154 `AXF_ApproxError.from_AE` -/
def exportErr (E : Env V F I P X) (e : ErrVal V) : AErr := ⟨e.kind.str, E.num.str e.value⟩

/-- axf_utils.py:144-150 `export_to_ml_error`, 72-73 -/
def importErr (E : Env V F I P X) (e : AErr) : Option (ErrVal V) :=
  if e.kind = "absolute" then (E.num.parse e.value).map fun v => ⟨.absolute, E.supAbs v⟩
  else if e.kind = "relative" then (E.num.parse e.value).map fun v => ⟨.relative, E.supAbs v⟩
  else none

/-- axf_utils.py:198-210, 284-286: `AXF_SimplePolyApprox(AXF_Polynomial.from_poly(poly), fct, degree_list, format_list, interval, approx_error, tag)` as
called in approximation.py:161-166, 225-231 -/
def exportSimple (E : Env V F I P X) (s : Simple V F I P) (tag : String) : ASimple :=
  ⟨s.coeffs.map fun p => (p.1, E.num.str p.2), E.fct.str s.function, s.degrees, s.formats.map E.prec.str, E.ivl.str s.interval, exportErr E s.error, tag⟩

/-- axf_utils.py:254-263 `export_to_SPA` with 277-278 `export_to_poly` -/
def importSimple (E : Env V F I P X) (s : ASimple) : Option (Simple V F I P) := do
  let coeffs ← s.coeffs.mapM fun p => do return (p.1, (← E.num.parse p.2))
  let function ← E.fct.parse s.function
  let formats ← s.formats.mapM E.prec.parse
  let interval ← E.ivl.parse s.interval
  let error ← importErr E s.error
  return ⟨coeffs, function, s.degrees, formats, interval, error⟩

/-- axf_utils.py:395-406: the constructor called with the values of a split, as in approximation.py:134-139 -/
def exportSplit (E : Env V F I P X) (s : Split V F I P X) : ASplit :=
  ⟨s.offsetFct, E.prec.str s.precision, E.ivl.str (E.idxIvl s.indexing), E.idx.str s.indexing, s.maxDegree, exportErr E s.error, s.tag,
    s.pieces.map fun p => exportSimple E p "", s.odd, s.even⟩

/-- axf_utils.py:464-477 `export_to_GPS` -/
def importSplit (E : Env V F I P X) (s : ASplit) : Option (Split V F I P X) := do
  let indexing ← E.idx.parse s.indexing
  let error ← importErr E s.error
  let precision ← E.prec.parse s.precision
  let pieces ← s.pieces.mapM (importSimple E)
  return ⟨s.offsetFct, precision, indexing, s.maxDegree, error, s.tag, pieces, s.odd, s.even⟩

/-- axf_utils.py:296-313 -/
def exportUniform (E : Env V F I P X) (s : Uniform V F I P X) : AUniform :=
  ⟨s.function, E.prec.str s.precision, E.ivl.str s.interval, s.num, s.maxDegree, exportErr E s.error, s.odd, s.even, s.tag,
    s.pieces.map fun p => exportSimple E p "", E.idx.str s.indexing⟩

/-- axf_utils.py:371-386 `export_to_UPWA` -/
def importUniform (E : Env V F I P X) (s : AUniform) : Option (Uniform V F I P X) := do
  let precision ← E.prec.parse s.precision
  let interval ← E.ivl.parse s.interval
  let error ← importErr E s.error
  let pieces ← s.pieces.mapM (importSimple E)
  let indexing ← E.idx.parse s.indexing
  return ⟨s.function, precision, interval, s.num, s.maxDegree, error, s.odd, s.even, s.tag, pieces, indexing⟩

/-- what is given to `AXF_JSON_Exporter` for an approximation -/
def toDict (E : Env V F I P X) : Approx V F I P X → J
  | .simple s => (exportSimple E s "").toDict
  | .split s => (exportSplit E s).toDict
  | .uniform s => (exportUniform E s).toDict

/-- axf_utils.py:552-557 `serialized_dict_to_ml_object` -/
def importOne (E : Env V F I P X) (d : J) : Option (Approx V F I P X) := do
  let c ← (← d.get "class").asStr
  if c = "!PieceWiseApprox" then return .uniform (← importUniform E (← AUniform.ofDict d))
  else if c = "!GenericPolynomialSplit" then return .split (← importSplit E (← ASplit.ofDict d))
  else if c = "!SimplePolyApprox" then return .simple (← importSimple E (← ASimple.ofDict d))
  else none

/-- axf_utils.py:540-550 `AXF_JSON_Importer.from_str`: one approximation or a list of them -/
def importAll (E : Env V F I P X) (d : J) : Option (Approx V F I P X ⊕ List (Approx V F I P X)) :=
  match d with
  | .list l => (l.mapM (importOne E)).map .inr
  | d => (importOne E d).map .inl

/-! ## From metalibm's objects -/

inductive PyErr | attribute (name : String) | name (name : String)
deriving DecidableEq

/-- `obj.attr` for an object which has these attributes -/
def getAttr (attrs : List String) (a : String) : Except PyErr Unit := if a ∈ attrs then .ok () else .error (.attribute a)

/-- axf_utils.py:61-68: the attributes of `SimplePolyApprox` -/
def simpleAttrs : List String := ["function", "degree_list", "format_list", "interval", "poly", "approx_error"]
/-- axf_utils.py:158-164, 184-193: the attributes of `UniformPieceWiseApprox` -/
def uniformAttrs : List String :=
  ["function", "precision", "interval", "approx_error", "tag", "num_intervals", "max_degree", "odd", "even", "approx_list", "indexing"]
/-- axf_utils.py:158-164, 171-179: the attributes of `GenericPolynomialSplit` -/
def splitAttrs : List String :=
  ["function", "precision", "interval", "approx_error", "tag", "offset_fct", "indexing", "approx_list", "max_degree", "odd", "even"]

/-- axf_utils.py:230-240 `from_SPA`: the attributes read, in order -/
def fromSPA : Except PyErr Unit := do
  getAttr simpleAttrs "poly"
  getAttr simpleAttrs "fct"
  getAttr simpleAttrs "degree_list"
  getAttr simpleAttrs "format_list"
  getAttr simpleAttrs "interval"
  getAttr simpleAttrs "absolute"
  getAttr simpleAttrs "approx_error"

/-- axf_utils.py:338-354 `from_UPWA` for an approximation of `n` pieces -/
def fromUPWA (n : ℕ) : Except PyErr Unit := do
  getAttr uniformAttrs "function"
  getAttr uniformAttrs "precision"
  getAttr uniformAttrs "interval"
  getAttr uniformAttrs "num_intervals"
  getAttr uniformAttrs "max_degree"
  getAttr uniformAttrs "error_bound"
  getAttr uniformAttrs "odd"
  getAttr uniformAttrs "even"
  getAttr uniformAttrs "tag"
  (List.replicate n ()).forM fun _ => fromSPA
  getAttr uniformAttrs "indexing"

/-- axf_utils.py:432-447 `from_GenericPolynomialSplit`: line 444 reads the undefined name `upwa` -/
def fromGPS : Except PyErr Unit := do
  getAttr splitAttrs "offset_fct"
  getAttr splitAttrs "precision"
  getAttr splitAttrs "interval"
  getAttr splitAttrs "indexing"
  getAttr splitAttrs "max_degree"
  getAttr splitAttrs "approx_error"
  getAttr splitAttrs "tag"
  .error (.name "upwa")

end Verif.Axf
