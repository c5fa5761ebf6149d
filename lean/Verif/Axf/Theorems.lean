import Verif.Axf.Model
import Std.Data.String.ToNat
import Mathlib.Data.List.Perm.Basic
import Mathlib.Data.List.Nodup

/-! # C107: an approximation which is stored and loaded is unchanged -/

namespace Verif.Axf

variable {V F I P X : Type}

theorem tripList_eq (l : List J) : tripList l = l.map trip := by
  induction l with
  | nil => rfl
  | cons a l ih => simp [tripList, ih]

theorem tripObj_eq (l : List (String × J)) : tripObj l = l.map fun p => (p.1, trip p.2) := by
  induction l with
  | nil => rfl
  | cons a l ih => obtain ⟨k, a⟩ := a; simp [tripObj, ih]

theorem tripMap_eq (l : List (ℕ × J)) : tripMap l = l.map fun p => (p.1, trip p.2) := by
  induction l with
  | nil => rfl
  | cons a l ih => obtain ⟨k, a⟩ := a; simp [tripMap, ih]

theorem trip_str (x : String) : trip (.str x) = .str x := by rw [trip]
theorem trip_int (x : ℤ) : trip (.int x) = .int x := by rw [trip]
theorem trip_bool (x : Bool) : trip (.bool x) = .bool x := by rw [trip]
theorem trip_list (l : List J) : trip (.list l) = .list (l.map trip) := by rw [trip, tripList_eq]

theorem lookup_iff {K A : Type} [BEq K] [LawfulBEq K] (l : List (K × A)) (h : (l.map Prod.fst).Nodup) (k : K) (v : A) :
    l.lookup k = some v ↔ (k, v) ∈ l := by
  induction l with
  | nil => simp
  | cons a l ih =>
    obtain ⟨k', v'⟩ := a
    rw [List.map_cons, List.nodup_cons] at h
    rw [List.lookup_cons]
    by_cases hk : k = k'
    · subst hk
      simp only [beq_self_eq_true, List.mem_cons, Prod.mk.injEq, true_and]
      constructor
      · intro h'; left; exact (Option.some.inj h').symm
      · rintro (h' | h')
        · rw [h']
        · exact absurd (List.mem_map.2 ⟨_, h', rfl⟩) h.1
    · have : (k == k') = false := by simpa using hk
      simp only [this, List.mem_cons, Prod.mk.injEq]
      rw [ih h.2]
      simp [hk]

theorem lookup_perm {K A : Type} [BEq K] [LawfulBEq K] {l m : List (K × A)} (hp : l.Perm m) (h : (l.map Prod.fst).Nodup) (k : K) :
    l.lookup k = m.lookup k := by
  have hm : (m.map Prod.fst).Nodup := (hp.map Prod.fst).nodup_iff.1 h
  apply Option.ext
  intro v
  rw [lookup_iff l h, lookup_iff m hm, hp.mem_iff]

theorem lookup_map {K A B : Type} [BEq K] [LawfulBEq K] (l : List (K × A)) (f : A → B) (k : K) :
    (l.map fun p => (p.1, f p.2)).lookup k = (l.lookup k).map f := by
  induction l with
  | nil => rfl
  | cons a l ih =>
    obtain ⟨k', v'⟩ := a
    rw [List.map_cons, List.lookup_cons, List.lookup_cons, ih]
    cases k == k' <;> rfl

theorem get_trip (l : List (String × J)) (h : (l.map Prod.fst).Nodup) (k : String) : (trip (.obj l)).get k = (l.lookup k).map trip := by
  rw [trip, J.get]
  have hp := List.mergeSort_perm (tripObj l) fun a b => decide (a.1 ≤ b.1)
  have hn : ((tripObj l).map Prod.fst).Nodup := by
    rw [tripObj_eq, List.map_map]
    exact h
  rw [sortStr, ← lookup_perm hp.symm hn, tripObj_eq, lookup_map]

theorem mapM_ok {A B : Type} (l : List A) (f : A → Option B) (g : A → B) (h : ∀ a ∈ l, f a = some (g a)) : l.mapM f = some (l.map g) := by
  induction l with
  | nil => rfl
  | cons a l ih =>
    rw [List.mapM_cons, h a (by simp), ih fun b hb => h b (by simp [hb])]
    rfl

theorem sortNat_map {A B : Type} (l : List (ℕ × A)) (f : A → B) :
    sortNat (l.map fun p => (p.1, f p.2)) = (sortNat l).map fun p => (p.1, f p.2) := by
  unfold sortNat
  rw [List.map_mergeSort]
  intro a _ b _
  rfl

theorem err_trip (e : AErr) : AErr.ofDict (trip e.toDict) = some e := by
  unfold AErr.ofDict AErr.toDict
  rw [get_trip _ (by simp), get_trip _ (by simp)]
  simp [List.lookup, trip_str, J.asStr]

theorem poly_trip (c : List (ℕ × String)) : polyOfDict (trip (polyToDict c)) = some (sortNat c) := by
  unfold polyToDict
  rw [trip, tripMap_eq, List.map_map]
  have e : (fun p : ℕ × J => (p.1, trip p.2)) ∘ (fun p : ℕ × String => (p.1, J.str p.2)) = fun p => (p.1, J.str p.2) := by
    funext p; simp [trip]
  rw [e, sortNat_map, List.map_map]
  unfold polyOfDict
  simp only []
  rw [List.mapM_map, mapM_ok _ _ id]
  · simp
  · intro a _
    simp [J.asStr, Nat.toNat?_repr]

/-- the approximation with its coefficients in order -/
def ASimple.sorted (s : ASimple) : ASimple := { s with coeffs := sortNat s.coeffs }

theorem simple_trip (s : ASimple) : ASimple.ofDict (trip s.toDict) = some s.sorted := by
  unfold ASimple.ofDict ASimple.toDict
  have hd : (s.degrees.map J.int).map trip = s.degrees.map J.int := by simp [trip_str, trip_int]
  have hf : (s.formats.map J.str).map trip = s.formats.map J.str := by simp [trip_str, trip_int]
  have hd2 : (s.degrees.map J.int).mapM J.asInt = some s.degrees := by
    rw [List.mapM_map, mapM_ok _ _ id (by intro a _; rfl)]; simp
  have hf2 : (s.formats.map J.str).mapM J.asStr = some s.formats := by
    rw [List.mapM_map, mapM_ok _ _ id (by intro a _; rfl)]; simp
  by_cases ht : s.tag = ""
  · rw [if_neg (by simpa using ht), List.append_nil]
    simp only [get_trip _ (show (List.map Prod.fst [("class", J.str "!SimplePolyApprox"), ("function", .str s.function),
      ("approx_params", .obj [("degree_list", .list (s.degrees.map .int)), ("format_list", .list (s.formats.map .str))]),
      ("interval", .str s.interval), ("approx_data", polyToDict s.coeffs), ("approx_error", s.error.toDict)]).Nodup by simp)]
    simp [List.lookup, poly_trip, err_trip, get_trip, trip_str, trip_int, trip_bool, trip_list, J.asStr, J.asList, hd, hf, hd2, hf2, ASimple.sorted, ht]
  · rw [if_pos ht]
    simp only [List.cons_append, List.nil_append]
    simp only [get_trip _ (show (List.map Prod.fst [("class", J.str "!SimplePolyApprox"), ("function", .str s.function),
      ("approx_params", .obj [("degree_list", .list (s.degrees.map .int)), ("format_list", .list (s.formats.map .str))]),
      ("interval", .str s.interval), ("approx_data", polyToDict s.coeffs), ("approx_error", s.error.toDict), ("tag", .str s.tag)]).Nodup by simp)]
    simp [List.lookup, poly_trip, err_trip, get_trip, trip_str, trip_int, trip_bool, trip_list, J.asStr, J.asList, hd, hf, hd2, hf2, ASimple.sorted]

theorem pieces_trip (l : List ASimple) : ((l.map ASimple.toDict).map trip).mapM ASimple.ofDict = some (l.map ASimple.sorted) := by
  rw [List.map_map, List.mapM_map]
  exact mapM_ok _ _ _ fun a _ => simple_trip a

theorem split_trip (s : ASplit) : ASplit.ofDict (trip s.toDict) = some { s with pieces := s.pieces.map ASimple.sorted } := by
  unfold ASplit.ofDict ASplit.toDict
  have hp := pieces_trip s.pieces
  simp only [get_trip _ (show (List.map Prod.fst [("class", J.str "!GenericPolynomialSplit"), ("precision", .str s.precision),
    ("approx_params", .obj [("offset_fct", .str s.offsetFct), ("indexing", .str s.indexing), ("max_degree", .int s.maxDegree),
      ("odd", .bool s.odd), ("even", .bool s.even)]),
    ("interval", .str s.interval), ("function", .str s.offsetFct), ("approx_error", s.error.toDict),
    ("approx_data", .list (s.pieces.map ASimple.toDict)), ("tag", .str s.tag)]).Nodup by simp)]
  simp only [List.map_map] at hp
  simp [List.lookup, err_trip, get_trip, trip_str, trip_int, trip_bool, trip_list, J.asStr, J.asList, J.asInt, J.asBool, hp]

theorem uniform_trip (s : AUniform) : AUniform.ofDict (trip s.toDict) = some { s with pieces := s.pieces.map ASimple.sorted } := by
  unfold AUniform.ofDict AUniform.toDict
  have hp := pieces_trip s.pieces
  simp only [get_trip _ (show (List.map Prod.fst [("class", J.str "!PieceWiseApprox"), ("function", .str s.function), ("precision", .str s.precision),
    ("interval", .str s.interval),
    ("approx_params", .obj [("indexing", .str s.indexing), ("num_intervals", .int s.num), ("max_degree", .int s.maxDegree),
      ("odd", .bool s.odd), ("even", .bool s.even)]),
    ("approx_error", s.error.toDict), ("tag", .str s.tag), ("approx_data", .list (s.pieces.map ASimple.toDict))]).Nodup by simp)]
  simp only [List.map_map] at hp
  simp [List.lookup, err_trip, get_trip, trip_str, trip_int, trip_bool, trip_list, J.asStr, J.asList, J.asInt, J.asBool, hp]

/-- What the theorem needs of the environment: the printers are faithful. -/
structure Env.Good (E : Env V F I P X) : Prop where
  num : E.num.Faithful
  fct : E.fct.Faithful
  ivl : E.ivl.Faithful
  prec : E.prec.Faithful
  idx : E.idx.Faithful

/-- every error object of the approximation has been built by the constructor of the errors, and the coefficients are a dictionary -/
def Simple.Wf (E : Env V F I P X) (s : Simple V F I P) : Prop := E.supAbs s.error.value = s.error.value ∧ (s.coeffs.map Prod.fst).Nodup

def Approx.Wf (E : Env V F I P X) : Approx V F I P X → Prop
  | .simple s => s.Wf E
  | .split s => E.supAbs s.error.value = s.error.value ∧ ∀ p ∈ s.pieces, p.Wf E
  | .uniform s => E.supAbs s.error.value = s.error.value ∧ ∀ p ∈ s.pieces, p.Wf E

theorem err_import {E : Env V F I P X} (hE : E.Good) (e : ErrVal V) (h : E.supAbs e.value = e.value) : importErr E (exportErr E e) = some e := by
  obtain ⟨k, v⟩ := e
  simp only at h
  cases k <;> simp [importErr, exportErr, ErrKind.str, hE.num v, h]

def Simple.sorted (s : Simple V F I P) : Simple V F I P := { s with coeffs := sortNat s.coeffs }

theorem simple_import {E : Env V F I P X} (hE : E.Good) (s : Simple V F I P) (h : s.Wf E) (t : String) :
    importSimple E (exportSimple E s t).sorted = some s.sorted := by
  unfold importSimple exportSimple ASimple.sorted
  simp only [sortNat_map, List.mapM_map]
  rw [mapM_ok (sortNat s.coeffs) _ id (by intro a _; simp [hE.num a.2]), hE.fct, mapM_ok s.formats _ id (by intro a _; simp [hE.prec a]), hE.ivl,
    err_import hE _ h.1]
  simp [Simple.sorted]

theorem sorted_same (s : Simple V F I P) (h : (s.coeffs.map Prod.fst).Nodup) : s.Same s.sorted := by
  refine ⟨fun k => ?_, rfl, rfl, rfl, rfl, rfl⟩
  exact lookup_perm (List.mergeSort_perm s.coeffs _).symm h k

theorem pieces_import {E : Env V F I P X} (hE : E.Good) (l : List (Simple V F I P)) (h : ∀ p ∈ l, p.Wf E) :
    ((l.map fun p => exportSimple E p "").map ASimple.sorted).mapM (importSimple E) = some (l.map Simple.sorted) := by
  rw [List.map_map, List.mapM_map]
  exact mapM_ok _ _ _ fun a ha => simple_import hE a (h a ha) ""

theorem pieces_same {E : Env V F I P X} (l : List (Simple V F I P)) (h : ∀ p ∈ l, p.Wf E) : SamePieces l (l.map Simple.sorted) := by
  induction l with
  | nil => trivial
  | cons a l ih => exact ⟨sorted_same a (h a (by simp)).2, ih fun p hp => h p (by simp [hp])⟩

theorem class_simple (s : ASimple) : (trip s.toDict).get "class" = some (.str "!SimplePolyApprox") := by
  unfold ASimple.toDict
  by_cases ht : s.tag = "" <;> simp [ht, get_trip, List.lookup, trip_str]

theorem class_split (s : ASplit) : (trip s.toDict).get "class" = some (.str "!GenericPolynomialSplit") := by
  unfold ASplit.toDict
  simp [get_trip, List.lookup, trip_str]

theorem class_uniform (s : AUniform) : (trip s.toDict).get "class" = some (.str "!PieceWiseApprox") := by
  unfold AUniform.toDict
  simp [get_trip, List.lookup, trip_str]

/-- **C107**: an approximation written to a JSON file and loaded again is the same approximation. -/
theorem C107_round_trip {E : Env V F I P X} (hE : E.Good) (a : Approx V F I P X) (h : a.Wf E) :
    ∃ b, importOne E (trip (toDict E a)) = some b ∧ a.Same b := by
  cases a with
  | simple s =>
    refine ⟨.simple s.sorted, ?_, sorted_same s h.2⟩
    simp [importOne, toDict, class_simple, J.asStr, simple_trip, simple_import hE s h]
  | split s =>
    refine ⟨.split { s with pieces := s.pieces.map Simple.sorted }, ?_, rfl, rfl, rfl, rfl, rfl, rfl, pieces_same s.pieces h.2, rfl, rfl⟩
    have hp := pieces_import hE s.pieces h.2
    simp only [List.map_map] at hp
    simp [importOne, toDict, class_split, J.asStr, split_trip, importSplit, exportSplit, hE.idx s.indexing, hE.prec s.precision,
      err_import hE s.error h.1, hp]
  | uniform s =>
    refine ⟨.uniform { s with pieces := s.pieces.map Simple.sorted }, ?_, rfl, rfl, rfl, rfl, rfl, rfl, rfl, rfl, rfl, pieces_same s.pieces h.2, rfl⟩
    have hp := pieces_import hE s.pieces h.2
    simp only [List.map_map] at hp
    simp [importOne, toDict, class_uniform, J.asStr, uniform_trip, importUniform, exportUniform, hE.idx s.indexing, hE.prec s.precision,
      hE.ivl s.interval, err_import hE s.error h.1, hp]

/-- **C107 (lists)**: so is a list of approximations, in its order. -/
theorem C107_round_trip_list {E : Env V F I P X} (hE : E.Good) (l : List (Approx V F I P X)) (h : ∀ a ∈ l, a.Wf E) :
    ∃ m, importAll E (trip (.list (l.map (toDict E)))) = some (.inr m) ∧ l.length = m.length ∧
      ∀ i (hi : i < l.length) (hm : i < m.length), (l[i]).Same (m[i]) := by
  have : ∀ a : {a // a ∈ l}, ∃ b, importOne E (trip (toDict E a.1)) = some b ∧ a.1.Same b := fun a => C107_round_trip hE a.1 (h a.1 a.2)
  choose g hg hs using this
  refine ⟨l.attach.map g, ?_, by simp, ?_⟩
  · rw [trip, tripList_eq, List.map_map]
    simp only [importAll]
    rw [List.mapM_map]
    have : l.mapM (importOne E ∘ (trip ∘ toDict E)) = some (l.attach.map g) := by
      conv_lhs => rw [← List.attach_map_subtype_val l]
      rw [List.mapM_map]
      exact mapM_ok _ _ _ fun a _ => hg a
    rw [this]
    rfl
  · intro i hi hm
    rw [List.getElem_map, List.getElem_attach]
    exact hs ⟨l[i], _⟩

/-- **C107 (single)**: an approximation alone is loaded as one approximation, not as a list. -/
theorem C107_single {E : Env V F I P X} (hE : E.Good) (a : Approx V F I P X) (h : a.Wf E) :
    ∃ b, importAll E (trip (toDict E a)) = some (.inl b) ∧ a.Same b := by
  obtain ⟨b, hb, hs⟩ := C107_round_trip hE a h
  refine ⟨b, ?_, hs⟩
  have : ∃ l, trip (toDict E a) = .obj l := by
    cases a with
    | simple s => exact ⟨_, by simp only [toDict, ASimple.toDict]; rw [trip]⟩
    | split s => exact ⟨_, by simp only [toDict, ASplit.toDict]; rw [trip]⟩
    | uniform s => exact ⟨_, by simp only [toDict, AUniform.toDict]; rw [trip]⟩
  obtain ⟨l, hl⟩ := this
  rw [hl] at hb ⊢
  simp only [importAll, hb, Option.map_some]

/-- **C107 (tag) is false for a single polynomial**: the approximation which is loaded does not depend on the tag. -/
theorem C107_tag_wrong (E : Env V F I P X) (s : Simple V F I P) (t t' : String) :
    importOne E (trip (exportSimple E s t).toDict) = importOne E (trip (exportSimple E s t').toDict) := by
  simp only [importOne, class_simple, J.asStr, simple_trip]
  simp [ASimple.sorted, exportSimple, importSimple]

/-- **C107 (from an approximation object) is false**: the three conversions of an existing approximation to its stored form always fail. -/
theorem C107_from_objects_wrong (n : ℕ) :
    fromSPA = .error (.attribute "fct") ∧ fromUPWA n = .error (.attribute "error_bound") ∧ fromGPS = .error (.name "upwa") :=
  ⟨rfl, rfl, rfl⟩

/-- numbers as naturals written in decimal, the other values as strings -/
def demo : Env ℕ String String String String where
  num := ⟨Nat.repr, String.toNat?⟩
  fct := ⟨id, some⟩
  ivl := ⟨id, some⟩
  prec := ⟨id, some⟩
  idx := ⟨id, some⟩
  supAbs := id
  idxIvl := id

example : demo.Good := ⟨Nat.toNat?_repr, fun _ => rfl, fun _ => rfl, fun _ => rfl, fun _ => rfl⟩

example : (Approx.split (⟨"exp(x)", "float", "ix", 2, ⟨.relative, 3⟩, "t",
    [⟨[(2, 7), (0, 1)], "exp(1+x)", [0, 2], ["float", "float"], "[0;1]", ⟨.relative, 2⟩⟩], false, true⟩ :
    Split ℕ String String String String)).Wf demo := by
  refine ⟨rfl, ?_⟩
  intro p hp
  rw [List.mem_singleton] at hp
  subst hp
  exact ⟨rfl, by decide⟩

end Verif.Axf
