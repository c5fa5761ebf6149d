import Mathlib.Data.List.Nodup
import Mathlib.Data.List.Dedup
import Mathlib.Data.Finset.Card
import Mathlib.Tactic
import Verif.Backend.Model

/-! # C97, C98: the lookup of an implementation, and the hierarchy of the targets -/

namespace Verif.Backend

section dict
variable {K V : Type} [DecidableEq K]

theorem lookup_mem {d : Dict K V} {k : K} {v : V} (h : d.lookup k = some v) : (k, v) ∈ d := by
  induction d with
  | nil => simp at h
  | cons p r ih =>
    obtain ⟨k', v'⟩ := p
    rw [List.lookup_cons] at h
    by_cases hk : k = k'
    · subst hk; simp at h; subst h; simp
    · have : (k == k') = false := by simpa using hk
      rw [this] at h
      exact List.mem_cons_of_mem _ (ih h)

theorem mem_lookup {d : Dict K V} (hd : Keys d) {k : K} {v : V} (h : (k, v) ∈ d) : d.lookup k = some v := by
  induction d with
  | nil => simp at h
  | cons p r ih =>
    obtain ⟨k', v'⟩ := p
    unfold Keys at hd
    simp only [List.map_cons, List.nodup_cons] at hd
    rw [List.lookup_cons]
    rcases List.mem_cons.1 h with h1 | h1
    · obtain ⟨rfl, rfl⟩ := Prod.mk.inj h1; simp
    · have hk : k ≠ k' := by
        rintro rfl
        exact hd.1 (List.mem_map.2 ⟨(k, v), h1, rfl⟩)
      have : (k == k') = false := by simpa using hk
      rw [this]
      exact ih hd.2 h1

theorem lookup_upd (d : Dict K V) (k k' : K) (f : Option V → V) : (upd k f d).lookup k' = if k' = k then some (f (d.lookup k)) else d.lookup k' := by
  induction d with
  | nil =>
    simp only [upd, List.lookup_cons, List.lookup_nil]
    by_cases h : k' = k
    · subst h; simp
    · have : (k' == k) = false := by simpa using h
      rw [this]; simp [h]
  | cons p r ih =>
    obtain ⟨k0, v⟩ := p
    simp only [upd]
    by_cases h0 : k0 = k
    · subst h0
      simp only [if_true, List.lookup_cons]
      by_cases h : k' = k0
      · subst h; simp
      · have : (k' == k0) = false := by simpa using h
        rw [this]; simp [h]
    · simp only [if_neg h0, List.lookup_cons]
      have hk0 : (k == k0) = false := by simpa using fun e : k = k0 => h0 e.symm
      rw [hk0]
      by_cases h : k' = k0
      · subst h; simp [h0]
      · have : (k' == k0) = false := by simpa using h
        rw [this]; exact ih

theorem mem_upd {d : Dict K V} {k : K} {f : Option V → V} {p : K × V} (h : p ∈ upd k f d) : p ∈ d ∨ ∃ o, (o = none ∨ ∃ v, (k, v) ∈ d ∧ o = some v) ∧ p = (k, f o) := by
  induction d with
  | nil => simp only [upd, List.mem_singleton] at h; exact Or.inr ⟨none, Or.inl rfl, h⟩
  | cons q r ih =>
    obtain ⟨k0, v⟩ := q
    simp only [upd] at h
    by_cases h0 : k0 = k
    · subst h0
      rw [if_pos rfl] at h
      rcases List.mem_cons.1 h with h | h
      · exact Or.inr ⟨some v, Or.inr ⟨v, by simp, rfl⟩, h⟩
      · exact Or.inl (List.mem_cons_of_mem _ h)
    · rw [if_neg h0] at h
      rcases List.mem_cons.1 h with h | h
      · exact Or.inl (by rw [h]; simp)
      · rcases ih h with h | ⟨o, ho, h⟩
        · exact Or.inl (List.mem_cons_of_mem _ h)
        · refine Or.inr ⟨o, ?_, h⟩
          rcases ho with ho | ⟨v', h1, h2⟩
          · exact Or.inl ho
          · exact Or.inr ⟨v', List.mem_cons_of_mem _ h1, h2⟩

theorem keys_upd {d : Dict K V} (hd : Keys d) (k : K) (f : Option V → V) : Keys (upd k f d) := by
  induction d with
  | nil => simp [upd, Keys]
  | cons q r ih =>
    obtain ⟨k0, v⟩ := q
    unfold Keys at hd ih ⊢
    simp only [List.map_cons, List.nodup_cons] at hd
    simp only [upd]
    by_cases h0 : k0 = k
    · rw [if_pos h0]; simp only [List.map_cons, List.nodup_cons]; exact hd
    · rw [if_neg h0]
      simp only [List.map_cons, List.nodup_cons]
      refine ⟨?_, ih hd.2⟩
      intro hm
      obtain ⟨p, h1, h2⟩ := List.mem_map.1 hm
      rcases mem_upd h1 with h | ⟨o, _, h⟩
      · exact hd.1 (List.mem_map.2 ⟨p, h, h2⟩)
      · rw [h] at h2; exact h0 h2.symm

/-- a property of the values is kept by the updates -/
theorem vals_upd {d : Dict K V} {P : V → Prop} (hd : ∀ k v, (k, v) ∈ d → P v) (k : K) {f : Option V → V} (h0 : P (f none)) (h1 : ∀ v, P v → P (f (some v))) :
    ∀ k' v, (k', v) ∈ upd k f d → P v := by
  intro k' v h
  rcases mem_upd h with h | ⟨o, ho, h⟩
  · exact hd _ _ h
  · obtain ⟨_, rfl⟩ := Prod.mk.inj h
    rcases ho with rfl | ⟨v', h2, rfl⟩
    · exact h0
    · exact h1 _ (hd _ _ h2)

end dict

variable {E : Env}

/-! ## The supported operations -/

theorem supported_iff_entry {V : Type} {m : Map E V} (hm : Ok m) (n : E.N) (lang : E.L) : isMapSupported m n lang = true ↔ ∃ w im, Entry m lang n w im := by
  obtain ⟨k1, k2⟩ := hm
  unfold isMapSupported
  constructor
  · intro h
    split at h
    · simp at h
    · rename_i a ha
      split at h
      · simp at h
      · rename_i b hb
        split at h
        · simp at h
        · rename_i c hc
          obtain ⟨⟨cd, d⟩, h1, h2⟩ := List.any_eq_true.1 h
          rw [Bool.and_eq_true, List.any_eq_true] at h2
          obtain ⟨h2, ⟨ic, im⟩, h3, h4⟩ := h2
          obtain ⟨w, hw⟩ := Option.isSome_iff_exists.1 h4
          exact ⟨w, im, a, b, c, d, cd, ic, lookup_mem ha, lookup_mem hb, lookup_mem hc, h1, h2, h3, hw⟩
  · rintro ⟨w, im, a, b, c, d, cd, ic, h1, h2, h3, h4, h5, h6, h7⟩
    obtain ⟨k3, k4⟩ := k2 _ _ h1
    obtain ⟨k5, _⟩ := k4 _ _ h2
    rw [mem_lookup k1 h1]
    simp only
    rw [mem_lookup k3 h2]
    simp only
    rw [mem_lookup k5 h3]
    simp only
    rw [List.any_eq_true]
    refine ⟨_, h4, ?_⟩
    rw [Bool.and_eq_true, List.any_eq_true]
    exact ⟨h5, _, h6, by simp [h7]⟩

theorem goI_eq (n : E.N) (d : Dict E.I E.Impl) (acc : List E.Impl) :
    goI n d acc = match (d.filterMap (fun q => (E.ifc q.1 n).map fun w => (w, q.2))).find? (fun p => !p.1) with
      | some p => .inl p.2
      | none => .inr (acc ++ (d.filterMap (fun q => (E.ifc q.1 n).map fun w => (w, q.2))).map Prod.snd) := by
  induction d generalizing acc with
  | nil => simp [goI]
  | cons p r ih =>
    obtain ⟨ic, im⟩ := p
    rw [goI]
    cases h : E.ifc ic n with
    | none => simp only; rw [ih]; simp [h]
    | some w =>
      cases w with
      | false => simp [h]
      | true => simp only; rw [ih]; simp [h]

theorem goC_eq (n : E.N) (c : Dict E.C (Dict E.I E.Impl)) (acc : List E.Impl) :
    goC n c acc = match (c.flatMap fun p => if E.cond p.1 n then p.2.filterMap (fun q => (E.ifc q.1 n).map fun w => (w, q.2)) else []).find? (fun p => !p.1) with
      | some p => .inl p.2
      | none => .inr (acc ++ (c.flatMap fun p => if E.cond p.1 n then p.2.filterMap (fun q => (E.ifc q.1 n).map fun w => (w, q.2)) else []).map Prod.snd) := by
  induction c generalizing acc with
  | nil => simp [goC]
  | cons p r ih =>
    obtain ⟨cd, d⟩ := p
    rw [goC]
    by_cases h : E.cond cd n = true
    · rw [if_pos h, goI_eq]
      simp only [List.flatMap_cons, h, if_true, List.find?_append, List.map_append]
      cases hf : (d.filterMap (fun q => (E.ifc q.1 n).map fun w => (w, q.2))).find? (fun p => !p.1) with
      | some p => simp
      | none => simp only; rw [ih]; simp [List.append_assoc]
    · rw [if_neg h, ih]
      simp only [List.flatMap_cons, if_neg h, List.nil_append]

/-- what one target returns -/
theorem getImplementation_eq (t : Table E) (n : E.N) (lang : E.L) (h : isMapSupported t n lang = true) :
    getImplementation t n lang = some (match (entries t lang n).find? (fun p => !p.1) with
      | some p => .inl p.2
      | none => .inr ((entries t lang n).map Prod.snd)) := by
  unfold isMapSupported at h
  unfold getImplementation entries
  split at h
  · simp at h
  · rename_i a ha
    rw [ha]
    simp only
    split at h
    · simp at h
    · rename_i b hb
      rw [hb]
      simp only
      split at h
      · simp at h
      · rename_i c hc
        rw [hc]
        simp only
        rw [goC_eq]
        simp

theorem entries_nil (t : Table E) (n : E.N) (lang : E.L) : isMapSupported t n lang = false ↔ entries t lang n = [] := by
  unfold isMapSupported entries
  cases ha : t.lookup lang with
  | none => simp
  | some a =>
    simp only
    cases hb : a.lookup (E.op n) with
    | none => simp
    | some b =>
      simp only
      cases hc : b.lookup (E.key n) with
      | none => simp
      | some c =>
        simp only [List.any_eq_false, List.flatMap_eq_nil_iff]
        refine forall_congr' fun p => forall_congr' fun _ => ?_
        by_cases hcd : E.cond p.1 n = true
        · rw [if_pos hcd, hcd, List.filterMap_eq_nil_iff]
          simp
        · have : E.cond p.1 n = false := by simpa using hcd
          simp [this]

theorem recImpl_eq (n : E.N) (lang : E.L) (ts : List (Table E)) (acc : List E.Impl) :
    recImpl n lang ts acc = match (ts.flatMap fun t => entries t lang n).find? (fun p => !p.1) with
      | some p => some p.2
      | none => (acc ++ (ts.flatMap fun t => entries t lang n).map Prod.snd).head? := by
  induction ts generalizing acc with
  | nil => simp [recImpl]
  | cons t r ih =>
    rw [recImpl]
    simp only [List.flatMap_cons, List.find?_append, List.map_append]
    by_cases h : isMapSupported t n lang = true
    · rw [if_pos h, getImplementation_eq t n lang h]
      cases hf : (entries t lang n).find? (fun p => !p.1) with
      | some p => simp
      | none => simp only; rw [ih]; simp [List.append_assoc]
    · rw [if_neg h, ih, (entries_nil t n lang).1 (by simpa using h)]
      simp

/-- **C97.** The implementation found for an operation is the first one that is not a weak match in the tables of the target and of its parents, in that order, or else
the first weak one. -/
theorem C97_lookup (n : E.N) (lang : E.L) (ts : List (Table E)) : recImpl n lang ts [] = best (ts.flatMap fun t => entries t lang n) := by
  rw [recImpl_eq]
  unfold best
  cases (ts.flatMap fun t => entries t lang n).find? (fun p => !p.1) with
  | some p => rfl
  | none => simp [List.head?_map]

/-! ## The map of the supported operations -/

section merge
variable {V : Type}

theorem lookup_mergeI (d : Dict E.I Unit) (l : Dict E.I V) (i : E.I) : ((mergeI d l).lookup i).isSome ↔ (d.lookup i).isSome ∨ ∃ v, (i, v) ∈ l := by
  unfold mergeI
  induction l generalizing d with
  | nil => simp
  | cons p r ih =>
    rw [List.foldl_cons, ih, lookup_upd]
    obtain ⟨i', v'⟩ := p
    by_cases h : i = i'
    · subst h; simp
    · simp [h]

theorem keys_mergeI {d : Dict E.I Unit} (hd : Keys d) (l : Dict E.I V) : Keys (mergeI d l) := by
  unfold mergeI
  induction l generalizing d with
  | nil => exact hd
  | cons p r ih => rw [List.foldl_cons]; exact ih (keys_upd hd _ _)

/-- a path in a map of conditions -/
def pathC (c : Dict E.C (Dict E.I Unit)) (cd : E.C) (i : E.I) : Prop := ((c.lookup cd).getD []).lookup i |>.isSome

theorem path_mergeC (c : Dict E.C (Dict E.I Unit)) (l : Dict E.C (Dict E.I V)) (cd : E.C) (i : E.I) :
    pathC (mergeC c l) cd i ↔ pathC c cd i ∨ ∃ d, (cd, d) ∈ l ∧ ∃ v, (i, v) ∈ d := by
  unfold mergeC
  induction l generalizing c with
  | nil => simp
  | cons p r ih =>
    rw [List.foldl_cons, ih]
    obtain ⟨cd', d'⟩ := p
    have h : pathC (upd cd' (fun o => mergeI (o.getD []) d') c) cd i ↔ pathC c cd i ∨ (cd = cd' ∧ ∃ v, (i, v) ∈ d') := by
      unfold pathC
      rw [lookup_upd]
      by_cases h : cd = cd'
      · subst h
        simp only [if_true, Option.getD_some]
        rw [lookup_mergeI]; simp
      · simp [h]
    rw [h]
    constructor
    · rintro ((h | ⟨rfl, h'⟩) | ⟨d, h1, h2⟩)
      · exact Or.inl h
      · exact Or.inr ⟨d', by simp, h'⟩
      · exact Or.inr ⟨d, List.mem_cons_of_mem _ h1, h2⟩
    · rintro (h | ⟨d, h1, h2⟩)
      · exact Or.inl (Or.inl h)
      · rcases List.mem_cons.1 h1 with h1 | h1
        · obtain ⟨rfl, rfl⟩ := Prod.mk.inj h1; exact Or.inl (Or.inr ⟨rfl, h2⟩)
        · exact Or.inr ⟨d, h1, h2⟩

def OkC (c : Dict E.C (Dict E.I Unit)) : Prop := Keys c ∧ ∀ cd d, (cd, d) ∈ c → Keys d

theorem ok_mergeC {c : Dict E.C (Dict E.I Unit)} (hc : OkC c) (l : Dict E.C (Dict E.I V)) : OkC (mergeC c l) := by
  unfold mergeC
  induction l generalizing c with
  | nil => exact hc
  | cons p r ih =>
    rw [List.foldl_cons]
    exact ih ⟨keys_upd hc.1 _ _, vals_upd hc.2 _ (keys_mergeI (by simp [Keys]) _) (fun v hv => keys_mergeI hv _)⟩

def pathK (b : Dict E.K (Dict E.C (Dict E.I Unit))) (k : E.K) (cd : E.C) (i : E.I) : Prop := pathC ((b.lookup k).getD []) cd i

theorem path_mergeK (b : Dict E.K (Dict E.C (Dict E.I Unit))) (l : Dict E.K (Dict E.C (Dict E.I V))) (k : E.K) (cd : E.C) (i : E.I) :
    pathK (mergeK b l) k cd i ↔ pathK b k cd i ∨ ∃ c, (k, c) ∈ l ∧ ∃ d, (cd, d) ∈ c ∧ ∃ v, (i, v) ∈ d := by
  unfold mergeK
  induction l generalizing b with
  | nil => simp
  | cons p r ih =>
    rw [List.foldl_cons, ih]
    obtain ⟨k', c'⟩ := p
    have h : pathK (upd k' (fun o => mergeC (o.getD []) c') b) k cd i ↔ pathK b k cd i ∨ (k = k' ∧ ∃ d, (cd, d) ∈ c' ∧ ∃ v, (i, v) ∈ d) := by
      unfold pathK
      rw [lookup_upd]
      by_cases h : k = k'
      · subst h
        simp only [if_true, Option.getD_some]
        rw [path_mergeC]; simp
      · simp [h]
    rw [h]
    constructor
    · rintro ((h | ⟨rfl, h'⟩) | ⟨d, h1, h2⟩)
      · exact Or.inl h
      · exact Or.inr ⟨c', by simp, h'⟩
      · exact Or.inr ⟨d, List.mem_cons_of_mem _ h1, h2⟩
    · rintro (h | ⟨d, h1, h2⟩)
      · exact Or.inl (Or.inl h)
      · rcases List.mem_cons.1 h1 with h1 | h1
        · obtain ⟨rfl, rfl⟩ := Prod.mk.inj h1; exact Or.inl (Or.inr ⟨rfl, h2⟩)
        · exact Or.inr ⟨d, h1, h2⟩

def OkK (b : Dict E.K (Dict E.C (Dict E.I Unit))) : Prop := Keys b ∧ ∀ k c, (k, c) ∈ b → OkC c

theorem ok_mergeK {b : Dict E.K (Dict E.C (Dict E.I Unit))} (hb : OkK b) (l : Dict E.K (Dict E.C (Dict E.I V))) : OkK (mergeK b l) := by
  unfold mergeK
  induction l generalizing b with
  | nil => exact hb
  | cons p r ih =>
    rw [List.foldl_cons]
    exact ih ⟨keys_upd hb.1 _ _, vals_upd hb.2 _ (ok_mergeC ⟨by simp [Keys], by simp⟩ _) (fun v hv => ok_mergeC hv _)⟩

def pathO (a : Dict E.O (Dict E.K (Dict E.C (Dict E.I Unit)))) (o : E.O) (k : E.K) (cd : E.C) (i : E.I) : Prop := pathK ((a.lookup o).getD []) k cd i

theorem path_mergeO (a : Dict E.O (Dict E.K (Dict E.C (Dict E.I Unit)))) (l : Dict E.O (Dict E.K (Dict E.C (Dict E.I V)))) (o : E.O) (k : E.K) (cd : E.C)
    (i : E.I) : pathO (mergeO a l) o k cd i ↔ pathO a o k cd i ∨ ∃ b, (o, b) ∈ l ∧ ∃ c, (k, c) ∈ b ∧ ∃ d, (cd, d) ∈ c ∧ ∃ v, (i, v) ∈ d := by
  unfold mergeO
  induction l generalizing a with
  | nil => simp
  | cons p r ih =>
    rw [List.foldl_cons, ih]
    obtain ⟨o', b'⟩ := p
    have h : pathO (upd o' (fun x => mergeK (x.getD []) b') a) o k cd i ↔ pathO a o k cd i ∨ (o = o' ∧ ∃ c, (k, c) ∈ b' ∧ ∃ d, (cd, d) ∈ c ∧ ∃ v, (i, v) ∈ d) := by
      unfold pathO
      rw [lookup_upd]
      by_cases h : o = o'
      · subst h
        simp only [if_true, Option.getD_some]
        rw [path_mergeK]; simp
      · simp [h]
    rw [h]
    constructor
    · rintro ((h | ⟨rfl, h'⟩) | ⟨d, h1, h2⟩)
      · exact Or.inl h
      · exact Or.inr ⟨b', by simp, h'⟩
      · exact Or.inr ⟨d, List.mem_cons_of_mem _ h1, h2⟩
    · rintro (h | ⟨d, h1, h2⟩)
      · exact Or.inl (Or.inl h)
      · rcases List.mem_cons.1 h1 with h1 | h1
        · obtain ⟨rfl, rfl⟩ := Prod.mk.inj h1; exact Or.inl (Or.inr ⟨rfl, h2⟩)
        · exact Or.inr ⟨d, h1, h2⟩

def OkO (a : Dict E.O (Dict E.K (Dict E.C (Dict E.I Unit)))) : Prop := Keys a ∧ ∀ o b, (o, b) ∈ a → OkK b

theorem ok_mergeO {a : Dict E.O (Dict E.K (Dict E.C (Dict E.I Unit)))} (ha : OkO a) (l : Dict E.O (Dict E.K (Dict E.C (Dict E.I V)))) : OkO (mergeO a l) := by
  unfold mergeO
  induction l generalizing a with
  | nil => exact ha
  | cons p r ih =>
    rw [List.foldl_cons]
    exact ih ⟨keys_upd ha.1 _ _, vals_upd ha.2 _ (ok_mergeK ⟨by simp [Keys], by simp⟩ _) (fun v hv => ok_mergeK hv _)⟩

end merge

/-- the entry of a table at given condition and interface -/
def TPath (t : Table E) (lang : E.L) (o : E.O) (k : E.K) (cd : E.C) (i : E.I) : Prop :=
  ∃ a, (lang, a) ∈ t ∧ ∃ b, (o, b) ∈ a ∧ ∃ c, (k, c) ∈ b ∧ ∃ d, (cd, d) ∈ c ∧ ∃ v, (i, v) ∈ d

theorem path_local {t : Table E} (ht : Ok t) (lang : E.L) (m : Dict E.O (Dict E.K (Dict E.C (Dict E.I Unit)))) (o : E.O) (k : E.K) (cd : E.C) (i : E.I) :
    pathO (localOpMap lang m t) o k cd i ↔ pathO m o k cd i ∨ TPath t lang o k cd i := by
  unfold localOpMap TPath
  cases h : t.lookup lang with
  | none =>
    simp only
    constructor
    · exact Or.inl
    · rintro (h' | ⟨a, h', _⟩)
      · exact h'
      · rw [mem_lookup ht.1 h'] at h; simp at h
  | some a =>
    simp only
    rw [path_mergeO]
    constructor
    · rintro (h' | h')
      · exact Or.inl h'
      · exact Or.inr ⟨a, lookup_mem h, h'⟩
    · rintro (h' | ⟨a', h1, h'⟩)
      · exact Or.inl h'
      · rw [mem_lookup ht.1 h1] at h
        obtain rfl : a' = a := by simpa using h
        exact Or.inr h'

theorem ok_local {m : Dict E.O (Dict E.K (Dict E.C (Dict E.I Unit)))} (hm : OkO m) (lang : E.L) (t : Table E) : OkO (localOpMap lang m t) := by
  unfold localOpMap
  split
  · exact hm
  · exact ok_mergeO hm _

theorem path_fold {ts : List (Table E)} (ht : ∀ t ∈ ts, Ok t) (lang : E.L) (m : Dict E.O (Dict E.K (Dict E.C (Dict E.I Unit)))) (o : E.O) (k : E.K) (cd : E.C)
    (i : E.I) : pathO (ts.foldl (localOpMap lang) m) o k cd i ↔ pathO m o k cd i ∨ ∃ t ∈ ts, TPath t lang o k cd i := by
  induction ts generalizing m with
  | nil => simp
  | cons t r ih =>
    rw [List.foldl_cons, ih (fun t h => ht t (List.mem_cons_of_mem _ h)), path_local (ht t (by simp))]
    simp only [List.mem_cons, exists_eq_or_imp]
    exact or_assoc

theorem ok_fold {ts : List (Table E)} (lang : E.L) {m : Dict E.O (Dict E.K (Dict E.C (Dict E.I Unit)))} (hm : OkO m) : OkO (ts.foldl (localOpMap lang) m) := by
  induction ts generalizing m with
  | nil => exact hm
  | cons t r ih => rw [List.foldl_cons]; exact ih (ok_local hm _ _)

/-- the map supports a node when it has a path for it -/
theorem supported_iff_path {m : Dict E.O (Dict E.K (Dict E.C (Dict E.I Unit)))} (hm : OkO m) (lang : E.L) (n : E.N) :
    isMapSupported (E := E) (V := Unit) [(lang, m)] n lang = true ↔ ∃ cd i, pathO m (E.op n) (E.key n) cd i ∧ E.cond cd n = true ∧ (E.ifc i n).isSome := by
  have hl : List.lookup lang [(lang, m)] = some m := by simp [List.lookup_cons]
  unfold isMapSupported
  rw [hl]
  simp only
  unfold pathO
  cases hb : m.lookup (E.op n) with
  | none => simp [pathK, pathC]
  | some b =>
    have okb := hm.2 _ _ (lookup_mem hb)
    simp only [Option.getD_some]
    unfold pathK
    cases hc : b.lookup (E.key n) with
    | none => simp [pathC]
    | some c =>
      have okc := okb.2 _ _ (lookup_mem hc)
      simp only [Option.getD_some]
      unfold pathC
      rw [List.any_eq_true]
      constructor
      · rintro ⟨⟨cd, d⟩, h1, h2⟩
        rw [Bool.and_eq_true, List.any_eq_true] at h2
        obtain ⟨h2, ⟨ic, u⟩, h3, h4⟩ := h2
        refine ⟨cd, ic, ?_, h2, h4⟩
        rw [mem_lookup okc.1 h1, Option.getD_some, mem_lookup (okc.2 _ _ h1) h3]; rfl
      · rintro ⟨cd, ic, h1, h2, h3⟩
        cases hd : c.lookup cd with
        | none => rw [hd] at h1; simp at h1
        | some d =>
          rw [hd, Option.getD_some] at h1
          obtain ⟨u, hu⟩ := Option.isSome_iff_exists.1 h1
          refine ⟨_, lookup_mem hd, ?_⟩
          rw [Bool.and_eq_true, List.any_eq_true]
          exact ⟨h2, _, lookup_mem hu, h3⟩

/-- **C97.** For the default language of the target, an operation is reported as supported exactly when an implementation is found for it. -/
theorem C97_supported_iff (lang : E.L) {self : Table E} {parents : List (Table E)} (hs : Ok self) (hp : ∀ t ∈ parents, Ok t) (n : E.N) :
    isSupported lang parents self n lang = true ↔ (recImpl n lang (self :: parents) []).isSome = true := by
  have h1 : isSupported lang parents self n lang = true ↔ ∃ t ∈ self :: parents, isMapSupported t n lang = true := by
    unfold isSupported supportedOpMap
    rw [supported_iff_path (ok_local (ok_fold _ ⟨by simp [Keys], by simp⟩) _ _)]
    have key : ∀ t : Table E, Ok t → (isMapSupported t n lang = true ↔ ∃ cd i, TPath t lang (E.op n) (E.key n) cd i ∧ E.cond cd n = true ∧ (E.ifc i n).isSome) := by
      intro t ht
      rw [supported_iff_entry ht]
      constructor
      · rintro ⟨w, im, a, b, c, d, cd, ic, h1, h2, h3, h4, h5, h6, h7⟩
        exact ⟨cd, ic, ⟨a, h1, b, h2, c, h3, d, h4, im, h6⟩, h5, by simp [h7]⟩
      · rintro ⟨cd, ic, ⟨a, h1, b, h2, c, h3, d, h4, im, h6⟩, h5, h7⟩
        obtain ⟨w, hw⟩ := Option.isSome_iff_exists.1 h7
        exact ⟨w, im, a, b, c, d, cd, ic, h1, h2, h3, h4, h5, h6, hw⟩
    constructor
    · rintro ⟨cd, i, h, h2, h3⟩
      rw [path_local hs, path_fold hp] at h
      rcases h with (h | ⟨t, h4, h5⟩) | h
      · simp [pathO, pathK, pathC] at h
      · exact ⟨t, List.mem_cons_of_mem _ h4, (key t (hp t h4)).2 ⟨cd, i, h5, h2, h3⟩⟩
      · exact ⟨self, by simp, (key self hs).2 ⟨cd, i, h, h2, h3⟩⟩
    · rintro ⟨t, ht, h⟩
      rcases List.mem_cons.1 ht with rfl | ht
      · obtain ⟨cd, i, h, h2, h3⟩ := (key t hs).1 h
        exact ⟨cd, i, by rw [path_local hs]; exact Or.inr h, h2, h3⟩
      · obtain ⟨cd, i, h, h2, h3⟩ := (key t (hp t ht)).1 h
        exact ⟨cd, i, by rw [path_local hs, path_fold hp]; exact Or.inl (Or.inr ⟨t, ht, h⟩), h2, h3⟩
  rw [h1, C97_lookup]
  have h2 : (best ((self :: parents).flatMap fun t => entries t lang n)).isSome = true ↔ (self :: parents).flatMap (fun t => entries t lang n) ≠ [] := by
    generalize (self :: parents).flatMap (fun t => entries t lang n) = l
    unfold best
    cases hf : l.find? (fun p => !p.1) with
    | some p =>
      simp only [Option.isSome_some, true_iff]
      rintro rfl
      simp at hf
    | none => cases l <;> simp
  rw [h2, ne_eq, List.flatMap_eq_nil_iff]
  push Not
  refine exists_congr fun t => and_congr_right fun _ => ?_
  rw [ne_eq, ← entries_nil]
  simp

/-- **C97, disagreement.** For any other language no operation at all is reported as supported, although an implementation may be found for it: the map is built for the
default language of the class only, which is C for all the targets (none redefines `DEFAULT_LANGUAGE`), those that generate LLVM-IR or VHDL included. -/
theorem C97_language_wrong {default lang : E.L} (h : lang ≠ default) (self : Table E) (parents : List (Table E)) (n : E.N) :
    isSupported default parents self n lang = false := by
  unfold isSupported isMapSupported
  have : (lang == default) = false := by simpa using h
  simp [List.lookup_cons, this]

/-- a target with one operation in each of two languages, a weak match on `1` and a strong one on `2` -/
def toy : Env := { L := Bool, O := Unit, K := Unit, C := Unit, I := ℕ, N := Unit, Impl := String, op := fun _ => (), key := fun _ => (), cond := fun _ _ => true,
                   ifc := fun i _ => if i = 1 then some true else if i = 2 then some false else none }

def toyTable (i : ℕ) (s : String) : Table toy := [(false, [((), [((), [((), [(i, s)])])])]), (true, [((), [((), [((), [(i, s)])])])])]

theorem toy_ok (i : ℕ) (s : String) : Ok (toyTable i s) := by
  refine ⟨by unfold Keys; show [false, true].Nodup; decide, fun l a h => ?_⟩
  have ha : a = [((), [((), [((), [(i, s)])])])] := by
    rcases List.mem_cons.1 h with h | h
    · exact (Prod.mk.inj h).2
    · exact (Prod.mk.inj (List.mem_singleton.1 h)).2
  subst ha
  refine ⟨List.nodup_singleton _, fun o b h => ?_⟩
  obtain ⟨_, rfl⟩ := Prod.mk.inj (List.mem_singleton.1 h)
  refine ⟨List.nodup_singleton _, fun k c h => ?_⟩
  obtain ⟨_, rfl⟩ := Prod.mk.inj (List.mem_singleton.1 h)
  refine ⟨List.nodup_singleton _, fun cd d h => ?_⟩
  obtain ⟨_, rfl⟩ := Prod.mk.inj (List.mem_singleton.1 h)
  exact List.nodup_singleton _

/-- the tables are proper, the strong match of the parent is preferred to the weak one of the target, and in the second language the operation has an
implementation but is not reported as supported -/
example : Ok (toyTable 1 "weak") ∧ Ok (toyTable 2 "strong") ∧
    recImpl (E := toy) () false [toyTable 1 "weak", toyTable 2 "strong"] [] = some "strong" ∧
    isSupported (E := toy) false [toyTable 2 "strong"] (toyTable 1 "weak") () false = true ∧
    recImpl (E := toy) () true [toyTable 1 "weak", toyTable 2 "strong"] [] = some "strong" ∧
    isSupported (E := toy) false [toyTable 2 "strong"] (toyTable 1 "weak") () true = false := by
  exact ⟨toy_ok _ _, toy_ok _ _, rfl, rfl, rfl, rfl⟩

/-! ## C98: the hierarchy -/

section hier
variable {α : Type} [DecidableEq α] {bases : α → List α}

/-- what the loop adds -/
theorem visit_spec (ps seen next : List α) :
    (∀ a, a ∈ (visit bases ps seen next).1 ↔ a ∈ seen ∨ a ∈ ps) ∧
    (∀ a, a ∈ (visit bases ps seen next).2 ↔ a ∈ next ∨ ∃ p ∈ ps, p ∉ seen ∧ a ∈ bases p) ∧
    (seen.Nodup → (visit bases ps seen next).1.Nodup) ∧
    ((∀ p ∈ ps, p ∈ seen) → visit bases ps seen next = (seen, next)) := by
  induction ps generalizing seen next with
  | nil => simp [visit]
  | cons p r ih =>
    rw [visit]
    by_cases h : p ∈ seen
    · rw [if_pos h]
      obtain ⟨i1, i2, i3, i4⟩ := ih seen next
      refine ⟨fun a => ?_, fun a => ?_, i3, fun hh => i4 fun q hq => hh q (List.mem_cons_of_mem _ hq)⟩
      · rw [i1]; simp only [List.mem_cons]
        constructor
        · tauto
        · rintro (h1 | rfl | h1)
          · exact Or.inl h1
          · exact Or.inl h
          · exact Or.inr h1
      · rw [i2]
        constructor
        · rintro (h1 | ⟨q, h1, h2⟩)
          · exact Or.inl h1
          · exact Or.inr ⟨q, List.mem_cons_of_mem _ h1, h2⟩
        · rintro (h1 | ⟨q, h1, h2, h3⟩)
          · exact Or.inl h1
          · rcases List.mem_cons.1 h1 with rfl | h1
            · exact absurd h h2
            · exact Or.inr ⟨q, h1, h2, h3⟩
    · rw [if_neg h]
      obtain ⟨i1, i2, i3, i4⟩ := ih (seen ++ [p]) (next ++ bases p)
      refine ⟨fun a => ?_, fun a => ?_, fun hn => i3 ?_, fun hh => absurd (hh p (by simp)) h⟩
      · rw [i1]; simp only [List.mem_append, List.mem_singleton, List.mem_cons, List.not_mem_nil, or_false]; tauto
      · rw [i2]
        constructor
        · rintro (h1 | ⟨q, h1, h2, h3⟩)
          · rcases List.mem_append.1 h1 with h1 | h1
            · exact Or.inl h1
            · exact Or.inr ⟨p, by simp, h, h1⟩
          · exact Or.inr ⟨q, List.mem_cons_of_mem _ h1, fun h4 => h2 (List.mem_append_left _ h4), h3⟩
        · rintro (h1 | ⟨q, h1, h2, h3⟩)
          · exact Or.inl (List.mem_append_left _ h1)
          · by_cases hq : q = p
            · subst hq; exact Or.inl (List.mem_append_right _ h3)
            · rcases List.mem_cons.1 h1 with h1 | h1
              · exact absurd h1 hq
              · exact Or.inr ⟨q, h1, by simp [h2, hq], h3⟩
      · rw [List.nodup_append]
        refine ⟨hn, by simp, ?_⟩
        intro a ha b hb
        simp only [List.mem_singleton] at hb
        subst hb
        rintro rfl
        exact h ha

/-- a base of a target, a base of a base… -/
abbrev Anc (bases : α → List α) : α → α → Prop := Relation.ReflTransGen fun x y => y ∈ bases x

/-- **C98.** The list of the targets an implementation is searched in has each ancestor exactly once, whatever the inheritance graph, as long as it is finite. -/
theorem C98_hierarchy {U ps : List α} (hU : ∀ p ∈ ps, ∀ a, Anc bases p a → a ∈ U) {fuel : ℕ} (hf : U.length + 2 ≤ fuel) :
    ∃ l, hierarchy bases fuel ps [] = some l ∧ l.Nodup ∧ ∀ a, a ∈ l ↔ ∃ p ∈ ps, Anc bases p a := by
  -- the invariant: the bases of what has been seen have been seen or are about to be visited
  have key : ∀ (fuel : ℕ) (qs seen : List α), seen.Nodup → (∀ a ∈ seen, ∃ p ∈ ps, Anc bases p a) → (∀ a ∈ qs, ∃ p ∈ ps, Anc bases p a) →
      (∀ a ∈ seen, ∀ b ∈ bases a, b ∈ seen ∨ b ∈ qs) → (∀ p ∈ ps, p ∈ seen ∨ p ∈ qs) →
      (U.length - seen.length) + 2 ≤ fuel → ∃ l, hierarchy bases fuel qs seen = some l ∧ l.Nodup ∧ ∀ a, a ∈ l ↔ ∃ p ∈ ps, Anc bases p a := by
    intro fuel
    induction fuel with
    | zero => intro qs seen _ _ _ _ _ h; omega
    | succ fuel ih =>
      intro qs seen h1 h2 h3 h4 h5 h6
      rw [hierarchy]
      by_cases hq : qs = []
      · rw [if_pos hq]
        subst hq
        refine ⟨seen, rfl, h1, fun a => ⟨h2 a, ?_⟩⟩
        rintro ⟨p, hp, ha⟩
        induction ha with
        | refl => rcases h5 p hp with h | h; exact h; simp at h
        | tail _ hb ih2 => rcases h4 _ ih2 _ hb with h | h; exact h; simp at h
      · rw [if_neg hq]
        obtain ⟨v1, v2, v3, v4⟩ := visit_spec (bases := bases) qs seen []
        have hsub : ∀ a ∈ (visit bases qs seen []).1, ∃ p ∈ ps, Anc bases p a := by
          intro a ha
          rcases (v1 a).1 ha with h | h
          · exact h2 a h
          · exact h3 a h
        have hclos : ∀ a ∈ (visit bases qs seen []).1, ∀ b ∈ bases a, b ∈ (visit bases qs seen []).1 ∨ b ∈ (visit bases qs seen []).2 := by
          intro a ha b hb
          by_cases has : a ∈ seen
          · left
            rw [v1]
            exact h4 a has b hb
          · right
            rw [v2]
            rcases (v1 a).1 ha with h | h
            · exact absurd h has
            · exact Or.inr ⟨a, h, has, hb⟩
        have hstart : ∀ p ∈ ps, p ∈ (visit bases qs seen []).1 ∨ p ∈ (visit bases qs seen []).2 := fun p hp => Or.inl ((v1 p).2 (h5 p hp))
        by_cases hall : ∀ p ∈ qs, p ∈ seen
        · -- nothing new: the next call ends
          rw [v4 hall]
          cases fuel with
          | zero => omega
          | succ fuel =>
            rw [v4 hall] at hclos hstart
            rw [hierarchy, if_pos rfl]
            refine ⟨seen, rfl, h1, fun a => ⟨h2 a, ?_⟩⟩
            rintro ⟨p, hp, ha⟩
            induction ha with
            | refl => rcases hstart p hp with h | h; exact h; simp at h
            | tail _ hb ih2 => rcases hclos _ ih2 _ hb with h | h; exact h; simp at h
        · push Not at hall
          obtain ⟨p, hp, hps⟩ := hall
          have hnd := v3 h1
          have hUn : (visit bases qs seen []).1.length ≤ U.length := by
            have : (visit bases qs seen []).1 ⊆ U := by
              intro a ha
              obtain ⟨p, hp, h⟩ := hsub a ha
              exact hU p hp a h
            exact (List.subperm_of_subset hnd this).length_le
          have hlt : seen.length < (visit bases qs seen []).1.length := by
            have hsp : (p :: seen).Nodup := List.nodup_cons.2 ⟨hps, h1⟩
            have : (p :: seen) ⊆ (visit bases qs seen []).1 := by
              intro a ha
              rw [v1]
              rcases List.mem_cons.1 ha with rfl | ha
              · exact Or.inr hp
              · exact Or.inl ha
            have := (List.subperm_of_subset hsp this).length_le
            simpa using this
          refine ih _ _ hnd hsub ?_ hclos hstart (by omega)
          intro a ha
          rcases (v2 a).1 ha with h | ⟨q, h7, _, h8⟩
          · simp at h
          · obtain ⟨r, hr, h9⟩ := h3 q h7
            exact ⟨r, hr, h9.tail h8⟩
  exact key fuel ps [] (by simp) (by simp) (fun a ha => ⟨a, ha, .refl⟩) (by simp) (fun p hp => Or.inr hp) (by simpa using hf)

/-- the classes above a target in a chain -/
def chain (bases : α → List α) : ℕ → List α → List α
  | 0, _ => []
  | n + 1, ps => match ps with
    | [] => []
    | p :: _ => p :: chain bases n (bases p)

/-- **C98.** With single inheritance (all the targets of the repository), the list is the chain of the bases: every target comes before its base. -/
theorem C98_single_order {ps : List α} (hb : ∀ a, (bases a).length ≤ 1) (hp : ps.length ≤ 1) {fuel : ℕ} {l : List α}
    (h : hierarchy bases fuel ps [] = some l) : l.IsChain (fun x y => bases x = [y]) ∧ l.take 1 = ps := by
  have key : ∀ (fuel : ℕ) (qs seen : List α), qs.length ≤ 1 → seen.IsChain (fun x y => bases x = [y]) →
      (∀ a ∈ seen.getLast?, bases a = qs) → ∀ l, hierarchy bases fuel qs seen = some l →
      l.IsChain (fun x y => bases x = [y]) ∧ l.take 1 = (seen ++ qs).take 1 := by
    intro fuel
    induction fuel with
    | zero => intro qs seen _ _ _ l h; simp [hierarchy] at h
    | succ fuel ih =>
      intro qs seen hq hs hlast l h
      rw [hierarchy] at h
      by_cases hq0 : qs = []
      · rw [if_pos hq0] at h
        obtain rfl : seen = l := by simpa using h
        rw [hq0]; simp [hs]
      · rw [if_neg hq0] at h
        obtain ⟨p, rfl⟩ : ∃ p, qs = [p] := by
          match qs, hq, hq0 with
          | [p], _, _ => exact ⟨p, rfl⟩
        simp only [visit] at h
        by_cases hps : p ∈ seen
        · rw [if_pos hps] at h
          have := ih [] seen (by simp) hs
          cases fuel with
          | zero => simp [hierarchy] at h
          | succ fuel =>
            rw [hierarchy, if_pos rfl] at h
            obtain rfl : seen = l := by simpa using h
            refine ⟨hs, ?_⟩
            cases seen with
            | nil => simp at hps
            | cons a r => simp
        · rw [if_neg hps] at h
          have h3 := ih (bases p) (seen ++ [p]) (hb p) ?_ (by simp) l (by simpa using h)
          · refine ⟨h3.1, ?_⟩
            rw [h3.2]
            cases seen <;> simp
          · rw [List.isChain_append]
            refine ⟨hs, by simp, ?_⟩
            intro x hx y hy
            simp only [List.head?_cons, Option.mem_some_iff] at hy
            subst hy
            exact hlast x hx
  have := key fuel ps [] hp (by simp) (by simp) l h
  refine ⟨this.1, ?_⟩
  rw [this.2, List.nil_append]
  exact List.take_of_length_le hp

/-- the AVX2 processor: `X86_AVX_Processor` (numbered 8) down to `GenericProcessor` (numbered 0) -/
example : hierarchy (fun n : ℕ => if n = 0 then [] else [n - 1]) 20 [8] [] = some [8, 7, 6, 5, 4, 3, 2, 1, 0] := by decide

/-- **C98, disagreement.** With multiple inheritance a target may come after its own base, whose implementation is then preferred to its own (Python would search the
target first): the classes `D(X, B)`, `X(A)`, `B(C)`, `C(A)`. -/
theorem C98_order_wrong : ∃ (bases : ℕ → List ℕ), (∀ a, ∀ b ∈ bases a, b < a) ∧ ∃ l, hierarchy bases 10 [4, 3] [] = some l ∧ 1 ∈ bases 2 ∧ ∃ i j : ℕ, i < j ∧ l[i]? = some 1 ∧ l[j]? = some 2 := by
  refine ⟨fun n => if n = 4 then [1] else if n = 3 then [2] else if n = 2 then [1] else [], ?_, [4, 3, 1, 2], by decide, by decide, 2, 3, by decide, by decide, by decide⟩
  intro a b hb
  dsimp only at hb
  split_ifs at hb <;> simp_all

end hier

end Verif.Backend
