import Verif.LogRep.Model
import Mathlib.Tactic.Push

namespace Verif.LogRep

theorem filterLevel_iff (fs : List Filter) (l : Level) :
    filterLevel fs l = true ↔ ∃ f ∈ fs, f.Asks l := by
  induction fs with
  | nil => simp [filterLevel]
  | cons f fs ih =>
    have hm : f.matches l = true ↔ f.Asks l := by
      unfold Filter.matches Filter.Asks
      by_cases h1 : l.name = f.name
      · simp [h1]
      · simp [h1, Ne.symm h1]
    unfold filterLevel
    by_cases h : f.matches l = true
    · simp [h, hm.1 h]
    · have hn : ¬ f.Asks l := fun hc => h (hm.2 hc)
      simp [h, ih, hn]

/-- **C135**: a report at the error level never returns to the caller, whatever the
configuration, the message and its arguments. -/
theorem C135_error_stops (c : Cfg) (msg : Text) (as : List Text) (o : Out) :
    (report c error msg as o).1 ≠ .returned := by
  unfold report
  split
  · simp
  · simp only [if_true]; split_ifs <;> simp

theorem fmt_cons (c : Char) (t : Text) (as : List Text) (h1 : c ≠ '{') (h2 : c ≠ '}') :
    fmt (c :: t) as = (fmt t as).map (c :: ·) := by
  rw [fmt.eq_def]
  split
  · simp_all
  · simp_all
  · simp_all
  · simp_all
  · rename_i hq _
    cases hq
    simp [h1, h2]

theorem Plain.tail {c : Char} {t : Text} (h : Plain (c :: t)) : c ≠ '{' ∧ c ≠ '}' ∧ Plain t :=
  ⟨fun e => h.1 (by simp [e]), fun e => h.2 (by simp [e]),
    fun e => h.1 (List.mem_cons_of_mem _ e), fun e => h.2 (List.mem_cons_of_mem _ e)⟩

theorem fmt_plain (t : Text) (h : Plain t) (as : List Text) : fmt t as = some t := by
  induction t with
  | nil => rw [fmt]
  | cons c t ih => rw [fmt_cons c t as h.tail.1 h.tail.2.1, ih h.tail.2.2]; rfl

theorem fmt_append (p : Text) (h : Plain p) (t : Text) (as : List Text) :
    fmt (p ++ t) as = (fmt t as).map (p ++ ·) := by
  induction p with
  | nil => simp
  | cons c p ih =>
    rw [List.cons_append, fmt_cons c _ as h.tail.1 h.tail.2.1, ih h.tail.2.2, Option.map_map]
    rfl

/-- **C135**: a message made of brace-free pieces with a pair of braces between them is
written with the arguments in these places, in order; the arguments may contain
anything. -/
theorem C135_text (ps : List Text) (hp : ∀ p ∈ ps, Plain p) (as : List Text)
    (ha : ps.length ≤ as.length + 1) : fmt (template ps) as = some (filled ps as) := by
  induction ps generalizing as with
  | nil => rfl
  | cons p l ih =>
    cases l with
    | nil => simpa [template, filled] using fmt_plain p (hp p (by simp)) as
    | cons q l =>
      cases as with
      | nil => simp at ha
      | cons a as =>
        have := ih (fun x hx => hp x (List.mem_cons_of_mem _ hx)) as (by simpa using ha)
        rw [template, fmt_append p (hp p (by simp)), filled]
        · show Option.map _ (fmt ('{' :: '}' :: template (q :: l)) (a :: as)) = _
          rw [fmt, this]
          simp
        all_goals simp

example : fmt (template ["unknown ".toList, " in ".toList, []]) ["{x}".toList, "f".toList] =
    some "unknown {x} in f".toList := by decide

/-- **C135**: a message is written exactly when one of the enabled levels asks for it, once
in the log and once on the screen, as far as these are in use; otherwise nothing is. -/
theorem C135_shown (c : Cfg) (l : Level) (msg t : Text) (as : List Text) (o : Out)
    (ht : fmt msg as = some t) :
    ((∃ f ∈ c.enabled, f.Asks l) → (report c l msg as o).2 =
      ⟨o.log ++ (if c.stream then [t] else []),
        o.screen ++ (if c.stdout then [l.name ++ ": ".toList ++ t] else [])⟩) ∧
    ((¬ ∃ f ∈ c.enabled, f.Asks l) → (report c l msg as o).2 = o) := by
  have key : ∀ r, display c l msg as o = r → r.1 = true → (report c l msg as o).2 = r.2 := by
    rintro ⟨b, o'⟩ hr hb
    simp only at hb; subst hb
    unfold report; rw [hr]; simp only
    split_ifs <;> rfl
  constructor
  · intro h
    have hd := (filterLevel_iff c.enabled l).2 h
    refine (key _ rfl (by simp [display, hd, ht])).trans ?_
    simp only [display, hd, ht, if_true]
    cases c.stream <;> cases c.stdout <;> simp
  · intro h
    have hd : filterLevel c.enabled l = false := by
      cases hc : filterLevel c.enabled l with
      | false => rfl
      | true => exact absurd ((filterLevel_iff c.enabled l).1 hc) h
    exact (key _ rfl (by simp [display, hd])).trans (by simp [display, hd])

/-- **C135**: a level which has been enabled stays enabled, whatever is enabled later, and
errors are shown from the start. -/
theorem C135_enabled (c : Cfg) (name : Text) (sub : Option Text)
    (later : List (Text × Option Text)) (l : Level) (h : Filter.Asks ⟨name, sub⟩ l) :
    ∃ f ∈ (later.foldl (fun c p => enable c p.1 p.2) (enable c name sub)).enabled, f.Asks l := by
  have mono : ∀ (later : List (Text × Option Text)) (c : Cfg), ∀ f ∈ c.enabled,
      f ∈ (later.foldl (fun c p => enable c p.1 p.2) c).enabled := by
    intro later
    induction later with
    | nil => intro c f hf; exact hf
    | cons p l ih => intro c f hf; exact ih _ f (by simp [enable, hf])
  exact ⟨⟨name, sub⟩, mono later _ _ (by simp [enable]), h⟩

theorem C135_errors_shown : ∃ f ∈ initial.enabled, f.Asks error :=
  ⟨_, List.mem_singleton.2 rfl, rfl, Or.inl rfl⟩

/-- **C135**: a report at another level returns, for every message whose text can be built;
so for such messages the choice of the levels shown has no effect on the generator.
What is missing: C135_braces_wrong. -/
theorem C135_other_levels_partial (c : Cfg) (l : Level) (hl : l.id ≠ error.id) (msg t : Text)
    (as : List Text) (ht : fmt msg as = some t) (o : Out) :
    (report c l msg as o).1 = .returned := by
  have hb : (display c l msg as o).1 = true := by
    unfold display
    split
    · simp [ht]
    · rfl
  unfold report
  cases hd : display c l msg as o with
  | mk b o' =>
    rw [hd] at hb
    simp only at hb; subst hb
    simp [hl]

example : info.id ≠ error.id ∧ fmt "done".toList [] = some "done".toList := by decide

/-- A message which contains a brace, for instance because the text of a node was put in it
beforehand, is harmless as long as its level is not shown and stops the generator when it
is. -/
theorem C135_braces_wrong (l : Level) (hl : l.id ≠ error.id)
    (hs : ¬ ∃ f ∈ initial.enabled, f.Asks l) (before after : Text) (hb : Plain before)
    (ha : after = [] ∨ ∃ x y, after = x :: y ∧ x ≠ '{' ∧ x ≠ '}') (o : Out) :
    (report initial l (before ++ '{' :: after) [] o).1 = .returned ∧
    (report (enable initial l.name none) l (before ++ '{' :: after) [] o).1 = .raised := by
  have hf : fmt (before ++ '{' :: after) [] = none := by
    rw [fmt_append before hb]
    rcases ha with rfl | ⟨x, y, rfl, hx, hx'⟩
    · simp [fmt]
    · have : fmt ('{' :: x :: y) [] = none := by
        rw [fmt.eq_def]; split <;> simp_all
        next h => obtain ⟨rfl, _⟩ := h; simp
      rw [this]; rfl
  constructor
  · have hd : filterLevel initial.enabled l = false := by
      cases hc : filterLevel initial.enabled l with
      | false => rfl
      | true => exact absurd ((filterLevel_iff _ l).1 hc) hs
    simp [report, display, hd, hl]
  · have hd : filterLevel (enable initial l.name none).enabled l = true :=
      (filterLevel_iff _ l).2 ⟨⟨l.name, none⟩, by simp [enable], rfl, Or.inl rfl⟩
    have hc : (enable initial l.name none).stdout = true := rfl
    simp [report, display, hd, hf, hc]

example : info.id ≠ error.id ∧ (¬ ∃ f ∈ initial.enabled, f.Asks info) ∧
    Plain "format ".toList ∧ ∃ x y, "x}".toList = x :: y ∧ x ≠ '{' ∧ x ≠ '}' := by
  refine ⟨by decide, ?_, by unfold Plain; decide, _, _, rfl, by decide, by decide⟩
  rintro ⟨f, hf, h⟩
  simp only [initial, List.mem_singleton] at hf
  subst hf
  exact absurd h.1 (by decide)

/-- A report at a sub-level of the error level is shown as an error but returns: only the
error level itself stops the generator. -/
theorem C135_sub_level_wrong (id : ℕ) (hid : id ≠ error.id) (sub msg t : Text) (as : List Text)
    (ht : fmt msg as = some t) (o : Out) :
    report initial (genSubLevel error id sub) msg as o =
      (.returned, { o with screen := o.screen ++ ["Error: ".toList ++ t] }) := by
  have hd : filterLevel initial.enabled (genSubLevel error id sub) = true :=
    (filterLevel_iff _ _).2 ⟨_, List.mem_singleton.2 rfl, rfl, Or.inl rfl⟩
  have hid' : (genSubLevel error id sub).id ≠ error.id := hid
  have hn : (genSubLevel error id sub).name ++ ": ".toList = "Error: ".toList := by
    show error.name ++ ": ".toList = _; decide
  have hs : initial.stream = false := rfl
  have ho : initial.stdout = true := rfl
  simp only [report, display, hd, ht, hs, ho, if_true, hn, if_neg hid']
  rfl

end Verif.LogRep
