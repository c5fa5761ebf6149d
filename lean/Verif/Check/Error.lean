import Verif.Check.Theorems
import Verif.Check.ErrorModel

/-! # C72: the largest error reported by the generated program -/

namespace Verif.Check

open Verif.Float (Fmt Val)

theorem isNaN_iff (v : Val) : isNaN v = true ↔ value v = none := by cases v <;> simp [isNaN, value]

theorem cLt_iff (a b : Val) : cLt a b = true ↔ ∃ p q, value a = some p ∧ value b = some q ∧ p < q := by
  simp only [cLt, Bool.and_eq_true, Bool.not_eq_true', Bool.eq_false_iff, ne_eq, cLe_iff]
  constructor
  · rintro ⟨⟨p, q, hp, hq, hle⟩, hn⟩
    refine ⟨p, q, hp, hq, lt_of_not_ge fun h => hn ⟨q, p, hq, hp, h⟩⟩
  · rintro ⟨p, q, hp, hq, hlt⟩
    refine ⟨⟨p, q, hp, hq, hlt.le⟩, ?_⟩
    rintro ⟨q', p', hq', hp', h⟩
    rw [hp] at hp'; rw [hq] at hq'
    cases hp'; cases hq'
    exact absurd hlt (not_lt.2 h)

/-- the invariant of the scalar loop on the tests seen so far -/
structure Inv (seen : List Err) (st : MaxSt) : Prop where
  valid : st.valid = true ↔ ∀ x ∈ seen, x.valid = true
  relNum : st.valid = true → ∃ m, value st.rel = some m ∧ (∀ x ∈ seen, ∀ p, value x.rel = some p → p ≤ m) ∧
    ((st.rel = .num (-1) ∧ st.index = none ∧ ∀ x ∈ seen, ∀ p, value x.rel = some p → p ≤ ((-1 : ℝ) : EReal)) ∨
      ∃ (i : ℕ) (x : Err), st.index = some i ∧ seen[i]? = some x ∧ st.rel = x.rel)
  absNum : ∃ m, value st.abs = some m ∧ (∀ x ∈ seen, ∀ p, value x.abs = some p → p ≤ m) ∧
    (st.abs = .num (-1) ∨ ∃ x ∈ seen, st.abs = x.abs)
  bad : st.valid = false → ∃ (i : ℕ) (x : Err), st.index = some i ∧ seen[i]? = some x ∧ x.valid = false

theorem inv_step {seen : List Err} {st : MaxSt} (h : Inv seen st) (x : Err) : Inv (seen ++ [x]) (maxStep st seen.length x) := by
  have hlast : (seen ++ [x])[seen.length]? = some x := by simp
  have hold : ∀ (i : ℕ) (y : Err), seen[i]? = some y → (seen ++ [x])[i]? = some y := by
    intro i y hy
    rw [List.getElem?_append_left (by exact (List.getElem?_eq_some_iff.1 hy).1)]
    exact hy
  have habs : ∃ m, value (maxStep st seen.length x).abs = some m ∧ (∀ y ∈ seen ++ [x], ∀ p, value y.abs = some p → p ≤ m) ∧
      ((maxStep st seen.length x).abs = .num (-1) ∨ ∃ y ∈ seen ++ [x], (maxStep st seen.length x).abs = y.abs) := by
    obtain ⟨m, hm, hle, hat⟩ := h.absNum
    by_cases hc : cLt st.abs x.abs = true
    · obtain ⟨p, q, hp, hq, hlt⟩ := (cLt_iff _ _).1 hc
      have hpm : p = m := by rw [hm] at hp; exact (Option.some.inj hp).symm
      refine ⟨q, by simp [maxStep, hc, hq], ?_, Or.inr ⟨x, by simp, by simp [maxStep, hc]⟩⟩
      intro y hy p' hp'
      rcases List.mem_append.1 hy with hy | hy
      · exact (hle y hy p' hp').trans (hpm ▸ hlt.le)
      · rw [List.mem_singleton.1 hy, hq] at hp'
        exact (Option.some.inj hp').ge
    · refine ⟨m, by simp [maxStep, hc, hm], ?_, ?_⟩
      · intro y hy p' hp'
        rcases List.mem_append.1 hy with hy | hy
        · exact hle y hy p' hp'
        · rw [List.mem_singleton.1 hy] at hp'
          by_contra hn
          exact hc ((cLt_iff _ _).2 ⟨m, p', hm, hp', not_le.1 hn⟩)
      · have hu : (maxStep st seen.length x).abs = st.abs := by simp [maxStep, hc]
        rw [hu]
        rcases hat with hat | ⟨y, hy, hat⟩
        · left; exact hat
        · right; exact ⟨y, by simp [hy], hat⟩
  have hvalid : (maxStep st seen.length x).valid = true ↔ ∀ y ∈ seen ++ [x], y.valid = true := by
    simp only [maxStep, Bool.and_eq_true, h.valid, List.mem_append, List.mem_singleton]
    constructor
    · rintro ⟨h1, h2⟩ y (hy | rfl)
      · exact h1 y hy
      · exact h2
    · intro hh
      exact ⟨fun y hy => hh y (Or.inl hy), hh x (Or.inr rfl)⟩
  refine ⟨hvalid, ?_, habs, ?_⟩
  · intro hv
    have hv' : st.valid = true ∧ x.valid = true := by simpa [maxStep] using hv
    obtain ⟨m, hm, hle, hat⟩ := h.relNum hv'.1
    by_cases hc : cLt st.rel x.rel = true
    · obtain ⟨p, q, hp, hq, hlt⟩ := (cLt_iff _ _).1 hc
      have hpm : p = m := by rw [hm] at hp; exact (Option.some.inj hp).symm
      have hu : (maxStep st seen.length x).rel = x.rel ∧ (maxStep st seen.length x).index = some seen.length := by
        simp [maxStep, hc, hv']
      refine ⟨q, by rw [hu.1, hq], ?_, Or.inr ⟨_, x, hu.2, hlast, hu.1⟩⟩
      intro y hy p' hp'
      rcases List.mem_append.1 hy with hy | hy
      · exact (hle y hy p' hp').trans (hpm ▸ hlt.le)
      · rw [List.mem_singleton.1 hy, hq] at hp'
        exact (Option.some.inj hp').ge
    · have hu : (maxStep st seen.length x).rel = st.rel ∧ (maxStep st seen.length x).index = st.index := by
        simp [maxStep, hc, hv']
      have hx : ∀ p', value x.rel = some p' → p' ≤ m := by
        intro p' hp'
        by_contra hn
        exact hc ((cLt_iff _ _).2 ⟨m, p', hm, hp', not_le.1 hn⟩)
      refine ⟨m, by rw [hu.1, hm], ?_, ?_⟩
      · intro y hy p' hp'
        rcases List.mem_append.1 hy with hy | hy
        · exact hle y hy p' hp'
        · rw [List.mem_singleton.1 hy] at hp'
          exact hx p' hp'
      · rcases hat with ⟨h1, h2, h3⟩ | ⟨i, y, h1, h2, h3⟩
        · left
          refine ⟨by rw [hu.1, h1], by rw [hu.2, h2], ?_⟩
          have hm1 : m = ((-1 : ℝ) : EReal) := by
            rw [h1] at hm
            simp only [value, Option.some.injEq] at hm
            rw [← hm]; norm_num
          intro y hy p' hp'
          rcases List.mem_append.1 hy with hy | hy
          · exact h3 y hy p' hp'
          · rw [List.mem_singleton.1 hy] at hp'
            exact hm1 ▸ hx p' hp'
        · right
          exact ⟨i, y, by rw [hu.2, h1], hold i y h2, by rw [hu.1, h3]⟩
  · intro hv
    by_cases hx : x.valid = false
    · exact ⟨seen.length, x, by simp [maxStep, hx], hlast, hx⟩
    · have hs : st.valid = false := by
        cases hsv : st.valid
        · rfl
        · exact absurd hv (by simp [maxStep, hsv, hx])
      obtain ⟨i, y, h1, h2, h3⟩ := h.bad hs
      exact ⟨i, y, by simp [maxStep, hs, hx, h1], hold i y h2, h3⟩

theorem inv_loop : ∀ (xs seen : List Err) (st : MaxSt), Inv seen st → Inv (seen ++ xs) (maxLoop seen.length xs st) := by
  intro xs
  induction xs with
  | nil => intro seen st h; simpa [maxLoop] using h
  | cons x xs ih =>
    intro seen st h
    have := ih (seen ++ [x]) _ (inv_step h x)
    simpa [maxLoop] using this

theorem inv_final (l : List Err) : Inv l (maxLoop 0 l {}) := by
  have h0 : Inv [] ({} : MaxSt) := by
    refine ⟨by simp, ?_, ?_, by simp⟩
    · intro _
      exact ⟨_, rfl, by simp, Or.inl ⟨rfl, rfl, by simp⟩⟩
    · exact ⟨_, rfl, by simp, Or.inl rfl⟩
  simpa using inv_loop l [] {} h0

/-- the loop, on the errors of the tests -/
theorem scalarMax_spec (l : List Err) :
    ((∃ x ∈ l, x.valid = false) → (scalarMax l).ret = .num (-2) ∧ ∃ i x, (scalarMax l).index = some i ∧ l[i]? = some x ∧ x.valid = false) ∧
    ((∀ x ∈ l, x.valid = true) → ∃ m, value (scalarMax l).ret = some m ∧ (∀ x ∈ l, ∀ p, value x.rel = some p → p ≤ m) ∧
      (((scalarMax l).ret = .num (-1) ∧ (scalarMax l).index = none ∧ ∀ x ∈ l, ∀ p, value x.rel = some p → p ≤ ((-1 : ℝ) : EReal)) ∨
        ∃ i x, (scalarMax l).index = some i ∧ l[i]? = some x ∧ (scalarMax l).ret = x.rel)) := by
  have h := inv_final l
  constructor
  · rintro ⟨x, hx, hxv⟩
    have hv : (maxLoop 0 l {}).valid = false := by
      by_contra hc
      have := h.valid.1 (by simpa using hc) x hx
      rw [hxv] at this
      exact absurd this (by simp)
    exact ⟨by simp [scalarMax, hv], h.bad hv⟩
  · intro hall
    have hv := h.valid.2 hall
    obtain ⟨m, hm, hle, hat⟩ := h.relNum hv
    have hr : (scalarMax l).ret = (maxLoop 0 l {}).rel := by simp [scalarMax, hv]
    exact ⟨m, by rw [hr, hm], hle, by rw [hr]; exact hat⟩

/-! ## The errors of the tests -/

/-- The relative error of `r` with respect to `e`, with the two roundings of the format: the difference, then the quotient by `r`. -/
def Quotient (F : Fmt) (r e : ℚ) (p : EReal) : Prop :=
  ∃ d, NearestEven F ((r - e : ℚ) : ℝ) d ∧
    ((¬ F.Finite d ∧ p = ⊤) ∨
     (F.Finite d ∧ ∃ q, NearestEven F ((d / r : ℚ) : ℝ) q ∧ ((¬ F.Finite q ∧ p = ⊤) ∨ (F.Finite q ∧ p = ((|q| : ℚ) : ℝ)))))

/-- The relative error of the result `r` when `e` is expected; it is not defined for an infinite result. -/
def RelError (F : Fmt) (r e p : EReal) : Prop :=
  (∃ a b : ℚ, r = ((a : ℝ) : EReal) ∧ e = ((b : ℝ) : EReal) ∧ a ≠ 0 ∧ Quotient F a b p) ∨
  (r = 0 ∧ e = 0 ∧ p = 0) ∨ (r = 0 ∧ e ≠ 0 ∧ p = ⊤) ∨ (r ≠ ⊤ ∧ r ≠ ⊥ ∧ r ≠ 0 ∧ (e = ⊤ ∨ e = ⊥) ∧ p = ⊤)

theorem coe_ne_top (v : ℚ) : ((v : ℝ) : EReal) ≠ ⊤ ∧ ((v : ℝ) : EReal) ≠ ⊥ := ⟨EReal.coe_ne_top _, EReal.coe_ne_bot _⟩

theorem coe_zero_iff (v : ℚ) : ((v : ℝ) : EReal) = 0 ↔ v = 0 := by
  rw [← EReal.coe_zero, EReal.coe_eq_coe_iff]; exact_mod_cast Iff.rfl

theorem coe_inj (v w : ℚ) : ((v : ℝ) : EReal) = ((w : ℝ) : EReal) ↔ v = w := by
  rw [EReal.coe_eq_coe_iff]; exact_mod_cast Iff.rfl

/-- the finite data -/
theorem value_finite {r : Val} (h1 : value r ≠ none) (h2 : isInf r = false) : value r = some (((numOf r : ℚ) : ℝ) : EReal) ∧ isNaN r = false := by
  cases r <;> simp [value, isInf, numOf, isNaN] at h1 h2 ⊢

theorem value_inf {r : Val} (h2 : isInf r = true) : (value r = some ⊤ ∨ value r = some ⊥) ∧ isNaN r = false := by
  cases r <;> simp [value, isInf, isNaN] at h2 ⊢

theorem fsub_finite {F : Fmt} {a b : Val} (ha : isInf a = false) (hb : isInf b = false) (na : isNaN a = false) (nb : isNaN b = false) :
    fsub F a b = sround F .RN ((numOf a - numOf b : ℚ) : ℝ) := by
  cases a <;> cases b <;> simp [isInf, isNaN] at ha hb na nb <;> simp [fsub, isNaN, numOf]

theorem absDiv_num {F : Fmt} {b : Val} (d : ℚ) (nb : isNaN b = false) (hb : isInf b = false) :
    absDiv F (.num d) b = if numOf b = 0 then (if d = 0 then .qNaN else .plusInf) else fabs (sround F .RN ((d / numOf b : ℚ) : ℝ)) := by
  have h1 : isNaN (.num d) = false := rfl
  have h2 : isInf (.num d) = false := rfl
  have h3 : numOf (.num d) = d := rfl
  simp only [absDiv, h1, h2, h3, nb, hb, Bool.or_self, Bool.false_eq_true, if_false]

theorem sround_cases (F : Fmt) (x : ℝ) :
    (|roundUnb F .RN x| ≤ Float.omega F ∧ sround F .RN x = .num (roundUnb F .RN x)) ∨
      (¬ |roundUnb F .RN x| ≤ Float.omega F ∧ isInf (sround F .RN x) = true ∧ fabs (sround F .RN x) = .plusInf) := by
  by_cases h : |roundUnb F .RN x| ≤ Float.omega F
  · left; exact ⟨h, by simp [sround, h]⟩
  · right
    refine ⟨h, ?_⟩
    by_cases h0 : 0 < roundUnb F .RN x <;> simp [sround, h, h0, isInf, fabs]

theorem cEq_iff (a b : Val) : cEq a b = true ↔ ∃ p, value a = some p ∧ value b = some p := by
  simp only [cEq, Bool.and_eq_true, cLe_iff]
  constructor
  · rintro ⟨⟨p, q, hp, hq, h1⟩, q', p', hq', hp', h2⟩
    rw [hp] at hp'; rw [hq] at hq'
    cases hp'; cases hq'
    exact ⟨p, hp, by rw [hq, le_antisymm h2 h1]⟩
  · rintro ⟨p, hp, hq⟩
    exact ⟨⟨p, p, hp, hq, le_refl _⟩, p, p, hq, hp, le_refl _⟩

/-- the error of a test -/
theorem crError_rel {F : Fmt} (he : 2 ≤ F.e) (hf : 1 ≤ F.f) {r e : Val} (hed : F.Datum e) (p : EReal) :
    value (crError F r e).rel = some p ↔ ∃ vr ve, value r = some vr ∧ value e = some ve ∧ RelError F vr ve p := by
  have hfin : ∀ x : ℝ, F.Finite (roundUnb F .RN x) ↔ |roundUnb F .RN x| ≤ Float.omega F := by
    intro x
    rw [finite_iff he]
    exact ⟨fun h => h.2, fun h => ⟨roundUnb_unb F _ x, h⟩⟩
  rcases hr0 : value r with _ | vr
  · have hn := (isNaN_iff r).2 hr0
    simp [crError, fsub, hn, relative, cEq, cLe, absDiv, value]
  rcases he0 : value e with _ | ve
  · have hn := (isNaN_iff e).2 he0
    have hq : fsub F r e = .qNaN := by simp [fsub, hn]
    have hq2 : absDiv F .qNaN r = .qNaN := by simp [absDiv, isNaN]
    simp [crError, hq, relative, cEq, cLe, hq2, value]
  simp only [Option.some.injEq, exists_eq_left', exists_and_left]
  by_cases hri : isInf r = true
  · -- an infinite result
    have hrel : value (crError F r e).rel = none := by
      have hre : ∀ s, (isNaN s = true ∨ isInf s = true) → value (relative F s r) = none := by
        intro s hs
        have h1 : cEq s .plusZero = false := by
          rcases hs with hs | hs <;> cases s <;> simp [isNaN, isInf, cEq, cLe] at hs ⊢
        have h2 : absDiv F s r = .qNaN := by
          rcases hs with hs | hs
          · simp [absDiv, hs]
          · simp only [absDiv, hs, hri, if_true]; split_ifs <;> rfl
        simp [relative, h1, h2, value]
      apply hre
      have hn := (value_inf hri).2
      cases r <;> cases e <;> simp [isInf, fsub, isNaN] at hri ⊢
    rw [hrel]
    constructor
    · intro h; exact absurd h (by simp)
    · intro h
      exfalso
      have hvr : vr = ⊤ ∨ vr = ⊥ := by
        rcases (value_inf hri).1 with h' | h' <;> rw [hr0] at h' <;> simp only [Option.some.injEq] at h'
        · exact Or.inl h'
        · exact Or.inr h'
      rcases h with ⟨a, b, h1, -⟩ | ⟨h1, -⟩ | ⟨h1, -⟩ | ⟨h1, h2, -⟩
      · rcases hvr with hv | hv <;> rw [hv] at h1
        · exact (coe_ne_top a).1 h1.symm
        · exact (coe_ne_top a).2 h1.symm
      · rcases hvr with hv | hv <;> rw [hv] at h1 <;> exact absurd h1 (by simp)
      · rcases hvr with hv | hv <;> rw [hv] at h1 <;> exact absurd h1 (by simp)
      · rcases hvr with hv | hv
        · exact h1 hv
        · exact h2 hv
  have hri' : isInf r = false := by simpa using hri
  obtain ⟨hrv, hrn⟩ := value_finite (by rw [hr0]; simp) hri'
  rw [hr0, Option.some.injEq] at hrv
  subst hrv
  have hra : ∀ s, isInf s = true → (absDiv F s r = .plusInf ∧ cEq s .plusZero = false) := by
    intro s hs
    constructor
    · simp [absDiv, (value_inf hs).2, hrn, hs, hri']
    · cases s <;> simp [isInf, cEq, cLe] at hs ⊢
  by_cases hei : isInf e = true
  · -- an infinite expected value
    have hs : isInf (fsub F r e) = true := by
      have hen := (value_inf hei).2
      cases r <;> cases e <;> simp [isInf, isNaN] at hri' hei hrn hen <;> simp [fsub, isInf, isNaN]
    have hrel : (crError F r e).rel = .plusInf := by
      simp [crError, relative, (hra _ hs).1, (hra _ hs).2]
    have hve : ve = ⊤ ∨ ve = ⊥ := by
      rcases (value_inf hei).1 with h' | h' <;> rw [he0] at h' <;> simp only [Option.some.injEq] at h'
      · exact Or.inl h'
      · exact Or.inr h'
    have hve0 : ve ≠ 0 := by rcases hve with h | h <;> simp [h]
    rw [hrel]
    show some ⊤ = some p ↔ _
    rw [Option.some.injEq]
    constructor
    · intro h
      right; right
      by_cases h0 : ((numOf r : ℝ) : EReal) = 0
      · left; exact ⟨h0, hve0, h.symm⟩
      · right; exact ⟨(coe_ne_top _).1, (coe_ne_top _).2, h0, hve, h.symm⟩
    · rintro (⟨a, b, -, h2, -⟩ | ⟨-, h2, -⟩ | ⟨-, -, h⟩ | ⟨-, -, -, -, h⟩)
      · rcases hve with hv | hv <;> rw [hv] at h2
        · exact absurd h2.symm (coe_ne_top b).1
        · exact absurd h2.symm (coe_ne_top b).2
      · exact absurd h2 hve0
      · exact h.symm
      · exact h.symm
  have hei' : isInf e = false := by simpa using hei
  obtain ⟨hev, hen⟩ := value_finite (by rw [he0]; simp) hei'
  rw [he0, Option.some.injEq] at hev
  subst hev
  have hsub := fsub_finite (F := F) hri' hei' hrn hen
  set a := numOf r with ha
  set b := numOf e with hb
  set d := roundUnb F .RN ((a - b : ℚ) : ℝ) with hd
  have hnd : NearestEven F ((a - b : ℚ) : ℝ) d := (nearest_iff hf).2 hd
  have hbF : F.Finite b := by
    cases e <;> simp [isNaN, isInf] at hen hei' <;> simp only [numOf] at hb
    · exact hb ▸ ⟨0, F.emin, by simp, le_refl _, Float.emin_le_emax F he, by simp⟩
    · exact hb ▸ ⟨0, F.emin, by simp, le_refl _, Float.emin_le_emax F he, by simp⟩
    · exact hb ▸ hed.1
  have ha0d : a = 0 → d = -b := by
    intro h0
    have hu : Unbounded F (-b) := by
      obtain ⟨m, E, h1, h2, h3⟩ := ((finite_iff he).1 hbF).1
      exact ⟨-m, E, by rwa [abs_neg], h2, by rw [h3]; push_cast; ring⟩
    rw [hd, h0, zero_sub]
    exact rn_of_unb hu
  have hRel : RelError F ((a : ℝ) : EReal) ((b : ℝ) : EReal) p ↔
      (a ≠ 0 ∧ Quotient F a b p) ∨ (a = 0 ∧ b = 0 ∧ p = 0) ∨ (a = 0 ∧ b ≠ 0 ∧ p = ⊤) := by
    unfold RelError
    simp only [coe_zero_iff, coe_inj, ne_eq]
    constructor
    · rintro (⟨a', b', h1, h2, h3⟩ | h | h | ⟨-, -, -, h, -⟩)
      · subst h1; subst h2; exact Or.inl h3
      · exact Or.inr (Or.inl h)
      · exact Or.inr (Or.inr h)
      · rcases h with h | h
        · exact absurd h (coe_ne_top _).1
        · exact absurd h (coe_ne_top _).2
    · rintro (h | h | h)
      · exact Or.inl ⟨a, b, rfl, rfl, h⟩
      · exact Or.inr (Or.inl h)
      · exact Or.inr (Or.inr (Or.inl h))
  rw [hRel]
  have hcr : cEq r .plusZero = true ↔ a = 0 := by
    rw [cEq_iff, hr0]
    simp only [value, Option.some.injEq]
    constructor
    · rintro ⟨q, h1, h2⟩; rw [← h2, coe_zero_iff] at h1; exact h1
    · intro h; exact ⟨0, (coe_zero_iff _).2 h, rfl⟩
  rcases sround_cases F ((a - b : ℚ) : ℝ) with ⟨hle, hs⟩ | ⟨hgt, hs, -⟩
  · rw [← hd] at hle hs
    have hdF : F.Finite d := (hfin _).2 hle
    have hcd : cEq (.num d) .plusZero = true ↔ d = 0 := by
      rw [cEq_iff]
      simp only [value, Option.some.injEq]
      constructor
      · rintro ⟨q, h1, h2⟩; rw [← h2, coe_zero_iff] at h1; exact h1
      · intro h; exact ⟨0, (coe_zero_iff _).2 h, rfl⟩
    by_cases h0 : a = 0
    · have hdb := ha0d h0
      by_cases hb0 : b = 0
      · have hd0 : d = 0 := by rw [hdb, hb0, neg_zero]
        have : (crError F r e).rel = r := by
          simp only [crError, hsub, hs, relative]
          rw [if_pos (by rw [Bool.and_eq_true]; exact ⟨hcd.2 hd0, hcr.2 h0⟩)]
        rw [this, hr0, Option.some.injEq]
        simp only [h0, hb0, ne_eq, not_true_eq_false, false_and, true_and, and_false, or_false, false_or, Rat.cast_zero, EReal.coe_zero]
        exact eq_comm
      · have hd0 : d ≠ 0 := by rw [hdb]; exact neg_ne_zero.2 hb0
        have : (crError F r e).rel = .plusInf := by
          simp only [crError, hsub, hs, relative]
          rw [if_neg (by rw [Bool.and_eq_true]; exact fun h => hd0 (hcd.1 h.1))]
          rw [absDiv_num d hrn hri', ← ha, if_pos h0, if_neg hd0]
        rw [this]
        show some ⊤ = some p ↔ _
        rw [Option.some.injEq]
        simp only [h0, hb0, ne_eq, not_true_eq_false, not_false_eq_true, false_and, true_and, and_false, or_false, false_or]
        exact eq_comm
    · have : (crError F r e).rel = fabs (sround F .RN ((d / a : ℚ) : ℝ)) := by
        simp only [crError, hsub, hs, relative]
        rw [if_neg (by rw [Bool.and_eq_true]; exact fun h => h0 (hcr.1 h.2))]
        rw [absDiv_num d hrn hri', ← ha, if_neg h0]
      rw [this]
      simp only [h0, ne_eq, not_false_eq_true, true_and, false_and, or_false]
      have hQ : Quotient F a b p ↔ ∃ q, NearestEven F ((d / a : ℚ) : ℝ) q ∧ ((¬ F.Finite q ∧ p = ⊤) ∨ (F.Finite q ∧ p = ((|q| : ℚ) : ℝ))) := by
        constructor
        · rintro ⟨d', h1, h2⟩
          have : d' = d := (nearest_iff hf).1 h1
          subst this
          rcases h2 with ⟨h2, -⟩ | ⟨-, h2⟩
          · exact absurd hdF h2
          · exact h2
        · intro h; exact ⟨d, hnd, Or.inr ⟨hdF, h⟩⟩
      rw [hQ]
      simp only [nearest_iff hf, exists_eq_left]
      rcases sround_cases F ((d / a : ℚ) : ℝ) with ⟨hle', hs'⟩ | ⟨hgt', -, hs'⟩
      · have hq := (hfin _).2 hle'
        rw [hs']
        show some _ = some p ↔ _
        rw [Option.some.injEq]
        simp only [hq, not_true_eq_false, false_and, true_and, false_or]
        exact eq_comm
      · have hq := (hfin _).not.2 hgt'
        rw [hs']
        show some _ = some p ↔ _
        rw [Option.some.injEq]
        simp only [hq, not_false_eq_true, true_and, false_and, or_false]
        exact eq_comm
  · have hdF : ¬ F.Finite d := (hfin _).not.2 hgt
    have h0 : a ≠ 0 := by
      intro h0
      apply hdF
      rw [ha0d h0]
      obtain ⟨m, E, h1, h2, h3, h4⟩ := hbF
      exact ⟨-m, E, by rwa [abs_neg], h2, h3, by rw [h4]; push_cast; ring⟩
    have : (crError F r e).rel = .plusInf := by
      simp only [crError, hsub, relative, (hra _ hs).1, (hra _ hs).2]
      simp
    rw [this]
    show some ⊤ = some p ↔ _
    rw [Option.some.injEq]
    simp only [h0, ne_eq, not_false_eq_true, true_and, false_and, or_false]
    constructor
    · intro h; exact ⟨d, hnd, Or.inl ⟨hdF, h.symm⟩⟩
    · rintro ⟨d', h1, h2⟩
      have : d' = d := (nearest_iff hf).1 h1
      subst this
      rcases h2 with ⟨-, h2⟩ | ⟨h2, -⟩
      · exact h2.symm
      · exact absurd h2 hdF

theorem crError_valid (F : Fmt) (r e : Val) : (crError F r e).valid = true ↔ (value r = none ↔ value e = none) := by
  cases r <;> cases e <;> simp [crError, errorValid, isNaN, value]

theorem relError_nonneg {F : Fmt} {r e p : EReal} (h : RelError F r e p) : 0 ≤ p := by
  rcases h with ⟨a, b, -, -, -, d, -, ⟨-, h⟩ | ⟨-, q, -, ⟨-, h⟩ | ⟨-, h⟩⟩⟩ | ⟨-, -, h⟩ | ⟨-, -, h⟩ | ⟨-, -, -, -, h⟩
  · rw [h]; exact le_top
  · rw [h]; exact le_top
  · rw [h, ← EReal.coe_zero, EReal.coe_le_coe_iff]; exact_mod_cast abs_nonneg q
  · rw [h]
  · rw [h]; exact le_top
  · rw [h]; exact le_top

/-- **C72** (a result that is NaN and should not be, or the reverse) The program returns −2, and the input it prints is one where this
happens. -/
theorem C72_scalar_invalid (F : Fmt) (l : List (Val × Val)) (h : ∃ t ∈ l, ¬ (value t.1 = none ↔ value t.2 = none)) :
    (scalarMax (l.map fun t => crError F t.1 t.2)).ret = .num (-2) ∧
      ∃ i t, (scalarMax (l.map fun t => crError F t.1 t.2)).index = some i ∧ l[i]? = some t ∧ ¬ (value t.1 = none ↔ value t.2 = none) := by
  obtain ⟨t, ht, hn⟩ := h
  obtain ⟨h1, i, x, h2, h3, h4⟩ := (scalarMax_spec (l.map fun t => crError F t.1 t.2)).1
    ⟨_, List.mem_map.2 ⟨t, ht, rfl⟩, by rw [Bool.eq_false_iff, ne_eq, crError_valid]; exact hn⟩
  rw [List.getElem?_map] at h3
  obtain ⟨u, hu, hx⟩ := Option.map_eq_some_iff.1 h3
  refine ⟨h1, i, u, h2, hu, ?_⟩
  rw [← hx, Bool.eq_false_iff, ne_eq, crError_valid] at h4
  exact h4

/-- **C72** (largest error) For results that are NaN exactly when they should be, the program returns a number at least as large as the
relative error of every test, which is the error of the test whose input it prints; it returns −1 if no test has an error.
Missing: a test with an infinite result has no error, see `C72_infinite_wrong`; the goals with two bounds, see `C72_degraded_wrong`. -/
theorem C72_scalar_partial {F : Fmt} (he : 2 ≤ F.e) (hf : 1 ≤ F.f) (l : List (Val × Val)) (hd : ∀ t ∈ l, F.Datum t.2)
    (hv : ∀ t ∈ l, value t.1 = none ↔ value t.2 = none) :
    ∃ m, value (scalarMax (l.map fun t => crError F t.1 t.2)).ret = some m ∧
      (∀ t ∈ l, ∀ r e p, value t.1 = some r → value t.2 = some e → RelError F r e p → p ≤ m) ∧
      ((m = ((-1 : ℝ) : EReal) ∧ (scalarMax (l.map fun t => crError F t.1 t.2)).index = none ∧
          ∀ t ∈ l, ∀ r e p, value t.1 = some r → value t.2 = some e → ¬ RelError F r e p) ∨
        ∃ i t r e, (scalarMax (l.map fun t => crError F t.1 t.2)).index = some i ∧ l[i]? = some t ∧ value t.1 = some r ∧ value t.2 = some e ∧
          RelError F r e m) := by
  obtain ⟨m, h1, h2, h3⟩ := (scalarMax_spec (l.map fun t => crError F t.1 t.2)).2 (by
    intro x hx
    obtain ⟨t, ht, rfl⟩ := List.mem_map.1 hx
    exact (crError_valid F _ _).2 (hv t ht))
  refine ⟨m, h1, ?_, ?_⟩
  · intro t ht r e p hr hee hp
    exact h2 _ (List.mem_map.2 ⟨t, ht, rfl⟩) p ((crError_rel he hf (hd t ht) p).2 ⟨r, e, hr, hee, hp⟩)
  · rcases h3 with ⟨h4, h5, h6⟩ | ⟨i, x, h4, h5, h6⟩
    · left
      refine ⟨?_, h5, ?_⟩
      · rw [h4] at h1
        simp only [value, Option.some.injEq] at h1
        rw [← h1]; norm_num
      · intro t ht r e p hr hee hp
        have := h6 _ (List.mem_map.2 ⟨t, ht, rfl⟩) p ((crError_rel he hf (hd t ht) p).2 ⟨r, e, hr, hee, hp⟩)
        have h0 := (relError_nonneg hp).trans this
        rw [← EReal.coe_zero, EReal.coe_le_coe_iff] at h0
        norm_num at h0
    · right
      rw [List.getElem?_map] at h5
      obtain ⟨t, ht, hx⟩ := Option.map_eq_some_iff.1 h5
      have hm : value (crError F t.1 t.2).rel = some m := by rw [hx, ← h6]; exact h1
      obtain ⟨r, e, hr, hee, hp⟩ := (crError_rel he hf (hd t (List.mem_of_getElem? ht)) m).1 hm
      exact ⟨i, t, r, e, h4, ht, hr, hee, hp⟩

theorem finite_of_value {v : Val} {c : ℚ} (hv : value v = some ((c : ℝ) : EReal)) : isInf v = false ∧ isNaN v = false ∧ numOf v = c := by
  cases v <;> simp [value, isInf, isNaN, numOf] at hv ⊢
  · exact ((coe_zero_iff c).1 hv.symm).symm
  · exact ((coe_zero_iff c).1 hv.symm).symm
  · exact hv

/-- the absolute error printed: the largest one -/
theorem absError_spec (l : List Err) : ∃ m, value (scalarMax l).abs = some m ∧ (∀ x ∈ l, ∀ p, value x.abs = some p → p ≤ m) ∧
    ((scalarMax l).abs = .num (-1) ∨ ∃ x ∈ l, (scalarMax l).abs = x.abs) := (inv_final l).absNum

/-- **C72** (absolute error) The absolute error the program prints is at least the difference of every finite result with its finite expected
value, rounded to the format. -/
theorem C72_scalar_absolute {F : Fmt} (he : 2 ≤ F.e) (hf : 1 ≤ F.f) (l : List (Val × Val)) :
    ∃ m, value (scalarMax (l.map fun t => crError F t.1 t.2)).abs = some m ∧
      ∀ t ∈ l, ∀ (a b d : ℚ), value t.1 = some ((a : ℝ) : EReal) → value t.2 = some ((b : ℝ) : EReal) → NearestEven F ((a - b : ℚ) : ℝ) d →
        (F.Finite d → (((|d| : ℚ) : ℝ) : EReal) ≤ m) ∧ (¬ F.Finite d → m = ⊤) := by
  obtain ⟨m, hm, hle, -⟩ := absError_spec (l.map fun t => crError F t.1 t.2)
  refine ⟨m, hm, ?_⟩
  intro t ht a b d ha hb hd
  obtain ⟨a1, a2, a3⟩ := finite_of_value ha
  obtain ⟨b1, b2, b3⟩ := finite_of_value hb
  have hs := fsub_finite (F := F) a1 b1 a2 b2
  rw [a3, b3] at hs
  have hx := hle _ (List.mem_map.2 ⟨t, ht, rfl⟩)
  simp only [crError, hs] at hx
  rw [nearest_iff hf] at hd
  have hfin : F.Finite d ↔ |d| ≤ Float.omega F := by
    rw [hd, finite_iff he]
    exact ⟨fun h => h.2, fun h => ⟨roundUnb_unb F _ _, h⟩⟩
  rcases sround_cases F ((a - b : ℚ) : ℝ) with ⟨h1, h2⟩ | ⟨h1, -, h2⟩ <;> rw [← hd] at h1 <;> rw [h2] at hx
  · rw [← hd] at hx
    exact ⟨fun _ => hx _ rfl, fun h => absurd (hfin.2 h1) h⟩
  · exact ⟨fun h => absurd (hfin.1 h) h1, fun _ => top_le_iff.1 (hx ⊤ rfl)⟩

/-- the results 2 and 0 where 1 and 0 are expected: the error is 1/2 -/
example : RelError b32 ((2 : ℝ) : EReal) ((1 : ℝ) : EReal) (((1 / 2 : ℚ) : ℝ) : EReal) ∧ RelError b32 0 0 0 := by
  refine ⟨Or.inl ⟨2, 1, by norm_num, by norm_num, by norm_num, 1, ?_, Or.inr ⟨?_, 1 / 2, ?_, Or.inr ⟨?_, by norm_num⟩⟩⟩, Or.inr (Or.inl ⟨rfl, rfl, rfl⟩)⟩
  · rw [nearest_iff (by norm_num), show (2 - 1 : ℚ) = 1 by norm_num]
    exact (rn_of_unb ⟨2 ^ 23, 0, by norm_num, by rw [b32_emin]; norm_num, by norm_num⟩).symm
  · exact ⟨2 ^ 23, 0, by norm_num, by rw [b32_emin]; norm_num, by rw [b32_emax]; norm_num, by norm_num⟩
  · rw [nearest_iff (by norm_num)]
    exact (rn_of_unb ⟨2 ^ 23, -1, by norm_num, by rw [b32_emin]; norm_num, by norm_num⟩).symm
  · exact ⟨2 ^ 23, -1, by norm_num, by rw [b32_emin]; norm_num, by rw [b32_emax]; norm_num, by norm_num⟩

/-! ## What the program misses -/

theorem maxLoop_append (l1 l2 : List Err) : ∀ i st, maxLoop i (l1 ++ l2) st = maxLoop (i + l1.length) l2 (maxLoop i l1 st) := by
  induction l1 with
  | nil => intro i st; simp [maxLoop]
  | cons x xs ih => intro i st; simp only [List.cons_append, maxLoop, ih, List.length_cons]; congr 1; omega

theorem isInf_nan {v : Val} (h : isInf v = true) : isNaN v = false := by cases v <;> simp [isInf, isNaN] at h ⊢

theorem inf_error {F : Fmt} {r e : Val} (hr : isInf r = true) (hed : value e ≠ none) :
    value (crError F r e).rel = none ∧ (crError F r e).valid = true := by
  refine ⟨?_, (crError_valid F r e).2 ?_⟩
  · have hs : ∀ s, (isNaN s = true ∨ isInf s = true) → value (relative F s r) = none := by
      intro s hs
      have h1 : cEq s .plusZero = false := by
        rcases hs with hs | hs <;> cases s <;> simp [isNaN, isInf, cEq, cLe] at hs ⊢
      have h2 : absDiv F s r = .qNaN := by
        rcases hs with hs | hs
        · simp [absDiv, hs]
        · simp only [absDiv, hs, hr, if_true]; split_ifs <;> rfl
      simp [relative, h1, h2, value]
    apply hs
    cases r <;> cases e <;> simp [isInf, fsub, isNaN] at hr ⊢
  · rw [← isNaN_iff, isInf_nan hr]
    exact ⟨fun h => absurd h (by simp), fun h => absurd h hed⟩

/-- C72 is false of infinite results: wherever such a test stands in the list, and whatever number is expected, the value returned is the
one without it. -/
theorem C72_infinite_wrong (F : Fmt) (l1 l2 : List (Val × Val)) {r e : Val} (hr : r = .plusInf ∨ r = .minusInf) (hed : value e ≠ none) :
    (scalarMax ((l1 ++ (r, e) :: l2).map fun t => crError F t.1 t.2)).ret = (scalarMax ((l1 ++ l2).map fun t => crError F t.1 t.2)).ret := by
  have hri : isInf r = true := by rcases hr with rfl | rfl <;> rfl
  obtain ⟨hn, hvd⟩ := inf_error (F := F) hri hed
  have hnolt : ∀ v, cLt v (crError F r e).rel = false := by
    intro v
    rw [Bool.eq_false_iff, ne_eq, cLt_iff]
    rintro ⟨p, q, -, hq, -⟩
    rw [hn] at hq; exact absurd hq (by simp)
  have same : ∀ (l : List Err) (i j : ℕ) (s t : MaxSt), s.valid = t.valid → s.rel = t.rel →
      (maxLoop i l s).valid = (maxLoop j l t).valid ∧ (maxLoop i l s).rel = (maxLoop j l t).rel := by
    intro l
    induction l with
    | nil => intro i j s t h1 h2; exact ⟨h1, h2⟩
    | cons x xs ih =>
      intro i j s t h1 h2
      apply ih
      · simp [maxStep, h1]
      · simp [maxStep, h1, h2]
  simp only [List.map_append, List.map_cons]
  set L1 := l1.map fun t => crError F t.1 t.2
  set L2 := l2.map fun t => crError F t.1 t.2
  simp only [scalarMax, maxLoop_append, maxLoop]
  obtain ⟨h1, h2⟩ := same L2 (0 + L1.length + 1) (0 + L1.length) (maxStep (maxLoop 0 L1 {}) (0 + L1.length) (crError F r e)) (maxLoop 0 L1 {})
    (by simp [maxStep, hvd]) (by simp [maxStep, hvd, hnolt])
  rw [h1, h2]

/-- In particular a function that overflows where it should return 1 has no error. -/
example (F : Fmt) : (scalarMax ([(.plusInf, .num 1)].map fun t => crError F t.1 t.2)).ret = .num (-1) := by
  have := C72_infinite_wrong F [] [] (r := .plusInf) (e := .num 1) (Or.inl rfl) (by simp [value])
  simpa [scalarMax, maxLoop] using this

/-- When no test has an error the program reads the inputs at index −1, out of the table. -/
theorem C72_index_wrong (F : Fmt) : (scalarMax ([(.qNaN, .qNaN)].map fun t => crError F t.1 t.2)).index = none := by
  simp [scalarMax, maxLoop, maxStep, crError, fsub, isNaN, relative, cEq, cLe, absDiv, cLt, errorValid]

/-! ## Vector functions -/

/-- the loop on lanes -/
theorem vec_spec (l : List Err) : ∀ st : Val × Val, (∃ m, value st.1 = some m) →
    ∃ m, value (l.foldl vecStep st).1 = some m ∧ (∀ q, value st.1 = some q → q ≤ m) ∧ (∀ x ∈ l, ∀ p, value x.rel = some p → p ≤ m) ∧
      ((l.foldl vecStep st).1 = st.1 ∨ ∃ x ∈ l, (l.foldl vecStep st).1 = x.rel) := by
  induction l with
  | nil =>
    rintro st ⟨m, hm⟩
    exact ⟨m, hm, fun q hq => by rw [hm] at hq; exact (Option.some.inj hq).ge, by simp, Or.inl rfl⟩
  | cons x xs ih =>
    rintro st ⟨m, hm⟩
    rw [List.foldl_cons]
    have hstep : (∃ m', value (vecStep st x).1 = some m' ∧ m ≤ m' ∧ ∀ p, value x.rel = some p → p ≤ m') ∧
        ((vecStep st x).1 = st.1 ∨ (vecStep st x).1 = x.rel) := by
      by_cases hn : isNaN x.rel = true
      · have h1 := (isNaN_iff _).1 hn
        simp [vecStep, hn, hm, h1]
      · rw [isNaN_iff] at hn
        obtain ⟨p, hp⟩ := Option.ne_none_iff_exists'.1 hn
        have hn' : isNaN x.rel = false := by rw [Bool.eq_false_iff, ne_eq, isNaN_iff]; exact hn
        by_cases hc : cLt st.1 x.rel = true
        · obtain ⟨a, b, ha, hb, hab⟩ := (cLt_iff _ _).1 hc
          rw [hm] at ha; cases ha
          have hv : (vecStep st x).1 = x.rel := by simp [vecStep, hn', cMax, hc]
          exact ⟨⟨b, by rw [hv, hb], hab.le, fun p hp => by rw [hb] at hp; exact (Option.some.inj hp).ge⟩, Or.inr hv⟩
        · have hv : (vecStep st x).1 = st.1 := by simp [vecStep, hn', cMax, hc]
          refine ⟨⟨m, by rw [hv, hm], le_refl _, ?_⟩, Or.inl hv⟩
          intro p hp
          by_contra hlt
          exact hc ((cLt_iff _ _).2 ⟨m, p, hm, hp, not_le.1 hlt⟩)
    obtain ⟨⟨m', hm', hle, hx⟩, hat⟩ := hstep
    obtain ⟨k, hk1, hk2, hk3, hk4⟩ := ih (vecStep st x) ⟨m', hm'⟩
    refine ⟨k, hk1, ?_, ?_, ?_⟩
    · intro q hq
      rw [hm] at hq; cases hq
      exact hle.trans (hk2 m' hm')
    · intro y hy p hp
      rcases List.mem_cons.1 hy with rfl | hy
      · exact (hx p hp).trans (hk2 m' hm')
      · exact hk3 y hy p hp
    · rcases hk4 with h | ⟨y, hy, h⟩
      · rcases hat with h' | h'
        · left; rw [h, h']
        · right; exact ⟨x, by simp, by rw [h, h']⟩
      · right; exact ⟨y, by simp [hy], h⟩

/-- **C72** (vector functions) The value returned is at least the relative error of every test, and is the error of one of them or −1.
Missing: infinite results, as for scalars, unexpected NaNs, see `C72_vector_nan_wrong`. -/
theorem C72_vector_partial {F : Fmt} (he : 2 ≤ F.e) (hf : 1 ≤ F.f) (l : List (Val × Val)) (hd : ∀ t ∈ l, F.Datum t.2) :
    ∃ m, value (vectorMax (l.map fun t => crError F t.1 t.2)).1 = some m ∧
      (∀ t ∈ l, ∀ r e p, value t.1 = some r → value t.2 = some e → RelError F r e p → p ≤ m) ∧
      (m = ((-1 : ℝ) : EReal) ∨ ∃ t ∈ l, ∃ r e, value t.1 = some r ∧ value t.2 = some e ∧ RelError F r e m) := by
  obtain ⟨m, h1, -, h2, h3⟩ := vec_spec (l.map fun t => crError F t.1 t.2) (.num (-1), .num (-1)) ⟨_, rfl⟩
  refine ⟨m, h1, ?_, ?_⟩
  · intro t ht r e p hr hee hp
    exact h2 _ (List.mem_map.2 ⟨t, ht, rfl⟩) p ((crError_rel he hf (hd t ht) p).2 ⟨r, e, hr, hee, hp⟩)
  · rcases h3 with h | ⟨x, hx, h⟩
    · left
      rw [h] at h1
      simp only [value, Option.some.injEq] at h1
      rw [← h1]; norm_num
    · right
      obtain ⟨t, ht, rfl⟩ := List.mem_map.1 hx
      rw [h] at h1
      obtain ⟨r, e, hr, hee, hp⟩ := (crError_rel he hf (hd t ht) m).1 h1
      exact ⟨t, ht, r, e, hr, hee, hp⟩

/-- C72 is false of vector functions that return NaNs: such a test changes nothing of what is returned or printed, where the scalar program
returns −2. -/
theorem C72_vector_nan_wrong (F : Fmt) (l1 l2 : List (Val × Val)) {r e : Val} (hr : value r = none) :
    vectorMax ((l1 ++ (r, e) :: l2).map fun t => crError F t.1 t.2) = vectorMax ((l1 ++ l2).map fun t => crError F t.1 t.2) := by
  have hn := (isNaN_iff r).2 hr
  have hs : fsub F r e = .qNaN := by simp [fsub, hn]
  have hv : ∀ st, vecStep st (crError F r e) = st := by
    intro st
    have h1 : isNaN (relative F .qNaN r) = true := by
      have hq : absDiv F .qNaN r = .qNaN := by simp [absDiv, isNaN]
      simp [relative, cEq, cLe, hq, isNaN]
    have h2 : isNaN (fabs .qNaN) = true := rfl
    simp only [vecStep, crError, hs, h1, h2, if_true]
  simp [vectorMax, List.foldl_append, hv]

theorem omega_nonneg {F : Fmt} (he : 2 ≤ F.e) : (0 : ℚ) ≤ Float.omega F := by
  have := (Float.C02_omega_is_greatest F he).2 0 ⟨0, F.emin, by simp, le_refl _, Float.emin_le_emax F he, by simp⟩
  simpa using this

theorem sround_finite {F : Fmt} (he : 2 ≤ F.e) {v : ℚ} (hv : F.Finite v) : sround F .RN (v : ℝ) = .num v := by
  obtain ⟨h1, h2⟩ := (finite_iff he).1 hv
  simp [sround, rn_of_unb h1, h2]

/-- C72 is false of what the vector program prints as the relative error: for the result 2 where 1 is expected it prints 1, and returns
1/2. -/
theorem C72_vector_print_wrong : (vectorMax ([(.num 2, .num 1)].map fun t => crError b32 t.1 t.2)).1 = .num (1 / 2) ∧
    (vectorMax ([(.num 2, .num 1)].map fun t => crError b32 t.1 t.2)).2.2 = .num 1 := by
  have f1 : b32.Finite 1 := ⟨2 ^ 23, 0, by norm_num, by rw [b32_emin]; norm_num, by rw [b32_emax]; norm_num, by norm_num⟩
  have f2 : b32.Finite (1 / 2) := ⟨2 ^ 23, -1, by norm_num, by rw [b32_emin]; norm_num, by rw [b32_emax]; norm_num, by norm_num⟩
  have h1 : fsub b32 (.num 2) (.num 1) = .num 1 := by
    rw [fsub_finite rfl rfl rfl rfl]
    show sround b32 .RN ((2 - 1 : ℚ) : ℝ) = _
    rw [show (2 - 1 : ℚ) = 1 by norm_num]
    exact sround_finite (by norm_num) f1
  have h2 : absDiv b32 (.num 1) (.num 2) = .num (1 / 2) := by
    rw [absDiv_num 1 rfl rfl]
    show (if (2 : ℚ) = 0 then _ else fabs (sround b32 .RN ((1 / 2 : ℚ) : ℝ))) = _
    rw [if_neg (by norm_num), sround_finite (by norm_num) f2]
    simp [fabs, abs_of_pos]
  have h3 : cEq (.num 1) .plusZero = false := by
    simp only [cEq, cLe, numOf]; decide
  have h4 : crError b32 (.num 2) (.num 1) = ⟨.num (1 / 2), .num 1, true⟩ := by
    simp [crError, h1, relative, h2, h3, fabs, errorValid, isNaN]
  simp only [List.map_cons, List.map_nil, h4, vectorMax, List.foldl_cons, List.foldl_nil, vecStep, isNaN, cMax, cLt, cLe, numOf]
  norm_num

/-! ## The goals with two bounds -/

theorem finite_zero {F : Fmt} (he : 2 ≤ F.e) : F.Finite 0 := ⟨0, F.emin, by simp, le_refl _, Float.emin_le_emax F he, by simp⟩

theorem fabs_value {s : Val} {v : ℚ} (h : value s = some ((v : ℝ) : EReal)) : value (fabs s) = some (((|v| : ℚ) : ℝ) : EReal) := by
  cases s <;> simp only [value, Option.some.injEq, reduceCtorEq] at h
  · exact absurd h.symm (coe_ne_top v).1
  · exact absurd h.symm (coe_ne_top v).2
  · have := (coe_zero_iff v).1 h.symm; subst this; simp [fabs, value]
  · have := (coe_zero_iff v).1 h.symm; subst this; simp [fabs, value]
  · have := (coe_inj _ _).1 h; subst this; simp [fabs, value]

theorem fsub_value {F : Fmt} (he : 2 ≤ F.e) {r s : Val} {a b : ℚ} (hr : value r = some ((a : ℝ) : EReal)) (hs : value s = some ((b : ℝ) : EReal))
    (hab : F.Finite (a - b)) : value (fabs (fsub F r s)) = some (((|a - b| : ℚ) : ℝ) : EReal) := by
  obtain ⟨a1, a2, a3⟩ := finite_of_value hr
  obtain ⟨b1, b2, b3⟩ := finite_of_value hs
  apply fabs_value
  rw [fsub_finite a1 b1 a2 b2, a3, b3, sround_finite he hab]
  rfl

/-- the difference of a number and of an infinity or a number is a number or the infinity -/
theorem fsub_nonneg {F : Fmt} {r s : Val} (hr : ∃ a : ℚ, value r = some ((a : ℝ) : EReal)) (hs : value s ≠ none) :
    ∃ p, value (fabs (fsub F r s)) = some p ∧ 0 ≤ p := by
  obtain ⟨a, ha⟩ := hr
  obtain ⟨a1, a2, a3⟩ := finite_of_value ha
  by_cases hi : isInf s = true
  · refine ⟨⊤, ?_, le_top⟩
    cases r <;> cases s <;> simp [isInf, isNaN] at a1 a2 hi <;> simp [fsub, isNaN, fabs, value]
  · have hi' : isInf s = false := by simpa using hi
    obtain ⟨h1, h2⟩ := value_finite hs hi'
    rw [fsub_finite a1 hi' a2 h2]
    rcases sround_cases F ((numOf r - numOf s : ℚ) : ℝ) with ⟨-, h⟩ | ⟨-, -, h⟩
    · rw [h]
      refine ⟨_, rfl, ?_⟩
      rw [← EReal.coe_zero, EReal.coe_le_coe_iff]
      exact_mod_cast abs_nonneg _
    · rw [h]; exact ⟨⊤, rfl, le_top⟩

theorem cMin_zero {a b : Val} {p q : EReal} (ha : value a = some p) (hb : value b = some q) (hp : 0 ≤ p) (hq : 0 ≤ q) (h0 : p = 0 ∨ q = 0) :
    value (cMin a b) = some 0 := by
  unfold cMin
  by_cases hc : cLt a b = true
  · obtain ⟨p', q', hp', hq', hlt⟩ := (cLt_iff _ _).1 hc
    rw [ha] at hp'; rw [hb] at hq'; cases hp'; cases hq'
    rw [if_pos hc, ha]
    rcases h0 with h0 | h0
    · rw [h0]
    · rw [h0] at hlt; exact absurd hlt (not_lt.2 hp)
  · rw [if_neg hc, hb]
    rcases h0 with h0 | h0
    · congr 1
      by_contra hne
      exact hc ((cLt_iff _ _).2 ⟨p, q, ha, hb, by rw [h0]; exact lt_of_le_of_ne hq (Ne.symm hne)⟩)
    · rw [h0]

/-- **C72** (faithful rounding) The absolute and relative errors of a faithful finite result are zero. -/
theorem C72_faithful {F : Fmt} (he : 2 ≤ F.e) (x : ℝ) {r : Val} {a : ℚ} (hd : F.Datum r) (hr : value r = some ((a : ℝ) : EReal))
    (hx : Faithful F x r) :
    let v := checkValues F .faithful (.real x)
    value (twoError F r (cell F v.1) (cell F v.2)).abs = some 0 ∧ value (twoError F r (cell F v.1) (cell F v.2)).rel = some 0 := by
  intro v
  have hv : v = (sround F .RD x, sround F .RU x) := rfl
  rw [hv]
  obtain ⟨hpd, p, hp, hpx, hpm⟩ := lo_spec he x
  obtain ⟨hqd, q, hq, hqx, hqm⟩ := hi_spec he x
  obtain ⟨w, hw, h⟩ := hx
  rw [hr, Option.some.injEq] at hw
  subst hw
  have hz : value (fabs (fsub F r (cell F (sround F .RD x)))) = some 0 ∨ value (fabs (fsub F r (cell F (sround F .RU x)))) = some 0 := by
    rcases h with ⟨h1, h2⟩ | ⟨h1, h2⟩
    · left
      have : p = ((a : ℝ) : EReal) := le_antisymm (h2 _ p hpd hp hpx) (hpm r _ hd hr h1)
      have h3 := fsub_value he hr (this ▸ hp) (by rw [sub_self]; exact finite_zero he)
      rw [h3]; simp
    · right
      have : q = ((a : ℝ) : EReal) := le_antisymm (hqm r _ hd hr h1) (h2 _ q hqd hq hqx)
      have h3 := fsub_value he hr (this ▸ hq) (by rw [sub_self]; exact finite_zero he)
      rw [h3]; simp
  obtain ⟨p1, hp1, hp0⟩ := fsub_nonneg (F := F) ⟨a, hr⟩ (s := cell F (sround F .RD x)) (by rw [hp]; simp)
  obtain ⟨q1, hq1, hq0⟩ := fsub_nonneg (F := F) ⟨a, hr⟩ (s := cell F (sround F .RU x)) (by rw [hq]; simp)
  have habs : value (twoError F r (cell F (sround F .RD x)) (cell F (sround F .RU x))).abs = some 0 := by
    apply cMin_zero hp1 hq1 hp0 hq0
    rcases hz with hz | hz
    · left; rw [hp1] at hz; exact Option.some.inj hz
    · right; rw [hq1] at hz; exact Option.some.inj hz
  refine ⟨habs, ?_⟩
  show value (relative F (twoError F r (cell F (sround F .RD x)) (cell F (sround F .RU x))).abs r) = some 0
  generalize (twoError F r (cell F (sround F .RD x)) (cell F (sround F .RU x))).abs = s at habs
  obtain ⟨a1, a2, a3⟩ := finite_of_value hr
  have hs0 : cEq s .plusZero = true := (cEq_iff _ _).2 ⟨0, habs, rfl⟩
  by_cases h0 : a = 0
  · have : cEq r .plusZero = true := (cEq_iff _ _).2 ⟨0, by rw [hr, h0]; simp, rfl⟩
    simp [relative, hs0, this, hr, h0]
  · have hn : cEq r .plusZero = false := by
      rw [Bool.eq_false_iff, ne_eq, cEq_iff]
      rintro ⟨y, h1, h2⟩
      rw [hr] at h1; cases h1
      simp only [value, Option.some.injEq] at h2
      exact h0 ((coe_zero_iff a).1 h2.symm)
    obtain ⟨b1, b2, b3⟩ := finite_of_value (v := s) (c := 0) (by simpa using habs)
    have hdv : absDiv F s r = fabs (sround F .RN ((0 : ℚ) : ℝ)) := by
      simp only [absDiv, b1, b2, b3, a1, a2, a3, Bool.or_self, Bool.false_eq_true, if_false, if_neg h0, zero_div]
    simp only [relative, hs0, hn, Bool.and_false, Bool.false_eq_true, if_false, hdv, sround_finite he (finite_zero he)]
    simp [fabs, value]

/-- C72 is false of the degraded goals: the error is the distance to the nearer of the two bounds. That of the correctly rounded result is
the whole tolerance, that of a result off by the tolerance is zero. -/
theorem C72_degraded_wrong {F : Fmt} (he : 2 ≤ F.e) (hf : 1 ≤ F.f) {x : ℝ} {c g : ℚ} (hx : NearestEven F x c) (hg : 0 < g) (hc : F.Finite c)
    (hgF : F.Finite g) (h1 : F.Finite (c - g)) (h2 : F.Finite (c + g)) :
    let v := checkValues F (.absolute g) (.real x)
    value (twoError F (.num c) (cell F v.1) (cell F v.2)).abs = some ((g : ℝ) : EReal) ∧
      value (twoError F (.num (c + g)) (cell F v.1) (cell F v.2)).abs = some 0 := by
  intro v
  have hom := Float.C02_omega_is_greatest F he
  have hsat : ∀ w : ℚ, F.Finite w → Float.saturate F w = .num w := by
    intro w hw
    unfold Float.saturate
    rw [if_neg (not_lt.2 (hom.2 w hw))]
  have hs : sround F .RN x = .num c := by
    rw [nearest_iff hf] at hx
    have := ((finite_iff he).1 hc).2
    simp [sround, this, ← hx]
  have hv : v = (.num (c - g), .num (c + g)) := by
    show checkValues F (.absolute g) (.real x) = _
    simp only [checkValues, hs, tolerance, abs_of_pos hg, hsat _ h1, hsat _ h2]
  have hcell : ∀ w : ℚ, F.Finite w → value (cell F (.num w)) = some ((w : ℝ) : EReal) := by
    intro w hw
    rw [cell_finite he hw]
    split_ifs with h
    · simp [value, h]
    · rfl
  have hneg : F.Finite (-g) := by
    obtain ⟨m, E, k1, k2, k3, k4⟩ := hgF
    exact ⟨-m, E, by rwa [abs_neg], k2, k3, by rw [k4]; push_cast; ring⟩
  rw [hv]
  simp only [twoError]
  constructor
  · have e1 := fsub_value he (r := .num c) rfl (hcell _ h1) (by rw [sub_sub_cancel]; exact hgF)
    have e2 := fsub_value he (r := .num c) rfl (hcell _ h2) (by rw [sub_add_cancel_left]; exact hneg)
    rw [sub_sub_cancel, abs_of_pos hg] at e1
    rw [sub_add_cancel_left, abs_neg, abs_of_pos hg] at e2
    unfold cMin
    split_ifs
    · exact e1
    · exact e2
  · have e2 := fsub_value he (r := .num (c + g)) rfl (hcell _ h2) (by rw [sub_self]; exact finite_zero he)
    rw [sub_self] at e2
    obtain ⟨p1, hp1, hp0⟩ := fsub_nonneg (F := F) (r := .num (c + g)) ⟨c + g, rfl⟩ (s := cell F (.num (c - g))) (by rw [hcell _ h1]; simp)
    exact cMin_zero hp1 e2 hp0 (by simp) (Or.inr (by simp))

/-- the value 4 with the tolerance 1 -/
example : let v := checkValues b32 (.absolute 1) (.real 4)
    value (twoError b32 (.num 4) (cell b32 v.1) (cell b32 v.2)).abs = some (((1 : ℚ) : ℝ) : EReal) ∧
      value (twoError b32 (.num (4 + 1)) (cell b32 v.1) (cell b32 v.2)).abs = some 0 := by
  have f : ∀ n : ℤ, 0 ≤ n → n < 8 → b32.Finite n := fun n h0 h8 => ⟨n * 2 ^ 20, 3, by rw [abs_of_nonneg (by positivity)]; norm_num; omega,
    by rw [b32_emin]; norm_num, by rw [b32_emax]; norm_num, by push_cast; norm_num [zpow_neg]; ring⟩
  have f4 : b32.Finite 4 := by exact_mod_cast f 4 (by norm_num) (by norm_num)
  refine C72_degraded_wrong (by norm_num) (by norm_num) ?_ one_pos f4 (by exact_mod_cast f 1 (by norm_num) (by norm_num)) ?_ ?_
  · rw [nearest_iff (by norm_num)]
    have := rn_of_unb ((finite_iff (by norm_num)).1 f4).1
    simpa using this.symm
  · rw [show (4 - 1 : ℚ) = (3 : ℤ) by norm_num]; exact f 3 (by norm_num) (by norm_num)
  · rw [show (4 + 1 : ℚ) = (5 : ℤ) by norm_num]; exact f 5 (by norm_num) (by norm_num)

end Verif.Check
