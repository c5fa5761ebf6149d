import Verif.Comp.Model
import Verif.Entity.Theorems

namespace Verif.Comp

open Verif.Entity (put get put_keys get_put)

/-- Invariants of histories. -/
theorem run_inv (Inv : World → List Op → Prop)
    (hstep : ∀ w ops op w', Inv w ops → step w op = some w' → Inv w' (ops ++ [op])) :
    ∀ (l : List Op) (w w' : World) (ops : List Op), Inv w ops → run l w = some w' → Inv w' (ops ++ l)
  | [], w, w', ops, h, hr => by cases hr; simpa using h
  | op :: l, w, w', ops, h, hr => by
    unfold run at hr
    cases hs : step w op with
    | none => rw [hs] at hr; cases hr
    | some w1 =>
      rw [hs] at hr
      have := run_inv Inv hstep l w1 w' (ops ++ [op]) (hstep w ops op w1 h hs) hr
      simpa using this

theorem step_inst {w w' : World} {c d : ℕ} {args : List ℕ} (h : step w (.inst c args d) = some w') :
    ∃ ins tags, collect (w.comps c) (w.dicts d) args.length = some (ins, tags) ∧
      w' = { w with
        next := fun a => if a = c then w.next a + 1 else w.next a
        insts := w.insts ++ [⟨c, w.next c, args ++ ins, tags, d⟩] } := by
  unfold step at h
  simp only [] at h
  cases hc : collect (w.comps c) (w.dicts d) args.length with
  | none => rw [hc] at h; cases h
  | some p =>
    rw [hc] at h
    simp only [Option.some.injEq] at h
    exact ⟨p.1, p.2, rfl, h.symm⟩

theorem step_set {w w' : World} {i k v : ℕ} (h : step w (.setInput i k v) = some w') :
    ∃ x, w.insts[i]? = some x ∧ k < x.inputs.length ∧
      w'.comps = w.comps ∧ w'.next = w.next ∧
      w'.insts = w.insts.set i { x with inputs := x.inputs.set k v } ∧
      w'.dicts = (match get x.tags k with
            | none => w.dicts
            | some t => fun a => if a = x.dict then put (w.dicts a) t v else w.dicts a) := by
  unfold step at h
  simp only [] at h
  cases hx : w.insts[i]? with
  | none => rw [hx] at h; cases h
  | some x =>
    rw [hx] at h
    simp only [] at h
    by_cases hk : k < x.inputs.length
    · rw [if_pos hk] at h
      simp only [Option.some.injEq] at h
      subst h
      exact ⟨x, rfl, hk, rfl, rfl, rfl, rfl⟩
    · rw [if_neg hk] at h; cases h

/-- **C139**: two instances of the same component never have the same identifier. -/
theorem C139_ids (w0 w : World) (ops : List Op) (h0 : w0.insts = []) (h : run ops w0 = some w)
    (i j : ℕ) (x y : Inst) (hx : w.insts[i]? = some x) (hy : w.insts[j]? = some y) (hij : i ≠ j)
    (hc : x.comp = y.comp) : x.id ≠ y.id := by
  have key := run_inv (fun w _ => (∀ (i : ℕ) (x : Inst), w.insts[i]? = some x → x.id < w.next x.comp) ∧
    ∀ (i j : ℕ) (x y : Inst), w.insts[i]? = some x → w.insts[j]? = some y → i ≠ j → x.comp = y.comp → x.id ≠ y.id)
    ?_ ops w0 w [] ⟨by simp [h0], by simp [h0]⟩ h
  · exact key.2 i j x y hx hy hij hc
  · rintro w _ op w' ⟨h1, h2⟩ hs
    cases op with
    | inst c args d =>
      obtain ⟨ins, tags, _, rfl⟩ := step_inst hs
      have hcase : ∀ (i : ℕ) (x : Inst), (w.insts ++ [(⟨c, w.next c, args ++ ins, tags, d⟩ : Inst)])[i]? = some x →
          (w.insts[i]? = some x ∧ i < w.insts.length) ∨
            (i = w.insts.length ∧ x = ⟨c, w.next c, args ++ ins, tags, d⟩) := by
        intro i x hx
        by_cases hi : i < w.insts.length
        · rw [List.getElem?_append_left hi] at hx; exact Or.inl ⟨hx, hi⟩
        · rw [List.getElem?_append_right (by omega)] at hx
          have := List.getElem?_eq_some_iff.1 hx
          obtain ⟨hlt, he⟩ := this
          simp at hlt
          exact Or.inr ⟨by omega, by simpa using he.symm⟩
      refine ⟨?_, ?_⟩
      · intro i x hx
        simp only []
        rcases hcase i x hx with ⟨hx, _⟩ | ⟨_, rfl⟩
        · have := h1 i x hx
          split <;> omega
        · simp
      · intro i j x y hx hy hij hc
        rcases hcase i x hx with ⟨hx, hi⟩ | ⟨hi, rfl⟩ <;> rcases hcase j y hy with ⟨hy, hj⟩ | ⟨hj, rfl⟩
        · exact h2 i j x y hx hy hij hc
        · have := h1 i x hx
          simp only [] at hc ⊢
          rw [hc] at this; omega
        · have := h1 j y hy
          simp only [] at hc ⊢
          rw [← hc] at this; omega
        · omega
    | setInput a k v =>
      obtain ⟨z, hz, _, _, hn, hin, _⟩ := step_set hs
      have hcase : ∀ (i : ℕ) (x : Inst), w'.insts[i]? = some x →
          ∃ x', w.insts[i]? = some x' ∧ x'.id = x.id ∧ x'.comp = x.comp := by
        intro i x hx
        rw [hin] at hx
        by_cases hi : a = i
        · subst hi
          have := List.getElem?_eq_some_iff.1 hx
          obtain ⟨hlt, he⟩ := this
          simp at he
          exact ⟨z, hz, by rw [← he], by rw [← he]⟩
        · rw [List.getElem?_set_ne hi] at hx
          exact ⟨x, hx, rfl, rfl⟩
      refine ⟨?_, ?_⟩
      · intro i x hx
        obtain ⟨x', hx', e1, e2⟩ := hcase i x hx
        rw [hn, ← e1, ← e2]; exact h1 i x' hx'
      · intro i j x y hx hy hij hc
        obtain ⟨x', hx', e1, e2⟩ := hcase i x hx
        obtain ⟨y', hy', e3, e4⟩ := hcase j y hy
        rw [← e1, ← e3]
        exact h2 i j x' y' hx' hy' hij (by rw [e2, e4, hc])

/-! ### Wiring -/

theorem get_cons (t v : ℕ) (l : List (ℕ × ℕ)) (m : ℕ) :
    get ((t, v) :: l) m = if t = m then some v else get l m := by
  unfold Verif.Entity.get
  rw [List.find?_cons]
  by_cases h : t = m <;> simp [h]

theorem get_mem {l : List (ℕ × ℕ)} {n v : ℕ} (h : get l n = some v) : (n, v) ∈ l := by
  unfold Verif.Entity.get at h
  obtain ⟨p, hp, hv⟩ := Option.map_eq_some_iff.1 h
  have h1 := List.mem_of_find?_eq_some hp
  have h2 := List.find?_some hp
  simp at h2
  rw [← h2, ← hv]; exact h1

theorem mem_get {l : List (ℕ × ℕ)} {n v : ℕ} (hnd : (l.map Prod.fst).Nodup) (h : (n, v) ∈ l) :
    get l n = some v := by
  induction l with
  | nil => cases h
  | cons p l ih =>
    obtain ⟨t, u⟩ := p
    rw [get_cons]
    simp only [List.map_cons, List.nodup_cons] at hnd
    rcases List.mem_cons.1 h with h | h
    · cases h; simp
    · rw [if_neg, ih hnd.2 h]
      intro he
      exact hnd.1 (he ▸ List.mem_map_of_mem (f := Prod.fst) h)

/-- What `collect` gives. -/
theorem collect_ok (c : Component) : ∀ (l : List (ℕ × ℕ)) (k : ℕ) (ins : List ℕ) (tags : List (ℕ × ℕ)),
    (l.map Prod.fst).Nodup → collect c l k = some (ins, tags) →
      (∀ j t, (j, t) ∈ tags ↔ ∃ i, j = k + i ∧ i < ins.length ∧ get l t = ins[i]? ∧
        specifier c t = some .input ∧ get tags j = some t) ∧
      (∀ t v, get l t = some v → specifier c t = some .input → ∃ j, (j, t) ∈ tags) ∧
      (∀ t v, get l t = some v → specifier c t ≠ none) ∧
      (tags.map Prod.fst).Nodup ∧ (tags.map Prod.snd).Nodup ∧
      (∀ j t, (j, t) ∈ tags → t ∈ l.map Prod.fst)
  | [], k, ins, tags, _, h => by
    simp only [collect, Option.some.injEq, Prod.mk.injEq] at h
    obtain ⟨rfl, rfl⟩ := h
    refine ⟨by intro j t; simp, by intro t v h; simp [Verif.Entity.get] at h, by intro t v h; simp [Verif.Entity.get] at h,
      by simp, by simp, by simp⟩
  | (t0, v0) :: l, k, ins, tags, hnd, h => by
    simp only [List.map_cons, List.nodup_cons] at hnd
    unfold collect at h
    cases hsp : specifier c t0 with
    | none => rw [hsp] at h; cases h
    | some dir =>
      rw [hsp] at h
      cases dir with
      | output =>
        simp only [] at h
        obtain ⟨i1, i2, i3, i4, i5, i6⟩ := collect_ok c l k ins tags hnd.2 h
        have hne : ∀ t, specifier c t = some .input → t0 ≠ t := by
          rintro t ht rfl; rw [hsp] at ht; cases ht
        refine ⟨?_, ?_, ?_, i4, i5, fun j t hm => List.mem_cons_of_mem _ (i6 j t hm)⟩
        · intro j t
          rw [i1]
          constructor
          · rintro ⟨i, a1, a2, a3, a4, a5⟩
            exact ⟨i, a1, a2, by rw [get_cons, if_neg (hne t a4)]; exact a3, a4, a5⟩
          · rintro ⟨i, a1, a2, a3, a4, a5⟩
            rw [get_cons, if_neg (hne t a4)] at a3
            exact ⟨i, a1, a2, a3, a4, a5⟩
        · intro t v hg ht
          rw [get_cons, if_neg (hne t ht)] at hg
          exact i2 t v hg ht
        · intro t v hg
          by_cases he : t0 = t
          · rw [← he, hsp]; simp
          · rw [get_cons, if_neg he] at hg; exact i3 t v hg
      | input =>
        simp only [] at h
        cases hr : collect c l (k + 1) with
        | none => rw [hr] at h; cases h
        | some p =>
          obtain ⟨ins', tags'⟩ := p
          rw [hr] at h
          simp only [Option.some.injEq, Prod.mk.injEq] at h
          obtain ⟨rfl, rfl⟩ := h
          obtain ⟨i1, i2, i3, i4, i5, i6⟩ := collect_ok c l (k + 1) ins' tags' hnd.2 hr
          have hk : k ∉ tags'.map Prod.fst := by
            intro hm
            obtain ⟨⟨a, b⟩, hp, he⟩ := List.mem_map.1 hm
            obtain ⟨i, a1, _⟩ := (i1 a b).1 hp
            simp at he; omega
          have ht : t0 ∉ tags'.map Prod.snd := by
            intro hm
            obtain ⟨⟨a, b⟩, hp, he⟩ := List.mem_map.1 hm
            simp at he
            exact hnd.1 (he ▸ i6 a b hp)
          refine ⟨?_, ?_, ?_, ?_, ?_, ?_⟩
          · intro j t
            constructor
            · intro hm
              rcases List.mem_cons.1 hm with he | hm
              · cases he
                exact ⟨0, by omega, by simp, by simp [get_cons], hsp, by simp [get_cons]⟩
              · obtain ⟨i, a1, a2, a3, a4, a5⟩ := (i1 j t).1 hm
                have hne : t0 ≠ t := fun he => hnd.1 (he ▸ i6 j t hm)
                exact ⟨i + 1, by omega, by simp; omega, by rw [get_cons, if_neg hne]; simpa using a3,
                  a4, by rw [get_cons, if_neg (by omega)]; exact a5⟩
            · rintro ⟨i, a1, a2, a3, a4, a5⟩
              exact get_mem a5
          · intro t v hg hti
            by_cases he : t0 = t
            · exact ⟨k, by rw [he]; simp⟩
            · rw [get_cons, if_neg he] at hg
              obtain ⟨j, hj⟩ := i2 t v hg hti
              exact ⟨j, List.mem_cons_of_mem _ hj⟩
          · intro t v hg
            by_cases he : t0 = t
            · rw [← he, hsp]; simp
            · rw [get_cons, if_neg he] at hg; exact i3 t v hg
          · simp only [List.map_cons, List.nodup_cons]; exact ⟨hk, i4⟩
          · simp only [List.map_cons, List.nodup_cons]; exact ⟨ht, i5⟩
          · intro j t hm
            rcases List.mem_cons.1 hm with he | hm
            · cases he; simp
            · exact List.mem_cons_of_mem _ (i6 j t hm)

/-- An instance is well wired: each port of the map belongs to the component; each input
port is wired to the operand kept for it; the other ports are as given. -/
structure Wired (w0 w : World) (x : Inst) : Prop where
  known : ∀ t, get (w0.dicts x.dict) t ≠ none → specifier (w.comps x.comp) t ≠ none
  input : ∀ t, get (w0.dicts x.dict) t ≠ none → specifier (w.comps x.comp) t = some .input →
    ∃ k, get x.tags k = some t ∧ k < x.inputs.length ∧ get (w.dicts x.dict) t = x.inputs[k]?
  output : ∀ t, specifier (w.comps x.comp) t ≠ some .input →
    get (w.dicts x.dict) t = get (w0.dicts x.dict) t
  tagsNodup : (x.tags.map Prod.fst).Nodup ∧ (x.tags.map Prod.snd).Nodup
  tagsInput : ∀ k t, get x.tags k = some t → specifier (w.comps x.comp) t = some .input

theorem wiring (w0 w : World) (ops : List Op) (h0 : w0.insts = [])
    (hd : ∀ d, ((w0.dicts d).map Prod.fst).Nodup) (h : run ops w0 = some w)
    (hu : (used ops).Nodup) : w.comps = w0.comps ∧
      (∀ (i : ℕ) (x : Inst), w.insts[i]? = some x → Wired w0 w x ∧ x.dict ∈ used ops) ∧
      (∀ d, d ∉ used ops → w.dicts d = w0.dicts d) ∧
      ∀ (i j : ℕ) (x y : Inst), w.insts[i]? = some x → w.insts[j]? = some y → i ≠ j → x.dict ≠ y.dict := by
  have key := run_inv (fun w ops => (used ops).Nodup → w.comps = w0.comps ∧
      (∀ (i : ℕ) (x : Inst), w.insts[i]? = some x → Wired w0 w x ∧ x.dict ∈ used ops) ∧
      (∀ d, d ∉ used ops → w.dicts d = w0.dicts d) ∧
      ∀ (i j : ℕ) (x y : Inst), w.insts[i]? = some x → w.insts[j]? = some y → i ≠ j → x.dict ≠ y.dict)
    ?_ ops w0 w [] (fun _ => ⟨rfl, by simp [h0], fun _ _ => rfl, by simp [h0]⟩) h
  · simpa using key (by simpa using hu)
  · intro w ops op w' hi hs hnd
    cases op with
    | inst c args d =>
      have hus : used (ops ++ [.inst c args d]) = used ops ++ [d] := by simp [used]
      rw [hus] at hnd ⊢
      obtain ⟨hnd1, _, hnd2⟩ := List.nodup_append.1 hnd
      have hdn : d ∉ used ops := fun hm => hnd2 d hm d (by simp) rfl
      obtain ⟨hcm, hw, hk, hdist⟩ := hi hnd1
      obtain ⟨ins, tags, hc, rfl⟩ := step_inst hs
      rw [hk d hdn] at hc
      obtain ⟨c1, c2, c3, c4, c5, _⟩ := collect_ok _ _ _ _ _ (hd d) hc
      have hcase : ∀ (i : ℕ) (x : Inst), (w.insts ++ [(⟨c, w.next c, args ++ ins, tags, d⟩ : Inst)])[i]? = some x →
          (w.insts[i]? = some x ∧ i < w.insts.length) ∨
            (i = w.insts.length ∧ x = ⟨c, w.next c, args ++ ins, tags, d⟩) := by
        intro i x hx
        by_cases hi : i < w.insts.length
        · rw [List.getElem?_append_left hi] at hx; exact Or.inl ⟨hx, hi⟩
        · rw [List.getElem?_append_right (by omega)] at hx
          obtain ⟨hlt, he⟩ := List.getElem?_eq_some_iff.1 hx
          simp at hlt
          exact Or.inr ⟨by omega, by simpa using he.symm⟩
      refine ⟨hcm, ?_, ?_, ?_⟩
      · intro i x hx
        rcases hcase i x hx with ⟨hx, _⟩ | ⟨_, rfl⟩
        · obtain ⟨h1, h2⟩ := hw i x hx
          exact ⟨⟨h1.known, h1.input, h1.output, h1.tagsNodup, h1.tagsInput⟩,
            List.mem_append.2 (Or.inl h2)⟩
        · refine ⟨⟨?_, ?_, ?_, ⟨c4, c5⟩, ?_⟩, by simp⟩
          · intro t ht
            obtain ⟨v, hv⟩ := Option.ne_none_iff_exists'.1 ht
            exact c3 t v hv
          · intro t ht hti
            obtain ⟨v, hv⟩ := Option.ne_none_iff_exists'.1 ht
            obtain ⟨j, hj⟩ := c2 t v hv hti
            obtain ⟨i, a1, a2, a3, a4, a5⟩ := (c1 j t).1 hj
            refine ⟨j, a5, by simp; omega, ?_⟩
            simp only []
            rw [hk d hdn, a3, List.getElem?_append_right (by omega), a1]
            congr 1; omega
          · intro t _
            simp only []
            rw [hk d hdn]
          · intro k t hkt
            obtain ⟨i, _, _, _, a4, _⟩ := (c1 k t).1 (get_mem hkt)
            exact a4
      · intro d' hd'
        exact hk d' (fun hm => hd' (List.mem_append.2 (Or.inl hm)))
      · intro i j x y hx hy hij
        rcases hcase i x hx with ⟨hx, hi⟩ | ⟨hi, rfl⟩ <;> rcases hcase j y hy with ⟨hy, hj⟩ | ⟨hj, rfl⟩
        · exact hdist i j x y hx hy hij
        · intro he; have he : x.dict = d := he; exact hdn (he ▸ (hw i x hx).2)
        · intro he; have he : d = y.dict := he; exact hdn (he ▸ (hw j y hy).2)
        · omega
    | setInput a k v =>
      have hus : used (ops ++ [.setInput a k v]) = used ops := by simp [used]
      rw [hus] at hnd ⊢
      obtain ⟨hcm, hw, hk, hdist⟩ := hi hnd
      obtain ⟨z, hz, hkz, e1, _, e3, e4⟩ := step_set hs
      obtain ⟨wz, uz⟩ := hw a z hz
      have hcase : ∀ (i : ℕ) (x : Inst), w'.insts[i]? = some x →
          (i = a ∧ x = { z with inputs := z.inputs.set k v }) ∨ (i ≠ a ∧ w.insts[i]? = some x) := by
        intro i x hx
        rw [e3] at hx
        by_cases hi : a = i
        · subst hi
          obtain ⟨hlt, he⟩ := List.getElem?_eq_some_iff.1 hx
          simp at he
          exact Or.inl ⟨rfl, he.symm⟩
        · rw [List.getElem?_set_ne hi] at hx
          exact Or.inr ⟨Ne.symm hi, hx⟩
      have hother : ∀ d', d' ≠ z.dict → w'.dicts d' = w.dicts d' := by
        intro d' hd'
        rw [e4]
        split
        · rfl
        · simp [hd']
      refine ⟨by rw [e1, hcm], ?_, ?_, ?_⟩
      · intro i x hx
        rcases hcase i x hx with ⟨rfl, rfl⟩ | ⟨hne, hx⟩
        · refine ⟨⟨?_, ?_, ?_, wz.tagsNodup, ?_⟩, uz⟩
          · rw [e1]; exact wz.known
          · intro t ht hti
            rw [e1] at hti
            obtain ⟨j, a1, a2, a3⟩ := wz.input t ht hti
            refine ⟨j, a1, by simpa using a2, ?_⟩
            simp only []
            rw [e4]
            by_cases hjk : j = k
            · subst hjk
              rw [a1]
              simp only [if_true, get_put]
              simp [a2]
            · rw [List.getElem?_set_ne (Ne.symm hjk), ← a3]
              cases hg : get z.tags k with
              | none => rfl
              | some t' =>
                simp only [if_true, get_put]
                rw [if_neg]
                rintro rfl
                have m1 := get_mem a1
                have m2 := get_mem hg
                have := List.inj_on_of_nodup_map wz.tagsNodup.2 m1 m2 rfl
                cases this
                exact hjk rfl
          · intro t hti
            rw [e1] at hti
            rw [← wz.output t hti]
            simp only []
            rw [e4]
            cases hg : get z.tags k with
            | none => rfl
            | some t' =>
              simp only [if_true, get_put]
              rw [if_neg]
              rintro rfl
              exact hti (wz.tagsInput k t' hg)
          · rw [e1]; exact wz.tagsInput
        · obtain ⟨wx, ux⟩ := hw i x hx
          have hdx : x.dict ≠ z.dict := hdist i a x z hx hz hne
          refine ⟨⟨?_, ?_, ?_, wx.tagsNodup, ?_⟩, ux⟩
          · rw [e1]; exact wx.known
          · rw [e1, hother _ hdx]; exact wx.input
          · rw [e1, hother _ hdx]; exact wx.output
          · rw [e1]; exact wx.tagsInput
      · intro d' hd'
        rw [hother d' (fun he => hd' (he ▸ uz))]
        exact hk d' hd'
      · intro i j x y hx hy hij
        rcases hcase i x hx with ⟨rfl, rfl⟩ | ⟨hne, hx⟩ <;> rcases hcase j y hy with ⟨rfl, rfl⟩ | ⟨hne', hy⟩
        · omega
        · exact fun he => hdist i j z y hz hy hij he
        · exact hdist i j x z hx hz hij
        · exact hdist i j x y hx hy hij

/-- **C139**: as long as each instance is given its own dictionary, whatever operands are
replaced later and in which order, the port map generated for an instance wires each
input port to the present operand kept for this port, and the output ports to the signals
given when the instance was made.  All the ports of the map are ports of the component.
What is missing: C139_shared_wrong. -/
theorem C139_wiring_partial (w0 w : World) (ops : List Op) (h0 : w0.insts = [])
    (hd : ∀ d, ((w0.dicts d).map Prod.fst).Nodup) (h : run ops w0 = some w)
    (hu : (used ops).Nodup) (i : ℕ) (x : Inst) (hx : w.insts[i]? = some x) (t : ℕ)
    (ht : get (w0.dicts x.dict) t ≠ none) :
    specifier (w0.comps x.comp) t ≠ none ∧
    (specifier (w0.comps x.comp) t = some .input →
      ∃ k, get x.tags k = some t ∧ k < x.inputs.length ∧ get (portMap w x) t = x.inputs[k]?) ∧
    (specifier (w0.comps x.comp) t = some .output →
      get (portMap w x) t = get (w0.dicts x.dict) t) := by
  obtain ⟨hc, hw, _, _⟩ := wiring w0 w ops h0 hd h hu
  obtain ⟨wx, _⟩ := hw i x hx
  rw [← hc]
  exact ⟨wx.known t ht, wx.input t ht, fun ho => wx.output t (by rw [ho]; simp)⟩

/-- **C139**: two ports never share the operand kept for them. -/
theorem C139_separate (w0 w : World) (ops : List Op) (h0 : w0.insts = [])
    (hd : ∀ d, ((w0.dicts d).map Prod.fst).Nodup) (h : run ops w0 = some w)
    (hu : (used ops).Nodup) (i : ℕ) (x : Inst) (hx : w.insts[i]? = some x) :
    ∀ k k' t, get x.tags k = some t → get x.tags k' = some t → k = k' := by
  obtain ⟨_, hw, _, _⟩ := wiring w0 w ops h0 hd h hu
  obtain ⟨wx, _⟩ := hw i x hx
  intro k k' t h1 h2
  have := List.inj_on_of_nodup_map wx.tagsNodup.2 (get_mem h1) (get_mem h2) rfl
  cases this; rfl

/-- **C139**: a port which the component does not have is refused. -/
theorem C139_unknown (w : World) (c d : ℕ) (args : List ℕ) (t v : ℕ)
    (hd : ((w.dicts d).map Prod.fst).Nodup) (ht : get (w.dicts d) t = some v)
    (hn : specifier (w.comps c) t = none) : step w (.inst c args d) = none := by
  cases hs : step w (.inst c args d) with
  | none => rfl
  | some w' =>
    obtain ⟨ins, tags, hc, _⟩ := step_inst hs
    exact absurd hn ((collect_ok _ _ _ _ _ hd hc).2.2.1 t v ht)

/-! ### Declarations -/

theorem foldl_put (f : Inst → ℕ) (g : Inst → ℕ) : ∀ (l : List Inst) (t : List (ℕ × ℕ)) (n : ℕ),
    (∀ x ∈ l, ∀ y ∈ l, f x = f y → g x = g y) →
    ∀ x ∈ l, f x = n → get (l.foldl (fun t y => put t (f y) (g y)) t) n = some (g x)
  | [], _, _, _, x, hx, _ => by cases hx
  | y :: l, t, n, hfg, x, hx, hn => by
    rw [List.foldl_cons]
    by_cases hm : ∃ z ∈ l, f z = n
    · obtain ⟨z, hz, hzn⟩ := hm
      rw [foldl_put f g l _ n (fun a ha b hb => hfg a (List.mem_cons_of_mem _ ha) b
        (List.mem_cons_of_mem _ hb)) z hz hzn]
      rw [hfg z (List.mem_cons_of_mem _ hz) x hx (hzn.trans hn.symm)]
    · have hxy : x = y := by
        rcases List.mem_cons.1 hx with h | h
        · exact h
        · exact absurd ⟨x, h, hn⟩ hm
      subst hxy
      have hkeep : ∀ (l : List Inst) (t : List (ℕ × ℕ)), (∀ z ∈ l, f z ≠ n) →
          get (l.foldl (fun t y => put t (f y) (g y)) t) n = get t n := by
        intro l
        induction l with
        | nil => intro t _; rfl
        | cons z l ih =>
          intro t hz
          rw [List.foldl_cons, ih _ (fun a ha => hz a (List.mem_cons_of_mem _ ha)), get_put,
            if_neg (hz z (by simp))]
      rw [hkeep l _ (fun z hz he => hm ⟨z, hz, he⟩), get_put, if_pos hn]

/-- **C139**: when different components have different names, the declaration found for
the name of each instance is that of its component.
What is missing: C139_same_name_wrong. -/
theorem C139_declared_partial (w : World)
    (hn : ∀ x ∈ w.insts, ∀ y ∈ w.insts, (w.comps x.comp).name = (w.comps y.comp).name →
      x.comp = y.comp) (x : Inst) (hx : x ∈ w.insts) :
    get (declared w w.insts) (w.comps x.comp).name = some x.comp := by
  exact foldl_put (fun y => (w.comps y.comp).name) (fun y => y.comp) w.insts [] _ hn x hx rfl

/-! ### Cases -/

/-- Two components with the same name and different ports; three dictionaries. -/
def w0 : World where
  comps c := if c = 0 then ⟨9, [(1, .input), (2, .output)]⟩ else ⟨9, [(1, .input), (3, .input), (2, .output)]⟩
  next _ := 0
  dicts d := if d = 0 then [(1, 10), (2, 20)] else if d = 1 then [(2, 21), (1, 11), (3, 12)]
    else if d = 2 then [(2, 20)] else []
  insts := []

/-- Two instances made with the same dictionary: replacing the operand of the first
changes the wiring of the second, whose operand is unchanged. -/
theorem C139_shared_wrong : ∃ (ops : List Op) (w : World) (x : Inst),
    run ops w0 = some w ∧ w.insts[1]? = some x ∧ x.inputs = [10] ∧ get x.tags 0 = some 1 ∧
    get (portMap w x) 1 = some 77 :=
  ⟨[.inst 0 [] 0, .inst 0 [] 0, .setInput 0 0 77], _, _, rfl, rfl, rfl, rfl, rfl⟩

/-- Two components with the same name: one declaration is left, for the second. -/
theorem C139_same_name_wrong : ∃ (ops : List Op) (w : World) (x y : Inst),
    run ops w0 = some w ∧ w.insts = [x, y] ∧ (w.comps x.comp).ports ≠ (w.comps y.comp).ports ∧
    declared w w.insts = [(9, y.comp)] :=
  ⟨[.inst 0 [] 0, .inst 1 [] 1], _, _, _, rfl, rfl, by decide, rfl⟩

/-- An instance which leaves an input of its component without a signal is accepted. -/
theorem C139_missing_wrong : ∃ (w : World) (x : Inst), run [.inst 0 [] 2] w0 = some w ∧
    w.insts = [x] ∧ specifier (w.comps x.comp) 1 = some .input ∧ get (portMap w x) 1 = none :=
  ⟨_, _, rfl, rfl, by decide, by decide⟩

example : ∀ d, ((w0.dicts d).map Prod.fst).Nodup := by
  intro d
  unfold w0
  simp only []
  split
  · decide
  · split
    · decide
    · split <;> decide
example : used [.inst 0 [] 0, .inst 1 [5] 1, .setInput 1 2 77] = [0, 1] := by decide
example : ((run [.inst 0 [] 0, .inst 1 [5] 1, .setInput 1 2 77] w0).map fun w =>
    w.insts.map fun x => (x.inputs, x.tags, portMap w x)) =
    some [([10], [(0, 1)], [(1, 10), (2, 20)]),
      ([5, 11, 77], [(1, 1), (2, 3)], [(2, 21), (1, 11), (3, 77)])] := by decide
example : step w0 (.inst 0 [] 1) = none := rfl
/-- Different components with different names, both declared. -/
example : ((run [.inst 0 [] 0, .inst 1 [5] 1, .inst 0 [] 2]
    { w0 with comps := fun c => { w0.comps c with name := c } }).map fun w => declared w w.insts) =
    some [(0, 0), (1, 1)] := by decide

end Verif.Comp
