import Verif.Gappa.Lemmas

namespace Verif.Gappa

open Verif.Names (Name indexed)

/-- The nodes of the two copies. -/
def both (bs : List Bnd) (d : ℕ → E) (n : ℕ) : E :=
  if n % 2 = 0 then approxCopy (d (n / 2)) else exactCopy bs (d (n / 2))

theorem both_even (bs : List Bnd) (d : ℕ → E) (i : ℕ) : both bs d (2 * i) = approxCopy (d i) := by
  unfold both
  rw [if_pos (by omega), show 2 * i / 2 = i by omega]

theorem both_odd (bs : List Bnd) (d : ℕ → E) (i : ℕ) : both bs d (2 * i + 1) = exactCopy bs (d i) := by
  unfold both
  rw [if_neg (by omega), show (2 * i + 1) / 2 = i by omega]

theorem shares_approx (bs : List Bnd) (d : ℕ → E) (e : E) (h : Shares d e) : Shares (both bs d) (approxCopy e) := by
  induction e with
  | var i t p => simp only [approxCopy, Shares, both_even]; rw [show d i = _ from h]; rfl
  | cst i v p => simp only [approxCopy, Shares, both_even]; rw [show d i = _ from h]; rfl
  | bin i o p t a b iha ihb =>
    exact ⟨by rw [both_even, h.1]; rfl, iha h.2.1, ihb h.2.2⟩
  | fma i s p t a b c iha ihb ihc =>
    exact ⟨by rw [both_even, h.1]; rfl, iha h.2.1, ihb h.2.2.1, ihc h.2.2.2⟩
  | neg i p t a iha => exact ⟨by rw [both_even, h.1]; rfl, iha h.2⟩
  | conv i p t a iha => exact ⟨by rw [both_even, h.1]; rfl, iha h.2⟩
  | rint i p t a iha => exact ⟨by rw [both_even, h.1]; rfl, iha h.2⟩

theorem shares_exact (bs : List Bnd) (d : ℕ → E) (e : E) (h : Shares d e) : Shares (both bs d) (exactCopy bs e) := by
  induction e with
  | var i t p => simp only [exactCopy, Shares, both_odd]; rw [show d i = _ from h]; rfl
  | cst i v p => simp only [exactCopy, Shares, both_odd]; rw [show d i = _ from h]; rfl
  | bin i o p t a b iha ihb =>
    exact ⟨by rw [both_odd, h.1]; rfl, iha h.2.1, ihb h.2.2⟩
  | fma i s p t a b c iha ihb ihc =>
    exact ⟨by rw [both_odd, h.1]; rfl, iha h.2.1, ihb h.2.2.1, ihc h.2.2.2⟩
  | neg i p t a iha => exact ⟨by rw [both_odd, h.1]; rfl, iha h.2⟩
  | conv i p t a iha => exact ⟨by rw [both_odd, h.1]; rfl, iha h.2⟩
  | rint i p t a iha => exact ⟨by rw [both_odd, h.1]; rfl, iha h.2⟩

/-- No two bounds have the same variable, and no two names of the script are the same. -/
structure Distinct (bs : List Bnd) : Prop where
  ids : (bs.map (·.id)).Nodup
  names : (varNames bs).Nodup

theorem same_id {bs : List Bnd} (h : Distinct bs) {b c : Bnd} (hb : b ∈ bs) (hc : c ∈ bs) (he : b.id = c.id) : b = c :=
  List.inj_on_of_nodup_map h.ids hb hc he

theorem same_tag {bs : List Bnd} (h : Distinct bs) {b c : Bnd} (hb : b ∈ bs) (hc : c ∈ bs) (he : b.tag = c.tag) : b = c :=
  List.inj_on_of_nodup_map (List.Nodup.of_append_left h.names) hb hc he

theorem exactTag_eq {bs : List Bnd} (h : Distinct bs) {b : Bnd} (hb : b ∈ bs) (t : Name) :
    exactTag bs b.id t = if b.err.isSome then under t else t := by
  unfold exactTag
  cases hf : bs.find? (fun c => decide (c.id = b.id)) with
  | none =>
    rw [List.find?_eq_none] at hf
    exact absurd (decide_eq_true rfl) (hf b hb)
  | some c =>
    have h1 : c.id = b.id := by simpa using List.find?_some hf
    rw [same_id h (List.mem_of_find?_eq_some hf) hb h1]

theorem tag_mem {bs : List Bnd} {b : Bnd} (hb : b ∈ bs) : b.tag ∈ varNames bs :=
  List.mem_append_left _ (List.mem_map.2 ⟨b, hb, rfl⟩)

theorem under_mem {bs : List Bnd} {b : Bnd} (hb : b ∈ bs) (he : b.err.isSome) : under b.tag ∈ varNames bs :=
  List.mem_append_right _ (List.mem_map.2 ⟨b, List.mem_filter.2 ⟨hb, by simpa using he⟩, rfl⟩)

theorem tags_approx (bs : List Bnd) (e : E) (h : Bounded bs e) : Tags (· ∈ varNames bs) (approxCopy e) := by
  induction e with
  | var i t p => obtain ⟨b, hb, _, rfl, _⟩ := h; exact tag_mem hb
  | cst i v p => trivial
  | bin i o p t a b iha ihb => exact ⟨iha h.1, ihb h.2⟩
  | fma i s p t a b c iha ihb ihc => exact ⟨iha h.1, ihb h.2.1, ihc h.2.2⟩
  | neg i p t a iha => exact iha h
  | conv i p t a iha => exact iha h
  | rint i p t a iha => exact iha h

theorem tags_exact {bs : List Bnd} (hd : Distinct bs) (e : E) (h : Bounded bs e) :
    Tags (· ∈ varNames bs) (exactCopy bs e) := by
  induction e with
  | var i t p =>
    obtain ⟨b, hb, rfl, rfl, _⟩ := h
    show exactTag bs b.id b.tag ∈ varNames bs
    rw [exactTag_eq hd hb]
    split
    · rename_i he; exact under_mem hb he
    · exact tag_mem hb
  | cst i v p => trivial
  | bin i o p t a b iha ihb => exact ⟨iha h.1, ihb h.2⟩
  | fma i s p t a b c iha ihb ihc => exact ⟨iha h.1, ihb h.2.1, ihc h.2.2⟩
  | neg i p t a iha => exact iha h
  | conv i p t a iha => exact iha h
  | rint i p t a iha => exact iha h

/-- The names of the script have the values of the variables. -/
def Means (bs : List Bnd) (A X : ℕ → ℚ) (ρ : Name → ℚ) : Prop :=
  ∀ b ∈ bs, ρ b.tag = A b.id ∧ (b.err.isSome → ρ (under b.tag) = X b.id)

theorem exists_means {bs : List Bnd} (h : Distinct bs) (A X : ℕ → ℚ) : ∃ ρ, Means bs A X ρ := by
  refine ⟨fun n => ((bs.find? (fun b => decide (b.tag = n))).map (fun b => A b.id)).getD
    (((bs.filter (·.err.isSome)).find? (fun b => decide (under b.tag = n))).elim 0 (fun b => X b.id)),
    fun b hb => ⟨?_, fun he => ?_⟩⟩
  · cases hf : bs.find? (fun c => decide (c.tag = b.tag)) with
    | none =>
      rw [List.find?_eq_none] at hf
      exact absurd (decide_eq_true rfl) (hf b hb)
    | some c =>
      have h1 : c.tag = b.tag := by simpa using List.find?_some hf
      have h2 := same_tag h (List.mem_of_find?_eq_some hf) hb h1
      show ((bs.find? (fun c => decide (c.tag = b.tag))).map _).getD _ = _
      rw [hf, h2]; rfl
  · have hmem : b ∈ bs.filter (·.err.isSome) := List.mem_filter.2 ⟨hb, by simpa using he⟩
    cases hf : bs.find? (fun c => decide (c.tag = under b.tag)) with
    | some c =>
      exfalso
      have h1 : c.tag = under b.tag := by simpa using List.find?_some hf
      have h2 := List.disjoint_of_nodup_append h.names
      exact h2 (List.mem_map.2 ⟨c, List.mem_of_find?_eq_some hf, h1⟩) (List.mem_map.2 ⟨b, hmem, rfl⟩)
    | none =>
      show ((bs.find? (fun c => decide (c.tag = under b.tag))).map _).getD _ = _
      rw [hf]
      show ((bs.filter (·.err.isSome)).find? (fun c => decide (under c.tag = under b.tag))).elim 0 (fun b => X b.id) = X b.id
      cases hg : (bs.filter (·.err.isSome)).find? (fun c => decide (under c.tag = under b.tag)) with
      | none =>
        rw [List.find?_eq_none] at hg
        exact absurd (decide_eq_true rfl) (hg b hmem)
      | some c =>
        have h1 : under c.tag = under b.tag := by simpa using List.find?_some hg
        have h3 : c.tag = b.tag := List.append_cancel_right h1
        have h4 := (List.mem_filter.1 (List.mem_of_find?_eq_some hg)).1
        rw [same_tag h h4 hb h3]; rfl

theorem to_grid {R : Rnd} (hR : R.Ok) {p : Prec} {v : ℚ} (h : p ≠ .exact → Grid p v) : R.to p v = v := by
  unfold Rnd.to
  split
  · rfl
  · rename_i hp; exact (hR p hp v).2 (h hp)

theorem sem_approx {R : Rnd} (hR : R.Ok) {bs : List Bnd} {A X : ℕ → ℚ} {ρ : Name → ℚ} (hm : Means bs A X ρ) (e : E)
    (hb : Bounded bs e) (hp : Plain e) : sem R ρ (approxCopy e) = machine R A e := by
  induction e with
  | var i t p => obtain ⟨b, hb, rfl, rfl, _⟩ := hb; exact (hm b hb).1
  | cst i v p => exact (to_grid hR hp).symm
  | bin i o p t a b iha ihb =>
    show (if o = .div then _ else _) = _
    rw [if_neg hp.1, iha hb.1 hp.2.1, ihb hb.2 hp.2.2]
    rfl
  | fma i s p t a b c iha ihb ihc =>
    show R.to p (s.on _ _ _) = _
    rw [iha hb.1 hp.1, ihb hb.2.1 hp.2.1, ihc hb.2.2 hp.2.2]
    rfl
  | neg i p t a iha => exact hp.elim
  | conv i p t a iha => exact hp.elim
  | rint i p t a iha =>
    show (if p = .exact then _ else _) = _
    rw [if_neg hp.1, iha hb hp.2]
    rfl

theorem sem_exact {R : Rnd} {bs : List Bnd} (hd : Distinct bs) {A X : ℕ → ℚ} {ρ : Name → ℚ} (hm : Means bs A X ρ)
    (ha : ∀ b ∈ bs, b.err = none → A b.id = X b.id) (e : E) (hb : Bounded bs e) (hp : Plain e) :
    sem R ρ (exactCopy bs e) = exact R X e := by
  induction e with
  | var i t p =>
    obtain ⟨b, hb, rfl, rfl, _⟩ := hb
    show ρ (exactTag bs b.id b.tag) = X b.id
    rw [exactTag_eq hd hb]
    split
    · rename_i he; exact (hm b hb).2 he
    · rename_i he; rw [(hm b hb).1, ha b hb (by simpa using he)]
  | cst i v p => rfl
  | bin i o p t a b iha ihb =>
    show (if o = .div then _ else _) = _
    rw [if_neg hp.1, iha hb.1 hp.2.1, ihb hb.2 hp.2.2]
    rfl
  | fma i s p t a b c iha ihb ihc =>
    show R.to .exact (s.on _ _ _) = _
    rw [iha hb.1 hp.1, ihb hb.2.1 hp.2.1, ihc hb.2.2 hp.2.2]
    rfl
  | neg i p t a iha => exact hp.elim
  | conv i p t a iha => exact hp.elim
  | rint i p t a iha =>
    show (if p = .exact then _ else _) = _
    rw [if_neg hp.1, iha hb hp.2]
    rfl

theorem Grid.flt {p : Prec} {x : ℚ} (h : Grid p x) : Flt p.bits x := by
  obtain ⟨m, e, h1, h2, _⟩ := h
  exact ⟨m, e, h1, h2⟩

theorem flt_of {p : Prec} {x : ℚ} (h : p ≠ .exact → Grid p x) : ∀ n, fltOf p = some n → Flt n x := by
  intro n hn
  unfold fltOf at hn
  split at hn
  · cases hn
  · rename_i hp; cases hn; exact (h hp).flt

/-- The hypotheses hold, now and after any continuation. -/
def HypsOk (R : Rnd) (ρ : Name → ℚ) (vt : Name → Prop) (hs : List Hyp) (st : St) : Prop :=
  ∀ h ∈ hs, h.x.In vt st ∧ h.Holds (st.env R ρ)

theorem HypsOk.ext {R : Rnd} {ρ : Name → ℚ} {vt : Name → Prop} {hs : List Hyp} {st st' : St} (h : HypsOk R ρ vt hs st)
    (k : Ext R ρ vt st st') : HypsOk R ρ vt hs st' := by
  intro y hy
  obtain ⟨h1, h2⟩ := h y hy
  obtain ⟨h3, h4⟩ := k.at h1
  refine ⟨h3, ?_⟩
  unfold Hyp.Holds at h2 ⊢
  rw [h4]; exact h2

theorem genHyps_used (bs : List Bnd) : ∀ st, ∀ n ∈ st.used, n ∈ (genHyps bs st).2.used := by
  induction bs with
  | nil => intro st n hn; exact hn
  | cons b bs ih =>
    intro st n hn
    unfold genHyps
    split
    · exact ih st n hn
    · exact ih _ n (emit_used st none _ n hn)

theorem genHyps_ok {R : Rnd} {ρ : Name → ℚ} {D : ℕ → E} {vt : Name → Prop} (bs : List Bnd) : ∀ st,
    (∀ n ∈ (genHyps bs st).2.used, ¬ vt n) → Good R ρ D vt st →
    (∀ b ∈ bs, vt b.tag ∧ (b.err.isSome → vt (under b.tag))) →
    (∀ b ∈ bs, b.Allows (ρ b.tag) (if b.err.isSome then ρ (under b.tag) else ρ b.tag) ∧
      (b.err.isSome → b.p ≠ .exact → Grid b.p (ρ (under b.tag)))) →
    Good R ρ D vt (genHyps bs st).2 ∧ Ext R ρ vt st (genHyps bs st).2 ∧ HypsOk R ρ vt (genHyps bs st).1 (genHyps bs st).2 := by
  induction bs with
  | nil => intro st _ hg _ _; exact ⟨hg, Ext.refl _, fun h hh => by cases hh⟩
  | cons b bs ih =>
    intro st hv hg ht ha
    obtain ⟨hab, hgr⟩ := ha b (by simp)
    obtain ⟨htb, htu⟩ := ht b (by simp)
    have ht' : ∀ c ∈ bs, vt c.tag ∧ (c.err.isSome → vt (under c.tag)) := fun c hc => ht c (by simp [hc])
    have ha' := fun c hc => ha c (List.mem_cons_of_mem b hc)
    unfold Bnd.Allows at hab
    cases he : b.err with
    | none =>
      have e1 : genHyps (b :: bs) st = (⟨.v b.tag, b.lo, b.hi, fltOf b.p⟩ :: (genHyps bs st).1, (genHyps bs st).2) := by
        conv_lhs => unfold genHyps
        rw [he]
      rw [e1] at hv ⊢
      rw [he] at hab
      obtain ⟨g1, g2, g3⟩ := ih st hv hg ht' ha'
      refine ⟨g1, g2, fun h hh => ?_⟩
      rcases List.mem_cons.1 hh with rfl | hh
      · refine ⟨Or.inr htb, ?_⟩
        have hval : (genHyps bs st).2.env R ρ b.tag = ρ b.tag := g1.2 _ htb
        show b.lo ≤ (genHyps bs st).2.env R ρ b.tag ∧ (genHyps bs st).2.env R ρ b.tag ≤ b.hi ∧
          ∀ p, fltOf b.p = some p → Flt p ((genHyps bs st).2.env R ρ b.tag)
        rw [hval]
        exact ⟨hab.2.1, hab.2.2.1, flt_of hab.2.2.2⟩
      · exact g3 h hh
    | some e =>
      obtain ⟨s1, hs1⟩ : ∃ s, s = (emit st none (.bin .sub (.v b.tag) (.v (under b.tag)))).2 := ⟨_, rfl⟩
      obtain ⟨z, hz⟩ : ∃ z, z = (emit st none (.bin .sub (.v b.tag) (.v (under b.tag)))).1 := ⟨_, rfl⟩
      have e1 : genHyps (b :: bs) st =
          (⟨.v (under b.tag), b.lo, b.hi, fltOf b.p⟩ :: ⟨z, -e, e, none⟩ :: (genHyps bs s1).1, (genHyps bs s1).2) := by
        conv_lhs => unfold genHyps
        rw [he, hz, hs1]
      rw [e1] at hv ⊢
      rw [he] at hab hgr
      have htu' := htu (by rw [he]; rfl)
      have hv1 : ∀ n ∈ (emit st none (.bin .sub (.v b.tag) (.v (under b.tag)))).2.used, ¬ vt n := by
        rw [← hs1]; exact fun n hn => hv n (genHyps_used bs s1 n hn)
      obtain ⟨k1, k2, k3, k4⟩ := emit_ext (R := R) (ρ := ρ) (vt := vt) st none (.bin .sub (.v b.tag) (.v (under b.tag))) hv1
      rw [← hs1] at k1 k2 k3 k4
      rw [← hz] at k3 k4
      obtain ⟨g1, g2, g3⟩ := ih s1 hv (hg.ext k1 k2) ht' ha'
      refine ⟨g1, k1.trans g2, fun h hh => ?_⟩
      have hval : (genHyps bs s1).2.env R ρ (under b.tag) = ρ (under b.tag) := g1.2 _ htu'
      simp only [Option.isSome_some, if_true] at hab
      rcases List.mem_cons.1 hh with rfl | hh
      · refine ⟨Or.inr htu', ?_⟩
        show b.lo ≤ (genHyps bs s1).2.env R ρ (under b.tag) ∧ (genHyps bs s1).2.env R ρ (under b.tag) ≤ b.hi ∧
          ∀ p, fltOf b.p = some p → Flt p ((genHyps bs s1).2.env R ρ (under b.tag))
        rw [hval]
        exact ⟨hab.1, hab.2.1, flt_of (hgr rfl)⟩
      rcases List.mem_cons.1 hh with rfl | hh
      · obtain ⟨q1, q2⟩ := g2.at k3
        refine ⟨q1, ?_⟩
        have hv3 : z.eval ((genHyps bs s1).2.env R ρ) = ρ b.tag - ρ (under b.tag) := by
          rw [q2, k4]
          show st.env R ρ b.tag - st.env R ρ (under b.tag) = _
          rw [hg.2 _ htb, hg.2 _ htu']
        show -e ≤ z.eval _ ∧ z.eval _ ≤ e ∧ _
        rw [hv3]
        exact ⟨(abs_le.1 hab.2.2).1, (abs_le.1 hab.2.2).2, fun p hp => by cases hp⟩
      · exact g3 h hh

theorem good_start (R : Rnd) (ρ : Name → ℚ) (D : ℕ → E) (vt : Name → Prop) : Good R ρ D vt start :=
  ⟨fun i x h => by simp [start] at h, fun n _ => rfl⟩

end Verif.Gappa
