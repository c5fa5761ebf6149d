import Verif.Gappa.Model
import Verif.Names.Lemmas
import Mathlib.Tactic.Ring
import Mathlib.Tactic.Linarith
import Mathlib.Data.List.Perm.Subperm
import Mathlib.Data.List.Nodup

namespace Verif.Gappa

open Verif.Names (Name indexed)

theorem freeName_free (used : List Name) (p : Name) : freeName used p ∉ used := by
  unfold freeName
  by_cases h : p ∉ used
  · rw [if_pos h]; exact h
  · rw [if_neg h]
    cases hf : (List.range (used.length + 1)).find? (fun i => decide (indexed p i ∉ used)) with
    | some i => simpa using List.find?_some hf
    | none =>
      exfalso
      rw [List.find?_eq_none] at hf
      have hsub : (List.range (used.length + 1)).map (indexed p) ⊆ used := by
        intro n hn
        obtain ⟨i, hi, rfl⟩ := List.mem_map.1 hn
        simpa using hf i hi
      have hnd : ((List.range (used.length + 1)).map (indexed p)).Nodup :=
        List.Nodup.map (fun i j hij => Names.indexed_inj p hij) List.nodup_range
      have := (hnd.subperm hsub).length_le
      simp at this

theorem run_append (R : Rnd) (ls ms : List (Name × G)) : ∀ ρ, run R ρ (ls ++ ms) = run R (run R ρ ls) ms := by
  induction ls with
  | nil => intro ρ; rfl
  | cons l ls ih => intro ρ; obtain ⟨n, g⟩ := l; simp only [List.cons_append, run]; exact ih _

/-- The meaning that the script gives to a graph. -/
def sem (R : Rnd) (ρ : Name → ℚ) : E → ℚ
  | .var _ t _ => ρ t
  | .cst _ v _ => v
  | .bin _ o p _ a b => if o = .div then o.on (sem R ρ a) (sem R ρ b) else R.to p (o.on (sem R ρ a) (sem R ρ b))
  | .fma _ s p _ a b c => R.to p (s.on (sem R ρ a) (sem R ρ b) (sem R ρ c))
  | .neg _ p _ a => R.to p (-sem R ρ a)
  | .conv _ p _ a => R.fp p (sem R ρ a)
  | .rint _ p _ a => if p = .exact then sem R ρ a else R.int (sem R ρ a)

/-- The variables of a graph have names of a given kind. -/
def Tags (vt : Name → Prop) : E → Prop
  | .var _ t _ => vt t
  | .cst _ _ _ => True
  | .bin _ _ _ _ a b => Tags vt a ∧ Tags vt b
  | .fma _ _ _ _ a b c => Tags vt a ∧ Tags vt b ∧ Tags vt c
  | .neg _ _ _ a | .conv _ _ _ a | .rint _ _ _ a => Tags vt a

section
variable (R : Rnd) (ρ : Name → ℚ) (D : ℕ → E) (vt : Name → Prop)

def St.env (st : St) : Name → ℚ := run R ρ st.lines

def At.In (st : St) : At → Prop
  | .v n => n ∈ st.used ∨ vt n
  | .c _ => True

structure Ext (st st' : St) : Prop where
  used : ∀ n ∈ st.used, n ∈ st'.used
  env : ∀ n, n ∈ st.used ∨ vt n → st'.env R ρ n = st.env R ρ n

def Good (st : St) : Prop :=
  (∀ i x, st.memo.lookup i = some x → x.In vt st ∧ x.eval (st.env R ρ) = sem R ρ (D i)) ∧ ∀ n, vt n → st.env R ρ n = ρ n

variable {R ρ D vt}

theorem Ext.refl (st : St) : Ext R ρ vt st st := ⟨fun _ h => h, fun _ _ => rfl⟩

theorem Ext.trans {a b c : St} (h : Ext R ρ vt a b) (k : Ext R ρ vt b c) : Ext R ρ vt a c :=
  ⟨fun n hn => k.used n (h.used n hn), fun n hn => by
    rw [k.env n (hn.imp (h.used n) (fun x => x)), h.env n hn]⟩

theorem Ext.at {st st' : St} (h : Ext R ρ vt st st') {x : At} (hx : x.In vt st) :
    x.In vt st' ∧ x.eval (st'.env R ρ) = x.eval (st.env R ρ) := by
  cases x with
  | c q => exact ⟨trivial, rfl⟩
  | v n => exact ⟨hx.imp (h.used n) (fun x => x), h.env n hx⟩

theorem emit_ext (st : St) (t : Option Name) (g : G) (hv : ∀ n ∈ (emit st t g).2.used, ¬ vt n) :
    Ext R ρ vt st (emit st t g).2 ∧ (emit st t g).2.memo = st.memo ∧ (emit st t g).1.In vt (emit st t g).2 ∧
      (emit st t g).1.eval ((emit st t g).2.env R ρ) = g.eval R (st.env R ρ) := by
  have hfree := freeName_free st.used (t.getD tmp)
  have hused : (emit st t g).2.used = st.used ++ [freeName st.used (t.getD tmp)] := by
    simp [emit, St.used]
  have henv : (emit st t g).2.env R ρ = fun m => if m = freeName st.used (t.getD tmp) then g.eval R (st.env R ρ) else st.env R ρ m := by
    show run R ρ (st.lines ++ [(freeName st.used (t.getD tmp), g)]) = _
    rw [run_append]; rfl
  have hnv : ¬ vt (freeName st.used (t.getD tmp)) := hv _ (by rw [hused]; simp)
  refine ⟨⟨fun n hn => by rw [hused]; simp [hn], fun n hn => ?_⟩, rfl, ?_, ?_⟩
  · rw [henv]
    show (if n = _ then _ else _) = _
    rw [if_neg]
    rintro rfl
    exact hn.elim hfree hnv
  · show _ ∈ (emit st t g).2.used ∨ _
    left; rw [hused]; simp
  · show (emit st t g).2.env R ρ _ = _
    rw [henv]; show (if _ = _ then _ else _) = _
    rw [if_pos rfl]

theorem Good.ext {st st' : St} (h : Good R ρ D vt st) (k : Ext R ρ vt st st') (hm : st'.memo = st.memo) : Good R ρ D vt st' := by
  refine ⟨fun i x hx => ?_, fun n hn => ?_⟩
  · rw [hm] at hx
    obtain ⟨h1, h2⟩ := h.1 i x hx
    exact ⟨(k.at h1).1, by rw [(k.at h1).2, h2]⟩
  · rw [k.env n (Or.inr hn), h.2 n hn]

theorem Good.memo {st : St} (h : Good R ρ D vt st) (i : ℕ) (z : At) (hz : z.In vt st) (hv : z.eval (st.env R ρ) = sem R ρ (D i)) :
    Good R ρ D vt ⟨(i, z) :: st.memo, st.lines⟩ := by
  refine ⟨fun j x hx => ?_, h.2⟩
  rw [List.lookup_cons] at hx
  by_cases hj : j = i
  · subst hj
    simp only [beq_self_eq_true, Option.some.injEq] at hx
    subst hx
    exact ⟨hz, hv⟩
  · have : (j == i) = false := by simpa using hj
    simp only [this] at hx
    exact h.1 j x hx

/-- What the generation of a node gives. -/
structure Gives (R : Rnd) (ρ : Name → ℚ) (D : ℕ → E) (vt : Name → Prop) (v : ℚ) (st : St) (x : At) (st' : St) : Prop where
  good : Good R ρ D vt st'
  inn : x.In vt st'
  val : x.eval (st'.env R ρ) = v
  ext : Ext R ρ vt st st'

theorem emit_used (st : St) (t : Option Name) (g : G) : ∀ n ∈ st.used, n ∈ (emit st t g).2.used := by
  intro n hn; simp only [emit, St.used, List.map_append, List.mem_append]; exact Or.inl hn

theorem node {st s : St} (h : Ext R ρ vt st s) (hg : Good R ρ D vt s) (i : ℕ) (t : Option Name) (g : G)
    (hv : ∀ n ∈ (emit s t g).2.used, ¬ vt n) (hval : g.eval R (s.env R ρ) = sem R ρ (D i)) :
    Gives R ρ D vt (sem R ρ (D i)) st (emit s t g).1 ⟨(i, (emit s t g).1) :: (emit s t g).2.memo, (emit s t g).2.lines⟩ := by
  obtain ⟨h1, h2, h3, h4⟩ := emit_ext (R := R) (ρ := ρ) (vt := vt) s t g hv
  have hg' := hg.ext h1 h2
  refine ⟨hg'.memo i _ h3 (by rw [h4, hval]), h3, ?_, ?_⟩
  · show At.eval ((emit s t g).2.env R ρ) _ = _
    rw [h4, hval]
  · have := h.trans h1
    exact ⟨this.used, this.env⟩

end

theorem gen_used (e : E) : ∀ st x st', gen e st = some (x, st') → ∀ n ∈ st.used, n ∈ st'.used := by
  induction e with
  | var i t p => intro st x st' h; cases h; exact fun _ h => h
  | cst i v p => intro st x st' h; cases h; exact fun _ h => h
  | bin i o p t a b iha ihb =>
    intro st x st' h n hn
    unfold gen at h
    split at h
    · cases h; exact hn
    · simp only [Option.bind_eq_some_iff, Prod.exists] at h
      obtain ⟨xa, s1, ha, xb, s2, hb, g, _, h⟩ := h
      cases h
      exact emit_used s2 t g n (ihb _ _ _ hb n (iha _ _ _ ha n hn))
  | fma i s p t a b c iha ihb ihc =>
    intro st x st' h n hn
    unfold gen at h
    split at h
    · cases h; exact hn
    · simp only [Option.bind_eq_some_iff, Prod.exists] at h
      obtain ⟨xa, s1, ha, xb, s2, hb, xc, s3, hc, g, _, h⟩ := h
      cases h
      exact emit_used s3 t g n (ihc _ _ _ hc n (ihb _ _ _ hb n (iha _ _ _ ha n hn)))
  | neg i p t a iha =>
    intro st x st' h n hn
    unfold gen at h
    split at h
    · cases h; exact hn
    · simp only [Option.bind_eq_some_iff, Prod.exists] at h
      obtain ⟨xa, s1, ha, g, _, h⟩ := h
      cases h
      exact emit_used s1 t g n (iha _ _ _ ha n hn)
  | conv i p t a iha =>
    intro st x st' h n hn
    unfold gen at h
    split at h
    · cases h; exact hn
    · simp only [Option.bind_eq_some_iff, Prod.exists] at h
      obtain ⟨xa, s1, ha, h⟩ := h
      split at h
      · cases h
      · cases h
        exact emit_used s1 t _ n (iha _ _ _ ha n hn)
  | rint i p t a iha =>
    intro st x st' h n hn
    unfold gen at h
    split at h
    · cases h; exact hn
    · simp only [Option.bind_eq_some_iff, Prod.exists] at h
      obtain ⟨xa, s1, ha, g, _, h⟩ := h
      cases h
      exact emit_used s1 t g n (iha _ _ _ ha n hn)

theorem rounded_eval (R : Rnd) (ρ : Name → ℚ) {p : Prec} {ps : List Prec} {g g' : G} (h : rounded p ps g = some g') :
    g'.eval R ρ = R.to p (g.eval R ρ) := by
  unfold rounded at h
  unfold Rnd.to
  split at h
  · rename_i hp; cases h; rw [if_pos hp]
  · rename_i hp
    split at h
    · cases h; rw [if_neg hp]; rfl
    · cases h

theorem binCode_eval (R : Rnd) (ρ : Name → ℚ) {o : Op2} {p pa pb : Prec} {x y : At} {g : G} (h : binCode o p pa pb x y = some g) :
    g.eval R ρ = if o = .div then o.on (x.eval ρ) (y.eval ρ) else R.to p (o.on (x.eval ρ) (y.eval ρ)) := by
  unfold binCode at h
  split at h
  · rename_i ho; cases h; rw [if_pos ho]; rfl
  · rename_i ho; rw [if_neg ho, rounded_eval R ρ h]; rfl

theorem fmaCode_eval (R : Rnd) (ρ : Name → ℚ) {s : Fma} {p : Prec} {ps : List Prec} {x y z : At} {g : G}
    (h : fmaCode s p ps x y z = some g) : g.eval R ρ = R.to p (s.on (x.eval ρ) (y.eval ρ) (z.eval ρ)) := by
  unfold fmaCode at h
  split at h
  · cases h
  · rw [rounded_eval R ρ h]; rfl

theorem rintCode_eval (R : Rnd) (ρ : Name → ℚ) {p q : Prec} {x : At} {g : G} (h : rintCode p q x = some g) :
    g.eval R ρ = if p = .exact then x.eval ρ else R.int (x.eval ρ) := by
  unfold rintCode at h
  split at h
  · rename_i hp; cases h; rw [if_pos hp]; rfl
  · rename_i hp
    split at h
    · cases h; rw [if_neg hp]; rfl
    · cases h

theorem Shares.root {D : ℕ → E} {e : E} (h : Shares D e) : D e.id = e := by
  cases e
  case var => exact h
  case cst => exact h
  case bin => exact h.1
  case fma => exact h.1
  case neg => exact h.1
  case conv => exact h.1
  case rint => exact h.1

theorem gen_ok {R : Rnd} {ρ : Name → ℚ} {D : ℕ → E} {vt : Name → Prop} (e : E) :
    ∀ st x st', gen e st = some (x, st') → Shares D e → Tags vt e → (∀ n ∈ st'.used, ¬ vt n) → Good R ρ D vt st →
      Gives R ρ D vt (sem R ρ e) st x st' := by
  induction e with
  | var i t p =>
    intro st x st' h hS hT _ hg
    cases h
    exact ⟨hg, Or.inr hT, hg.2 t hT, Ext.refl _⟩
  | cst i v p =>
    intro st x st' h hS hT _ hg
    cases h
    exact ⟨hg, trivial, rfl, Ext.refl _⟩
  | bin i o p t a b iha ihb =>
    intro st x st' h hS hT hv hg
    have hroot := hS.1
    unfold gen at h
    split at h
    · rename_i y hy
      cases h
      obtain ⟨h1, h2⟩ := hg.1 i _ hy
      exact ⟨hg, h1, by rw [h2, hroot], Ext.refl _⟩
    · simp only [Option.bind_eq_some_iff, Prod.exists] at h
      obtain ⟨xa, s1, ha, xb, s2, hb, g, hgc, h⟩ := h
      cases h
      have hv2 : ∀ n ∈ s2.used, ¬ vt n := fun n hn => hv n (emit_used s2 t g n hn)
      have hv1 : ∀ n ∈ s1.used, ¬ vt n := fun n hn => hv2 n (gen_used b _ _ _ hb n hn)
      have ka := iha _ _ _ ha hS.2.1 hT.1 hv1 hg
      have kb := ihb _ _ _ hb hS.2.2 hT.2 hv2 ka.good
      rw [show sem R ρ (.bin i o p t a b) = sem R ρ (D i) by rw [hroot]]
      refine node (ka.ext.trans kb.ext) kb.good i t g hv ?_
      rw [binCode_eval R _ hgc, (kb.ext.at ka.inn).2, ka.val, kb.val, hroot]
      rfl
  | fma i s p t a b c iha ihb ihc =>
    intro st x st' h hS hT hv hg
    have hroot := hS.1
    unfold gen at h
    split at h
    · rename_i y hy
      cases h
      obtain ⟨h1, h2⟩ := hg.1 i _ hy
      exact ⟨hg, h1, by rw [h2, hroot], Ext.refl _⟩
    · simp only [Option.bind_eq_some_iff, Prod.exists] at h
      obtain ⟨xa, s1, ha, xb, s2, hb, xc, s3, hc, g, hgc, h⟩ := h
      cases h
      have hv3 : ∀ n ∈ s3.used, ¬ vt n := fun n hn => hv n (emit_used s3 t g n hn)
      have hv2 : ∀ n ∈ s2.used, ¬ vt n := fun n hn => hv3 n (gen_used c _ _ _ hc n hn)
      have hv1 : ∀ n ∈ s1.used, ¬ vt n := fun n hn => hv2 n (gen_used b _ _ _ hb n hn)
      have ka := iha _ _ _ ha hS.2.1 hT.1 hv1 hg
      have kb := ihb _ _ _ hb hS.2.2.1 hT.2.1 hv2 ka.good
      have kc := ihc _ _ _ hc hS.2.2.2 hT.2.2 hv3 kb.good
      rw [show sem R ρ (.fma i s p t a b c) = sem R ρ (D i) by rw [hroot]]
      refine node ((ka.ext.trans kb.ext).trans kc.ext) kc.good i t g hv ?_
      rw [fmaCode_eval R _ hgc, (kc.ext.at (kb.ext.at ka.inn).1).2, (kb.ext.at ka.inn).2, (kc.ext.at kb.inn).2, ka.val, kb.val,
        kc.val, hroot]
      rfl
  | neg i p t a iha =>
    intro st x st' h hS hT hv hg
    have hroot := hS.1
    unfold gen at h
    split at h
    · rename_i y hy
      cases h
      obtain ⟨h1, h2⟩ := hg.1 i _ hy
      exact ⟨hg, h1, by rw [h2, hroot], Ext.refl _⟩
    · simp only [Option.bind_eq_some_iff, Prod.exists] at h
      obtain ⟨xa, s1, ha, g, hgc, h⟩ := h
      cases h
      have hv1 : ∀ n ∈ s1.used, ¬ vt n := fun n hn => hv n (emit_used s1 t g n hn)
      have ka := iha _ _ _ ha hS.2 hT hv1 hg
      rw [show sem R ρ (.neg i p t a) = sem R ρ (D i) by rw [hroot]]
      refine node ka.ext ka.good i t g hv ?_
      rw [rounded_eval R _ hgc, hroot]
      show R.to p (-xa.eval (s1.env R ρ)) = _
      rw [ka.val]
      rfl
  | conv i p t a iha =>
    intro st x st' h hS hT hv hg
    have hroot := hS.1
    unfold gen at h
    split at h
    · rename_i y hy
      cases h
      obtain ⟨h1, h2⟩ := hg.1 i _ hy
      exact ⟨hg, h1, by rw [h2, hroot], Ext.refl _⟩
    · simp only [Option.bind_eq_some_iff, Prod.exists] at h
      obtain ⟨xa, s1, ha, h⟩ := h
      split at h
      · cases h
      · cases h
        have hv1 : ∀ n ∈ s1.used, ¬ vt n := fun n hn => hv n (emit_used s1 t _ n hn)
        have ka := iha _ _ _ ha hS.2 hT hv1 hg
        obtain ⟨h1, h2, h3, h4⟩ := emit_ext (R := R) (ρ := ρ) (vt := vt) s1 t (.rnd p (.at xa)) hv
        refine ⟨ka.good.ext h1 h2, h3, ?_, ka.ext.trans h1⟩
        refine h4.trans ?_
        show R.fp p (xa.eval (s1.env R ρ)) = _
        rw [ka.val]
        rfl
  | rint i p t a iha =>
    intro st x st' h hS hT hv hg
    have hroot := hS.1
    unfold gen at h
    split at h
    · rename_i y hy
      cases h
      obtain ⟨h1, h2⟩ := hg.1 i _ hy
      exact ⟨hg, h1, by rw [h2, hroot], Ext.refl _⟩
    · simp only [Option.bind_eq_some_iff, Prod.exists] at h
      obtain ⟨xa, s1, ha, g, hgc, h⟩ := h
      cases h
      have hv1 : ∀ n ∈ s1.used, ¬ vt n := fun n hn => hv n (emit_used s1 t g n hn)
      have ka := iha _ _ _ ha hS.2 hT hv1 hg
      rw [show sem R ρ (.rint i p t a) = sem R ρ (D i) by rw [hroot]]
      refine node ka.ext ka.good i t g hv ?_
      rw [rintCode_eval R _ hgc, ka.val, hroot]
      rfl

end Verif.Gappa
