import Verif.BB.Model
import Mathlib.Logic.Relation
import Mathlib.Tactic.Push

namespace Verif.BB

variable {S V : Type}

/-! ## Block lists growing -/

/-- `B` contains every block of `A`, possibly with more instructions at the end. -/
def Ext (A B : List (Block S V)) : Prop :=
  ∀ (b : ℕ) (bb : Block S V), A[b]? = some bb → ∃ bb', B[b]? = some bb' ∧ bb.insts <+: bb'.insts

theorem Ext.refl (A : List (Block S V)) : Ext A A := fun _ bb h => ⟨bb, h, List.prefix_rfl⟩

theorem Ext.trans {A B C : List (Block S V)} (h : Ext A B) (h' : Ext B C) : Ext A C := by
  intro b bb hb
  obtain ⟨bb', h1, h2⟩ := h b bb hb
  obtain ⟨bb'', h3, h4⟩ := h' b bb' h1
  exact ⟨bb'', h3, h2.trans h4⟩

/-- Number of instructions of block `b`. -/
def blen (A : List (Block S V)) (b : ℕ) : ℕ := (A[b]?.map (fun bb => bb.insts.length)).getD 0

/-- Instruction `i` of block `b`. -/
def instr (B : List (Block S V)) (b i : ℕ) : Option (Instr S V) :=
  (B[b]?).bind (fun bb => bb.insts[i]?)

theorem addRaw_get (st : Tr S V) (b : ℕ) (i : Instr S V) (b' : ℕ) :
    (addRaw st b i).blocks[b']? =
      if b = b' then st.blocks[b']?.map (fun bb => { bb with insts := bb.insts ++ [i] })
      else st.blocks[b']? := by
  unfold addRaw
  dsimp only
  rw [List.getElem?_modify]
  split <;> simp

theorem setFinal_get (st : Tr S V) (b : ℕ) (b' : ℕ) :
    (setFinal st b).blocks[b']? =
      if b = b' then st.blocks[b']?.map (fun bb => { bb with final := true })
      else st.blocks[b']? := by
  unfold setFinal
  dsimp only
  rw [List.getElem?_modify]
  split <;> simp

theorem addRaw_len (st : Tr S V) (b : ℕ) (i : Instr S V) :
    (addRaw st b i).blocks.length = st.blocks.length := by simp [addRaw]

theorem setFinal_len (st : Tr S V) (b : ℕ) : (setFinal st b).blocks.length = st.blocks.length := by
  simp [setFinal]

theorem addRaw_ext (st : Tr S V) (b : ℕ) (i : Instr S V) : Ext st.blocks (addRaw st b i).blocks := by
  intro b' bb h
  rw [addRaw_get]
  split
  · rw [h]; exact ⟨_, rfl, List.prefix_append _ _⟩
  · exact ⟨bb, h, List.prefix_rfl⟩

theorem setFinal_ext (st : Tr S V) (b : ℕ) : Ext st.blocks (setFinal st b).blocks := by
  intro b' bb h
  rw [setFinal_get]
  split
  · rw [h]; exact ⟨_, rfl, List.prefix_rfl⟩
  · exact ⟨bb, h, List.prefix_rfl⟩

theorem append_ext (A C : List (Block S V)) : Ext A (A ++ C) := by
  intro b bb h
  have hb : b < A.length := (List.getElem?_eq_some_iff.1 h).1
  exact ⟨bb, by rw [List.getElem?_append_left hb]; exact h, List.prefix_rfl⟩

theorem addToBB_eq {st st' : Tr S V} {b : ℕ} {i : Instr S V} (h : addToBB st b i = some st') :
    st' = addRaw st b i ∧ b < st.blocks.length ∧ isFinal st b = false ∧
      ∀ bb, st.blocks[b]? = some bb → ∀ x, bb.insts.getLast? = some x → x.isCF = false := by
  unfold addToBB at h
  split at h
  · cases h
  · rename_i bb hb
    split at h
    · rename_i hc
      cases h
      rw [Bool.and_eq_true, Bool.or_eq_true] at hc
      refine ⟨rfl, (List.getElem?_eq_some_iff.1 hb).1, ?_, ?_⟩
      · simp [isFinal, hb]; simpa using hc.1
      · intro bb' hbb' x hx
        rw [hb] at hbb'
        cases hbb'
        rcases hc.2 with h | h
        · rw [List.isEmpty_iff.1 h] at hx; cases hx
        · rw [hx] at h; simpa using h
    · cases h

/-- Where an added instruction ends up in every later block list. -/
theorem addRaw_at {st : Tr S V} {b : ℕ} {i : Instr S V} {B : List (Block S V)}
    (hb : b < st.blocks.length) (h : Ext (addRaw st b i).blocks B) :
    instr B b (blen st.blocks b) = some i := by
  have hbb : st.blocks[b]? = some st.blocks[b] := List.getElem?_eq_getElem hb
  have h1 : (addRaw st b i).blocks[b]? =
      some { st.blocks[b] with insts := st.blocks[b].insts ++ [i] } := by
    rw [addRaw_get, if_pos rfl, hbb]; rfl
  obtain ⟨bb', h2, h3⟩ := h b _ h1
  unfold instr blen
  rw [h2, hbb]
  dsimp only [Option.bind_some, Option.map_some, Option.getD_some]
  obtain ⟨r, hr⟩ := h3
  dsimp only at hr
  rw [← hr, List.append_assoc]
  simp

/-- Only blocks other than `b` are compared. -/
theorem addRaw_other {st : Tr S V} {b : ℕ} {i : Instr S V} {b' : ℕ} (h : b ≠ b') :
    (addRaw st b i).blocks[b']? = st.blocks[b']? := by rw [addRaw_get, if_neg h]

theorem blen_congr {A B : List (Block S V)} {b : ℕ} (h : A[b]? = B[b]?) : blen A b = blen B b := by
  unfold blen; rw [h]

theorem isFinal_congr {st st' : Tr S V} {b : ℕ} (h : st.blocks[b]? = st'.blocks[b]?) :
    isFinal st b = isFinal st' b := by unfold isFinal; rw [h]

theorem isFinal_addRaw (st : Tr S V) (b : ℕ) (i : Instr S V) (b' : ℕ) :
    isFinal (addRaw st b i) b' = isFinal st b' := by
  unfold isFinal
  rw [addRaw_get]
  split
  · cases st.blocks[b']? <;> rfl
  · rfl

/-! ## Inversion of the translation -/

theorem trans_seq {s t : Stmt S V} {st st' : Tr S V} :
    trans (.seq s t) st = some st' ↔ ∃ st1, trans s st = some st1 ∧ trans t st1 = some st' := by
  simp only [trans, bind, Option.bind_eq_some_iff]

theorem trans_ite {c : S → Bool} {t : Stmt S V} {e : Option (Stmt S V)} {st st' : Tr S V}
    (h : trans (.ite c t e) st = some st') :
    ∃ entry rest, st.stack = entry :: rest ∧
    ∃ st2, trans t ⟨st.blocks ++ [⟨[], false⟩], st.blocks.length :: rest⟩ = some st2 ∧
    ∃ ifEnd rest2, st2.stack = ifEnd :: rest2 ∧
    ∃ ee next st3, transElse e ⟨st2.blocks, rest2⟩ = some (ee, next, st3) ∧
    ∃ st4, addToBB st3 entry (.cbr c st.blocks.length ee) = some st4 ∧
      (if isFinal st4 ifEnd then some st4 else addToBB st4 ifEnd (.br next)) = some st' := by
  simp only [trans, bind, Option.bind_eq_some_iff, Prod.exists] at h
  obtain ⟨entry, st1, h1, st2, h2, ifEnd, st2', h3, ee, next, st3, h4, st4, h5, h6⟩ := h
  unfold pop at h1
  split at h1
  · cases h1
  · rename_i b rest hst
    simp only [Option.some.injEq, Prod.mk.injEq] at h1
    obtain ⟨rfl, rfl⟩ := h1
    unfold pop at h3
    split at h3
    · cases h3
    · rename_i b2 rest2 hst2
      simp only [Option.some.injEq, Prod.mk.injEq] at h3
      obtain ⟨rfl, rfl⟩ := h3
      exact ⟨b, rest, hst, st2, h2, b2, rest2, hst2, ee, next, st3, h4, st4, h5, h6⟩

theorem transElse_some {e : Stmt S V} {st : Tr S V} {ee next : ℕ} {st' : Tr S V}
    (h : transElse (some e) st = some (ee, next, st')) :
    ee = st.blocks.length ∧
    ∃ st2, trans e ⟨st.blocks ++ [⟨[], false⟩], st.blocks.length :: st.stack⟩ = some st2 ∧
    ∃ elseEnd rest, st2.stack = elseEnd :: rest ∧ next = st2.blocks.length ∧
      (if isFinal ⟨st2.blocks ++ [⟨[], false⟩], st2.blocks.length :: rest⟩ elseEnd then
        some (⟨st2.blocks ++ [⟨[], false⟩], st2.blocks.length :: rest⟩ : Tr S V)
       else addToBB ⟨st2.blocks ++ [⟨[], false⟩], st2.blocks.length :: rest⟩ elseEnd (.br next))
        = some st' := by
  simp only [transElse, bind, Option.bind_eq_some_iff, Prod.exists] at h
  obtain ⟨st2, h2, elseEnd, st2', h3, h4⟩ := h
  unfold pop at h3
  split at h3
  · cases h3
  · rename_i b2 rest2 hst2
    simp only [Option.some.injEq, Prod.mk.injEq] at h3
    obtain ⟨rfl, rfl⟩ := h3
    split at h4
    · rename_i hf
      simp only [Option.some.injEq, Prod.mk.injEq] at h4
      obtain ⟨rfl, rfl, rfl⟩ := h4
      refine ⟨rfl, st2, h2, b2, rest2, hst2, rfl, ?_⟩
      exact if_pos hf
    · rename_i hf
      simp only [Option.bind_eq_some_iff, Option.some.injEq, Prod.mk.injEq] at h4
      obtain ⟨st5, h5, rfl, rfl, rfl⟩ := h4
      refine ⟨rfl, st2, h2, b2, rest2, hst2, rfl, ?_⟩
      exact (if_neg hf).trans h5

theorem modify_last {α : Type} (l : List α) (a : α) (f : α → α) :
    (l ++ [a]).modify l.length f = l ++ [f a] := by
  induction l with
  | nil => rfl
  | cons x l ih => simp [ih]

theorem trans_loop {i : Stmt S V} {c : S → Bool} {body : Stmt S V} {st st' : Tr S V}
    (h : trans (.loop i c body) st = some st') :
    ∃ b0, cur st = some b0 ∧ ∃ st1, trans i st = some st1 ∧
    ∃ st3, trans body ⟨st1.blocks ++ [⟨[.eval c], false⟩] ++ [⟨[], false⟩],
        (st1.blocks.length + 1) :: st1.stack⟩ = some st3 ∧
    ∃ endBody rest, st3.stack = endBody :: rest ∧
    ∃ st4, addToBB st3 endBody (.br st1.blocks.length) = some st4 ∧
    ∃ st6, addToBB ⟨st4.blocks ++ [⟨[], false⟩], st4.blocks.length :: rest⟩ st1.blocks.length
        (.cbr c (st1.blocks.length + 1) st4.blocks.length) = some st6 ∧
      addToBB st6 b0 (.br st1.blocks.length) = some st' := by
  simp only [trans, bind, Option.bind_eq_some_iff, Prod.exists] at h
  obtain ⟨b0, h0, st1, h1, hd, st2, h2, st3, h3, eb, h4, st4, h5, x, st5, h6, st6, h7, h8⟩ := h
  refine ⟨b0, h0, st1, h1, st3, ?_, ?_⟩
  · have hadd : (addRaw (pushNew st1).2 (pushNew st1).1 (.eval c)).blocks =
        st1.blocks ++ [⟨[.eval c], false⟩] := by
      unfold addRaw pushNew
      dsimp only
      exact modify_last _ _ _
    have hstk : (addRaw (pushNew st1).2 (pushNew st1).1 (.eval c)).stack =
        st1.blocks.length :: st1.stack := rfl
    unfold pop at h2
    rw [hstk] at h2
    simp only [Option.some.injEq, Prod.mk.injEq] at h2
    obtain ⟨rfl, rfl⟩ := h2
    unfold pushNew at h3
    dsimp only at h3
    have := hadd
    unfold pushNew at this
    dsimp only at this
    rw [this] at h3
    simpa using h3
  · unfold cur at h4
    rcases hs3 : st3.stack with _ | ⟨b, rest⟩
    · rw [hs3] at h4; cases h4
    · rw [hs3] at h4
      cases h4
      refine ⟨_, rest, rfl, st4, h5, ?_⟩
      have h4s : st4.stack = eb :: rest := by
        rw [(addToBB_eq h5).1]; exact hs3
      unfold pop at h6
      rw [h4s] at h6
      simp only [Option.some.injEq, Prod.mk.injEq] at h6
      obtain ⟨rfl, rfl⟩ := h6
      unfold pop at h2
      have hadd : (addRaw (pushNew st1).2 (pushNew st1).1 (.eval c)).blocks.length =
          st1.blocks.length + 1 := by simp [addRaw, pushNew]
      have hstk : (addRaw (pushNew st1).2 (pushNew st1).1 (.eval c)).stack =
          st1.blocks.length :: st1.stack := rfl
      rw [hstk] at h2
      simp only [Option.some.injEq, Prod.mk.injEq] at h2
      obtain ⟨rfl, rfl⟩ := h2
      refine ⟨st6, ?_, h8⟩
      unfold pushNew at h7
      dsimp only at h7
      have := hadd
      unfold pushNew at this
      dsimp only at this
      rw [this] at h7
      exact h7

/-! ## What a translation leaves alone -/

def LastCF (st : Tr S V) (b : ℕ) : Prop :=
  ∃ bb x, st.blocks[b]? = some bb ∧ bb.insts.getLast? = some x ∧ x.isCF = true

theorem LastCF.congr {st st' : Tr S V} {b : ℕ} (h : st'.blocks[b]? = st.blocks[b]?)
    (hl : LastCF st b) : LastCF st' b := by
  obtain ⟨bb, x, h1, h2⟩ := hl
  exact ⟨bb, x, h.trans h1, h2⟩

theorem lastCF_addRaw {st : Tr S V} {b : ℕ} {i : Instr S V} (hb : b < st.blocks.length)
    (hi : i.isCF = true) : LastCF (addRaw st b i) b := by
  refine ⟨{ st.blocks[b] with insts := st.blocks[b].insts ++ [i] }, i, ?_, by simp, hi⟩
  rw [addRaw_get, if_pos rfl, List.getElem?_eq_getElem hb]
  rfl

structure Frame (st st' : Tr S V) (b0 : ℕ) : Prop where
  len : st.blocks.length ≤ st'.blocks.length
  same : ∀ b, b < st.blocks.length → b ≠ b0 → st'.blocks[b]? = st.blocks[b]?
  ext : Ext st.blocks st'.blocks
  cur : ∃ b1, cur st' = some b1 ∧ (b1 = b0 ∨ st.blocks.length ≤ b1) ∧ b1 < st'.blocks.length ∧
    (b1 ≠ b0 → LastCF st' b0)

structure FrameElse (st st' : Tr S V) (next : ℕ) : Prop where
  len : st.blocks.length ≤ st'.blocks.length
  same : ∀ b, b < st.blocks.length → st'.blocks[b]? = st.blocks[b]?
  ext : Ext st.blocks st'.blocks
  cur : cur st' = some next
  lo : st.blocks.length ≤ next
  hi : next < st'.blocks.length
  new : st'.blocks[next]? = some ⟨[], false⟩

theorem getElem?_new (A : List (Block S V)) (x : Block S V) : (A ++ [x])[A.length]? = some x := by
  simp

theorem getElem?_old {A : List (Block S V)} {x : List (Block S V)} {b : ℕ} (h : b < A.length) :
    (A ++ x)[b]? = A[b]? := List.getElem?_append_left h

theorem frameElse_of {o : Option (Stmt S V)} {st st' : Tr S V} {ee next : ℕ}
    (h : transElse o st = some (ee, next, st'))
    (ih : ∀ e, o = some e → ∀ (st1 st2 : Tr S V) (b0 : ℕ), trans e st1 = some st2 →
      cur st1 = some b0 → b0 < st1.blocks.length → Frame st1 st2 b0) :
    FrameElse st st' next := by
  cases o with
  | none =>
    simp only [transElse, pushNew, Option.some.injEq, Prod.mk.injEq] at h
    obtain ⟨rfl, rfl, rfl⟩ := h
    exact ⟨by simp, fun b hb => getElem?_old hb, append_ext _ _, rfl, Nat.le_refl _, by simp, by simp⟩
  | some e =>
    obtain ⟨rfl, st2, h2, elseEnd, rest, hst, rfl, h5⟩ := transElse_some h
    have hF := ih e rfl _ _ st.blocks.length h2 rfl (by simp)
    have hlen := hF.len
    simp only [List.length_append, List.length_cons, List.length_nil] at hlen
    obtain ⟨b1, hc, hb1, hlt, -⟩ := hF.cur
    have : b1 = elseEnd := by simp [cur, hst] at hc; exact hc.symm
    subst this
    have hge : st.blocks.length ≤ b1 := by
      rcases hb1 with h | h
      · omega
      · simp at h; omega
    have hsame : ∀ b, b < st.blocks.length → st2.blocks[b]? = st.blocks[b]? := by
      intro b hb
      rw [hF.same b (by simp; omega) (by omega)]
      exact getElem?_old hb
    have hext : Ext st.blocks st2.blocks := (append_ext _ _).trans hF.ext
    split at h5
    · cases h5
      refine ⟨by simp; omega, fun b hb => ?_, hext.trans (append_ext _ _), rfl, by omega, by simp,
        by simp⟩
      rw [← hsame b hb]; exact getElem?_old (by omega)
    · obtain ⟨rfl, hlt', -, -⟩ := addToBB_eq h5
      refine ⟨by rw [addRaw_len]; simp; omega, fun b hb => ?_,
        (hext.trans (append_ext _ _)).trans (addRaw_ext
          (⟨st2.blocks ++ [⟨[], false⟩], st2.blocks.length :: rest⟩ : Tr S V) _ _), rfl, by omega,
        by rw [addRaw_len]; simp, ?_⟩
      · rw [addRaw_other (by omega), ← hsame b hb]; exact getElem?_old (by omega)
      · rw [addRaw_other (by omega)]; simp

theorem frame : ∀ (p : Stmt S V) (st st' : Tr S V) (b0 : ℕ), trans p st = some st' →
    cur st = some b0 → b0 < st.blocks.length → Frame st st' b0
  | .skip, st, st', b0, h, hc, hb => by
    simp only [trans, Option.some.injEq] at h
    subst h
    exact ⟨Nat.le_refl _, fun _ _ _ => rfl, Ext.refl _, b0, hc, Or.inl rfl, hb, fun h => absurd rfl h⟩
  | .act f, st, st', b0, h, hc, hb => by
    simp only [trans, bind, hc, Option.bind_some, Option.some.injEq] at h
    subst h
    exact ⟨by rw [addRaw_len]; exact Nat.le_refl _, fun b _ hne => addRaw_other (Ne.symm hne),
      addRaw_ext _ _ _,
      b0, hc, Or.inl rfl, by rw [addRaw_len]; exact hb, fun h => absurd rfl h⟩
  | .ret e, st, st', b0, h, hc, hb => by
    simp only [trans, bind, hc, Option.bind_some, Option.some.injEq] at h
    subst h
    refine ⟨by rw [setFinal_len, addRaw_len]; exact Nat.le_refl _, fun b _ hne => ?_,
      (addRaw_ext _ _ _).trans (setFinal_ext _ _),
      b0, hc, Or.inl rfl, by rw [setFinal_len, addRaw_len]; exact hb, fun h => absurd rfl h⟩
    rw [setFinal_get, if_neg (Ne.symm hne)]
    exact addRaw_other (Ne.symm hne)
  | .seq s t, st, st', b0, h, hc, hb => by
    obtain ⟨st1, h1, h2⟩ := trans_seq.1 h
    have F1 := frame s st st1 b0 h1 hc hb
    obtain ⟨b1, c1, o1, l1, n1⟩ := F1.cur
    have F2 := frame t st1 st' b1 h2 c1 l1
    obtain ⟨b2, c2, o2, l2, n2⟩ := F2.cur
    have hl1 := F1.len
    refine ⟨Nat.le_trans F1.len F2.len, fun b hlt hne => ?_, F1.ext.trans F2.ext, b2, c2, ?_, l2, ?_⟩
    · rw [F2.same b (by omega) (by rcases o1 with h | h <;> omega), F1.same b hlt hne]
    · rcases o2 with rfl | o2
      · exact o1
      · right; omega
    · intro hne
      by_cases hb1 : b1 = b0
      · subst hb1; exact n2 hne
      · exact (n1 hb1).congr (F2.same b0 (by omega) (Ne.symm hb1))
  | .ite c t e, st, st', b0, h, hc, hb => by
    obtain ⟨entry, rest, hst, st2, h2, ifEnd, rest2, hst2, ee, next, st3, h3, st4, h4, h5⟩ :=
      trans_ite h
    have : entry = b0 := by simp [cur, hst] at hc; exact hc
    subst this
    have F := frame t _ st2 st.blocks.length h2 rfl (by simp)
    have hlen := F.len
    simp only [List.length_append, List.length_cons, List.length_nil] at hlen
    obtain ⟨b1, hc1, hb1, hlt, -⟩ := F.cur
    have : b1 = ifEnd := by simp [cur, hst2] at hc1; exact hc1.symm
    subst this
    have hge : st.blocks.length ≤ b1 := by
      rcases hb1 with h | h
      · omega
      · simp at h; omega
    have hsame : ∀ b, b < st.blocks.length → st2.blocks[b]? = st.blocks[b]? := by
      intro b hb
      rw [F.same b (by simp; omega) (by omega)]
      exact getElem?_old hb
    have hext : Ext st.blocks st2.blocks := (append_ext _ _).trans F.ext
    have FE : FrameElse ⟨st2.blocks, rest2⟩ st3 next := by
      refine frameElse_of h3 ?_
      intro e' he'
      subst he'
      exact frame e'
    have hl3 := FE.len
    have hlo := FE.lo
    have hhi := FE.hi
    dsimp only at hl3 hlo
    obtain ⟨rfl, hlt4, -, -⟩ := addToBB_eq h4
    have hcf : LastCF (addRaw st3 entry (.cbr c st.blocks.length ee)) entry :=
      lastCF_addRaw hlt4 rfl
    split at h5
    · cases h5
      refine ⟨by rw [addRaw_len]; omega, fun b hlt hne => ?_,
        (hext.trans FE.ext).trans (addRaw_ext _ _ _), next, FE.cur, Or.inr (by omega),
        by rw [addRaw_len]; exact hhi, fun _ => hcf⟩
      rw [addRaw_other (Ne.symm hne), FE.same b (by simp; omega), hsame b hlt]
    · obtain ⟨rfl, hlt5, -, -⟩ := addToBB_eq h5
      refine ⟨by rw [addRaw_len, addRaw_len]; omega, fun b hlt hne => ?_,
        ((hext.trans FE.ext).trans (addRaw_ext _ _ _)).trans (addRaw_ext _ _ _),
        next, FE.cur, Or.inr (by omega), by rw [addRaw_len, addRaw_len]; exact hhi, fun _ => ?_⟩
      · rw [addRaw_other (by omega), addRaw_other (Ne.symm hne), FE.same b (by simp; omega),
          hsame b hlt]
      · exact hcf.congr (addRaw_other (by omega))
  | .loop i c body, st, st', b0, h, hc, hb => by
    obtain ⟨b0', h0, st1, h1, st3, h3, eb, rest, hst3, st4, h4, st6, h6, h7⟩ := trans_loop h
    have : b0' = b0 := by rw [hc] at h0; cases h0; rfl
    subst this
    have F1 := frame i st st1 b0' h1 hc hb
    have F3 := frame body _ st3 (st1.blocks.length + 1) h3 rfl (by simp)
    have l1 := F1.len
    have l3 := F3.len
    simp only [List.length_append, List.length_cons, List.length_nil] at l3
    obtain ⟨b3, hc3, hb3, hlt3, -⟩ := F3.cur
    have : b3 = eb := by simp [cur, hst3] at hc3; exact hc3.symm
    subst this
    have hge : st1.blocks.length < b3 := by
      rcases hb3 with h | h
      · omega
      · simp at h; omega
    obtain ⟨rfl, hl4, -, -⟩ := addToBB_eq h4
    obtain ⟨rfl, hl6, -, -⟩ := addToBB_eq h6
    obtain ⟨rfl, hl7, -, -⟩ := addToBB_eq h7
    have e1 : Ext st.blocks (addRaw st3 b3 (.br st1.blocks.length)).blocks :=
      ((F1.ext.trans ((append_ext _ _).trans (append_ext _ _))).trans F3.ext).trans
        (addRaw_ext _ _ _)
    refine ⟨?_, fun b hlt hne => ?_, ?_, (addRaw st3 b3 (.br st1.blocks.length)).blocks.length,
      rfl, Or.inr ?_, ?_, fun _ => ?_⟩
    · rw [addRaw_len, addRaw_len, List.length_append, addRaw_len]; omega
    · rw [addRaw_other (Ne.symm hne), addRaw_other (by omega)]
      dsimp only
      rw [getElem?_old (by rw [addRaw_len]; omega), addRaw_other (by omega),
        F3.same b (by simp; omega) (by omega)]
      dsimp only
      rw [List.append_assoc, getElem?_old (by omega), F1.same b hlt hne]
    · exact ((e1.trans (append_ext _ _)).trans (addRaw_ext
        (⟨(addRaw st3 b3 (.br st1.blocks.length)).blocks ++ [⟨[], false⟩],
          (addRaw st3 b3 (.br st1.blocks.length)).blocks.length :: rest⟩ : Tr S V) _ _)).trans
        (addRaw_ext _ _ _)
    · rw [addRaw_len]; omega
    · simp only [addRaw_len, List.length_append, List.length_cons, List.length_nil]; omega
    · exact lastCF_addRaw hl7 rfl
termination_by p => sizeOf p

end Verif.BB
