import Verif.BB.Lemmas

/-!
# C25: basic-block generation preserves execution
-/

namespace Verif.BB

variable {S V : Type}

/-- Several machine steps from instruction `i` of block `b` in state `s`. -/
inductive Steps (B : List (Block S V)) : ℕ → ℕ → S → ℕ → ℕ → S → Prop
  | refl {b i s} : Steps B b i s b i s
  | act {b i s f b' i' s'} : instr B b i = some (.act f) → Steps B b (i + 1) (f s) b' i' s' →
      Steps B b i s b' i' s'
  | eval {b i s c b' i' s'} : instr B b i = some (.eval c) → Steps B b (i + 1) s b' i' s' →
      Steps B b i s b' i' s'
  | br {b i s d b' i' s'} : instr B b i = some (.br d) → Steps B d 0 s b' i' s' →
      Steps B b i s b' i' s'
  | cbr {b i s c t e b' i' s'} : instr B b i = some (.cbr c t e) →
      Steps B (if c s then t else e) 0 s b' i' s' → Steps B b i s b' i' s'

theorem Steps.trans {B : List (Block S V)} {b i s b' i' s' b'' i'' s''}
    (h : Steps B b i s b' i' s') (h' : Steps B b' i' s' b'' i'' s'') :
    Steps B b i s b'' i'' s'' := by
  induction h with
  | refl => exact h'
  | act hi _ ih => exact .act hi (ih h')
  | eval hi _ ih => exact .eval hi (ih h')
  | br hi _ ih => exact .br hi (ih h')
  | cbr hi _ ih => exact .cbr hi (ih h')

theorem Steps.run {B : List (Block S V)} {b i s b' i' s'} (h : Steps B b i s b' i' s') {m : ℕ}
    {o : Res S V} (hr : run B m b' i' s' = some o) : ∃ m', run B m' b i s = some o := by
  induction h with
  | refl => exact ⟨m, hr⟩
  | act hi _ ih =>
    obtain ⟨m', hm⟩ := ih hr
    refine ⟨m' + 1, ?_⟩
    unfold instr at hi
    unfold Verif.BB.run; rw [hi]; exact hm
  | eval hi _ ih =>
    obtain ⟨m', hm⟩ := ih hr
    refine ⟨m' + 1, ?_⟩
    unfold instr at hi
    unfold Verif.BB.run; rw [hi]; exact hm
  | br hi _ ih =>
    obtain ⟨m', hm⟩ := ih hr
    refine ⟨m' + 1, ?_⟩
    unfold instr at hi
    unfold Verif.BB.run; rw [hi]; exact hm
  | cbr hi _ ih =>
    obtain ⟨m', hm⟩ := ih hr
    refine ⟨m' + 1, ?_⟩
    unfold instr at hi
    unfold Verif.BB.run; rw [hi]; exact hm

/-- From `(b, i, s)` the machine does what `r` says: reach `(b1, i1)` in the final state, or execute
a return. -/
def Good (B : List (Block S V)) (b i : ℕ) (s : S) (r : Res S V) (b1 i1 : ℕ) : Prop :=
  match r with
  | .normal s' => Steps B b i s b1 i1 s'
  | .ret s' v => ∃ b2 i2 e, Steps B b i s b2 i2 s' ∧ instr B b2 i2 = some (.ret e) ∧ v = e s'

theorem Good.pre {B : List (Block S V)} {b i s b' i' s' r b1 i1}
    (h : Steps B b i s b' i' s') (hg : Good B b' i' s' r b1 i1) : Good B b i s r b1 i1 := by
  cases r with
  | normal x => exact h.trans hg
  | ret x v =>
    obtain ⟨b2, i2, e, h1, h2⟩ := hg
    exact ⟨b2, i2, e, h.trans h1, h2⟩

/-- Continue after the end point. -/
theorem Good.post {B : List (Block S V)} {b i s r b1 i1 b2 i2}
    (hg : Good B b i s r b1 i1) (h : ∀ s', r = .normal s' → Steps B b1 i1 s' b2 i2 s') :
    Good B b i s r b2 i2 := by
  cases r with
  | normal x => exact Steps.trans hg (h x rfl)
  | ret x v => exact hg

theorem bind_some {f : S → Option (Res S V)} {o : Option (Res S V)} {r : Res S V}
    (h : Res.bind f o = some r) :
    (∃ s v, o = some (.ret s v) ∧ r = .ret s v) ∨ (∃ s, o = some (.normal s) ∧ f s = some r) := by
  unfold Res.bind at h
  split at h
  · cases h
  · cases h; exact Or.inl ⟨_, _, rfl, rfl⟩
  · exact Or.inr ⟨_, rfl, h⟩

theorem isFinal_new (A : List (Block S V)) (x : Block S V) (stk : List ℕ) :
    isFinal ⟨A ++ [x], stk⟩ A.length = x.final := by
  simp [isFinal]

/-- A program whose translation ends in a block marked final never ends normally. -/
theorem final_no_normal : ∀ (p : Stmt S V) (st st' : Tr S V) (b0 b1 : ℕ), trans p st = some st' →
    cur st = some b0 → b0 < st.blocks.length → isFinal st b0 = false → cur st' = some b1 →
    isFinal st' b1 = true → ∀ n s s', exec n p s ≠ some (.normal s')
  | .skip, st, st', b0, b1, h, hc, hb, hf, hc1, hf1 => by
    simp only [trans, Option.some.injEq] at h
    subst h
    rw [hc] at hc1; cases hc1
    rw [hf] at hf1; cases hf1
  | .act f, st, st', b0, b1, h, hc, hb, hf, hc1, hf1 => by
    simp only [trans, bind, hc, Option.bind_some, Option.some.injEq] at h
    subst h
    have : cur (addRaw st b0 (.act f)) = cur st := rfl
    rw [this, hc] at hc1; cases hc1
    rw [isFinal_addRaw, hf] at hf1; cases hf1
  | .ret e, st, st', b0, b1, h, hc, hb, hf, hc1, hf1 => by
    intro n s s' hx
    simp [exec] at hx
  | .seq p q, st, st', b0, b1, h, hc, hb, hf, hc1, hf1 => by
    intro n s s' hx
    obtain ⟨st1, h1, h2⟩ := trans_seq.1 h
    obtain ⟨b, c, o, l, _⟩ := (frame p st st1 b0 h1 hc hb).cur
    simp only [exec] at hx
    rcases bind_some hx with ⟨x, v, _, hr⟩ | ⟨x, hp, hq⟩
    · cases hr
    · by_cases hfb : isFinal st1 b = true
      · exact final_no_normal p st st1 b0 b h1 hc hb hf c hfb n s x hp
      · exact final_no_normal q st1 st' b b1 h2 c l (by simpa using hfb) hc1 hf1 n x s' hq
  | .ite c t e, st, st', b0, b1, h, hc, hb, hf, hc1, hf1 => by
    exfalso
    obtain ⟨entry, rest, hst, st2, h2, ifEnd, rest2, hst2, ee, next, st3, h3, st4, h4, h5⟩ :=
      trans_ite h
    have FE : FrameElse ⟨st2.blocks, rest2⟩ st3 next :=
      frameElse_of h3 (fun e' _ => frame e')
    obtain ⟨rfl, -, -, -⟩ := addToBB_eq h4
    have hnew : isFinal st3 next = false := by simp [isFinal, FE.new]
    split at h5
    · cases h5
      have : b1 = next := by
        have : cur (addRaw st3 entry (.cbr c st.blocks.length ee)) = cur st3 := rfl
        rw [this, FE.cur] at hc1; cases hc1; rfl
      rw [this, isFinal_addRaw, hnew] at hf1; cases hf1
    · obtain ⟨rfl, -, -, -⟩ := addToBB_eq h5
      have : b1 = next := by
        have : cur (addRaw (addRaw st3 entry (.cbr c st.blocks.length ee)) ifEnd (.br next)) =
          cur st3 := rfl
        rw [this, FE.cur] at hc1; cases hc1; rfl
      rw [this, isFinal_addRaw, isFinal_addRaw, hnew] at hf1; cases hf1
  | .loop i c body, st, st', b0, b1, h, hc, hb, hf, hc1, hf1 => by
    exfalso
    obtain ⟨b0', h0, st1, h1, st3, h3, eb, rest, hst3, st4, h4, st6, h6, h7⟩ := trans_loop h
    obtain ⟨rfl, -, -, -⟩ := addToBB_eq h6
    obtain ⟨rfl, -, -, -⟩ := addToBB_eq h7
    have : b1 = st4.blocks.length := by
      simp [cur, addRaw] at hc1; exact hc1.symm
    rw [this, isFinal_addRaw, isFinal_addRaw, isFinal_new] at hf1; cases hf1
termination_by p => sizeOf p

/-- `p` never reaches its end. -/
def NoNormal (p : Stmt S V) : Prop := ∀ n s s', exec n p s ≠ some (.normal s')

/-- The code of `p` is found in `B` from instruction `i` of block `b` on; when `p` ends normally,
execution goes on at instruction `i1` of block `b1`. -/
inductive Layout (B : List (Block S V)) : Stmt S V → ℕ → ℕ → ℕ → ℕ → Prop
  | skip {b i} : Layout B .skip b i b i
  | act {f b i} : instr B b i = some (.act f) → Layout B (.act f) b i b (i + 1)
  | ret {e b i b1 i1} : instr B b i = some (.ret e) → Layout B (.ret e) b i b1 i1
  | seq {p q b i b1 i1 b2 i2} : Layout B p b i b1 i1 → Layout B q b1 i1 b2 i2 →
      Layout B (.seq p q) b i b2 i2
  | ite1 {c t b i tb bt it nx} : instr B b i = some (.cbr c tb nx) → Layout B t tb 0 bt it →
      (NoNormal t ∨ instr B bt it = some (.br nx)) → Layout B (.ite c t none) b i nx 0
  | ite2 {c t e b i tb eb bt it be ie nx} : instr B b i = some (.cbr c tb eb) →
      Layout B t tb 0 bt it → (NoNormal t ∨ instr B bt it = some (.br nx)) →
      Layout B e eb 0 be ie → (NoNormal e ∨ instr B be ie = some (.br nx)) →
      Layout B (.ite c t (some e)) b i nx 0
  | loop {init c body b i b2 i2 h bb be ie nx} : Layout B init b i b2 i2 →
      instr B b2 i2 = some (.br h) → instr B h 0 = some (.eval c) →
      instr B h 1 = some (.cbr c bb nx) → Layout B body bb 0 be ie →
      instr B be ie = some (.br h) → Layout B (.loop init c body) b i nx 0

/-- A branch added after the end of a block, once all that follows left the block alone. -/
theorem jump {st : Tr S V} {b d : ℕ} {B : List (Block S V)} {A : List (Block S V)}
    (hb : b < st.blocks.length) (hB : Ext (addRaw st b (.br d)).blocks B)
    (hA : A[b]? = st.blocks[b]?) : instr B b (blen A b) = some (.br d) := by
  rw [blen_congr hA]
  exact addRaw_at hb hB

/-- Whatever is appended later, the translation of `p` lays its code out. -/
theorem layout : ∀ (p : Stmt S V) (st st' : Tr S V) (b0 b1 : ℕ) (B : List (Block S V)),
    trans p st = some st' → cur st = some b0 → b0 < st.blocks.length → cur st' = some b1 →
    Ext st'.blocks B → Layout B p b0 (blen st.blocks b0) b1 (blen st'.blocks b1)
  | .skip, st, st', b0, b1, B, h, hc, hb, hc1, hB => by
    simp only [trans, Option.some.injEq] at h
    subst h
    rw [hc] at hc1; cases hc1
    exact .skip
  | .act f, st, st', b0, b1, B, h, hc, hb, hc1, hB => by
    simp only [trans, bind, hc, Option.bind_some, Option.some.injEq] at h
    subst h
    have : cur (addRaw st b0 (.act f)) = cur st := rfl
    rw [this, hc] at hc1; cases hc1
    have hl : blen (addRaw st b0 (.act f)).blocks b0 = blen st.blocks b0 + 1 := by
      unfold blen
      rw [addRaw_get, if_pos rfl, List.getElem?_eq_getElem hb]
      simp
    rw [hl]
    exact .act (addRaw_at hb hB)
  | .ret e, st, st', b0, b1, B, h, hc, hb, hc1, hB => by
    simp only [trans, bind, hc, Option.bind_some, Option.some.injEq] at h
    subst h
    exact .ret (addRaw_at hb ((setFinal_ext _ _).trans hB))
  | .seq p q, st, st', b0, b1, B, h, hc, hb, hc1, hB => by
    obtain ⟨st1, h1, h2⟩ := trans_seq.1 h
    obtain ⟨b, c, o, l, _⟩ := (frame p st st1 b0 h1 hc hb).cur
    have hB1 : Ext st1.blocks B := (frame q st1 st' b h2 c l).ext.trans hB
    exact .seq (layout p st st1 b0 b B h1 hc hb c hB1) (layout q st1 st' b b1 B h2 c l hc1 hB)
  | .ite c t e, st, st', b0, b1, B, h, hc, hb, hc1, hB => by
    obtain ⟨entry, rest, hst, st2, h2, ifEnd, rest2, hst2, ee, next, st3, h3, st4, h4, h5⟩ :=
      trans_ite h
    have : entry = b0 := by simp [cur, hst] at hc; exact hc
    subst this
    have F := frame t _ st2 st.blocks.length h2 rfl (by simp)
    have hlen := F.len
    simp only [List.length_append, List.length_cons, List.length_nil] at hlen
    obtain ⟨bi, hci, hbi, hlt, -⟩ := F.cur
    have : bi = ifEnd := by simp [cur, hst2] at hci; exact hci.symm
    subst this
    have hge : st.blocks.length ≤ bi := by
      rcases hbi with h | h
      · omega
      · simp at h; omega
    have hsame : ∀ b, b < st.blocks.length → st2.blocks[b]? = st.blocks[b]? := by
      intro b hb
      rw [F.same b (by simp; omega) (by omega)]
      exact getElem?_old hb
    have FE : FrameElse ⟨st2.blocks, rest2⟩ st3 next := frameElse_of h3 (fun e' _ => frame e')
    have hl3 := FE.len
    have hlo := FE.lo
    have hhi := FE.hi
    dsimp only at hl3 hlo
    obtain ⟨rfl, hlt4, -, -⟩ := addToBB_eq h4
    -- facts shared by the two endings
    have hfin : Ext (addRaw st3 entry (.cbr c st.blocks.length ee)).blocks B ∧ b1 = next ∧
        blen st'.blocks b1 = 0 ∧
        (NoNormal t ∨ instr B bi (blen st2.blocks bi) = some (.br next)) := by
      split at h5
      · rename_i hf
        cases h5
        have hbn : b1 = next := by
          have : cur (addRaw st3 entry (.cbr c st.blocks.length ee)) = cur st3 := rfl
          rw [this, FE.cur] at hc1; cases hc1; rfl
        refine ⟨hB, hbn, ?_, Or.inl ?_⟩
        · unfold blen
          rw [hbn, addRaw_other (by omega), FE.new]; rfl
        · refine final_no_normal t _ st2 st.blocks.length bi h2 rfl (by simp)
            (isFinal_new _ _ _) hci ?_
          rw [isFinal_addRaw] at hf
          rw [← hf]
          exact (isFinal_congr (FE.same bi hlt)).symm
      · rename_i hf
        obtain ⟨rfl, hlt5, -, -⟩ := addToBB_eq h5
        have hbn : b1 = next := by
          have : cur (addRaw (addRaw st3 entry (.cbr c st.blocks.length ee)) bi (.br next)) =
            cur st3 := rfl
          rw [this, FE.cur] at hc1; cases hc1; rfl
        refine ⟨(addRaw_ext _ _ _).trans hB, hbn, ?_, Or.inr ?_⟩
        · unfold blen
          rw [hbn, addRaw_other (by omega), addRaw_other (by omega), FE.new]; rfl
        · refine jump hlt5 hB ?_
          rw [addRaw_other (by omega), FE.same bi hlt]
    obtain ⟨hB4, rfl, hlen1, hjump⟩ := hfin
    rw [hlen1]
    have hcbr : instr B entry (blen st.blocks entry) = some (.cbr c st.blocks.length ee) := by
      rw [blen_congr ((hsame entry hb).symm.trans (FE.same entry (by simp; omega)).symm)]
      exact addRaw_at hlt4 hB4
    have hB3 : Ext st3.blocks B := (addRaw_ext _ _ _).trans hB4
    have lt := layout t _ st2 st.blocks.length bi B h2 rfl (by simp) hci (FE.ext.trans hB3)
    have h0 : blen (st.blocks ++ [⟨[], false⟩]) st.blocks.length = 0 := by simp [blen]
    dsimp only at lt
    rw [h0] at lt
    cases e with
    | none =>
      simp only [transElse, pushNew, Option.some.injEq, Prod.mk.injEq] at h3
      obtain ⟨h31, h32, -⟩ := h3
      have : ee = b1 := h31.symm.trans h32
      rw [this] at hcbr
      exact .ite1 hcbr lt hjump
    | some e' =>
      obtain ⟨rfl, se, he2, elseEnd, re, hse, hnx, he5⟩ := transElse_some h3
      have Fe := frame e' _ se st2.blocks.length he2 rfl (by simp)
      obtain ⟨be, hce, hbe, hlte, -⟩ := Fe.cur
      have : be = elseEnd := by simp [cur, hse] at hce; exact hce.symm
      subst this
      have hle := Fe.len
      simp only [List.length_append, List.length_cons, List.length_nil] at hle
      have hBe : Ext se.blocks B := by
        split at he5
        · cases he5; exact (append_ext _ _).trans hB3
        · obtain ⟨rfl, -, -, -⟩ := addToBB_eq he5
          exact ((append_ext _ _).trans (addRaw_ext
            (⟨se.blocks ++ [⟨[], false⟩], se.blocks.length :: re⟩ : Tr S V) _ _)).trans hB3
      have le := layout e' _ se st2.blocks.length be B he2 rfl (by simp) hce hBe
      have h0 : blen (st2.blocks ++ [⟨[], false⟩]) st2.blocks.length = 0 := by simp [blen]
      dsimp only at le
      rw [h0] at le
      refine .ite2 hcbr lt hjump le ?_
      split at he5
      · rename_i hf
        left
        refine final_no_normal e' _ se st2.blocks.length be he2 rfl (by simp)
          (isFinal_new _ _ _) hce ?_
        rw [← hf]
        exact (isFinal_congr (getElem?_old (by omega))).symm
      · obtain ⟨rfl, hl, -, -⟩ := addToBB_eq he5
        exact Or.inr (jump hl hB3 (getElem?_old (by omega)).symm)
  | .loop i c body, st, st', b0, b1, B, h, hc, hb, hc1, hB => by
    obtain ⟨b0', h0, st1, h1, st3, h3, eb, rest, hst3, st4, h4, st6, h6, h7⟩ := trans_loop h
    have : b0' = b0 := by rw [hc] at h0; cases h0; rfl
    subst this
    have F1 := frame i st st1 b0' h1 hc hb
    have F3 := frame body _ st3 (st1.blocks.length + 1) h3 rfl (by simp)
    have l1 := F1.len
    have l3 := F3.len
    simp only [List.length_append, List.length_cons, List.length_nil] at l3
    obtain ⟨b3, hc3, hb3, hlt3, -⟩ := F3.cur
    have : b3 = eb := by simp [cur, hst3] at hc3; exact hc3.symm
    subst this
    have hge : st1.blocks.length < b3 := by
      rcases hb3 with h | h
      · omega
      · simp at h; omega
    obtain ⟨bi, hci, hbi, hlti, hncf⟩ := F1.cur
    obtain ⟨rfl, hl4, -, -⟩ := addToBB_eq h4
    obtain ⟨rfl, hl6, -, -⟩ := addToBB_eq h6
    obtain ⟨rfl, hl7, -, hnocf⟩ := addToBB_eq h7
    -- the pre-header is untouched since the end of `init`
    have hsame0 : st1.blocks[b0']? = (addRaw (⟨(addRaw st3 b3 (.br st1.blocks.length)).blocks ++
        [⟨[], false⟩], (addRaw st3 b3 (.br st1.blocks.length)).blocks.length :: rest⟩ : Tr S V)
        st1.blocks.length (.cbr c (st1.blocks.length + 1)
          (addRaw st3 b3 (.br st1.blocks.length)).blocks.length)).blocks[b0']? := by
      rw [addRaw_other (by omega)]
      dsimp only
      rw [getElem?_old (by rw [addRaw_len]; omega), addRaw_other (by omega),
        F3.same b0' (by simp; omega) (by omega)]
      dsimp only
      rw [List.append_assoc, getElem?_old (by omega)]
    -- so `init` did not contain control flow
    have hbi0 : bi = b0' := by
      by_contra hne
      obtain ⟨bb, x, hbb, hx1, hx2⟩ := hncf hne
      rw [hnocf bb (hsame0.symm.trans hbb) x hx1] at hx2
      cases hx2
    subst hbi0
    have hbn : b1 = (addRaw st3 b3 (.br st1.blocks.length)).blocks.length := by
      simp [cur, addRaw] at hc1; simp [addRaw]; exact hc1.symm
    have hB6 := (addRaw_ext _ _ _).trans hB
    have hB5 := (addRaw_ext _ _ _).trans hB6
    have hB4 := (append_ext _ _).trans hB5
    have hB3 := (addRaw_ext _ _ _).trans hB4
    have hB1 : Ext st1.blocks B := ((append_ext _ _).trans (append_ext _ _)).trans
      (F3.ext.trans hB3)
    have hlen1 : blen (addRaw (addRaw (⟨(addRaw st3 b3 (.br st1.blocks.length)).blocks ++
        [⟨[], false⟩], (addRaw st3 b3 (.br st1.blocks.length)).blocks.length :: rest⟩ : Tr S V)
        st1.blocks.length (.cbr c (st1.blocks.length + 1)
          (addRaw st3 b3 (.br st1.blocks.length)).blocks.length)) bi
          (.br st1.blocks.length)).blocks b1 = 0 := by
      unfold blen
      rw [addRaw_other (by rw [hbn, addRaw_len]; omega),
        addRaw_other (by rw [hbn, addRaw_len]; omega), hbn]
      simp
    rw [hlen1]
    have hjinit : instr B bi (blen st1.blocks bi) = some (.br st1.blocks.length) :=
      jump hl7 hB hsame0
    -- the header
    have hhead : (addRaw st3 b3 (.br st1.blocks.length)).blocks[st1.blocks.length]? =
        some ⟨[.eval c], false⟩ := by
      rw [addRaw_other (by omega), F3.same _ (by simp) (by omega)]
      dsimp only
      rw [List.append_assoc]
      simp
    have hi0 : instr B st1.blocks.length 0 = some (.eval c) := by
      obtain ⟨bb', g1, r', g2⟩ := hB4 _ _ hhead
      unfold instr
      rw [g1]
      dsimp only [Option.bind_some]
      rw [← g2]; rfl
    have hi1 : instr B st1.blocks.length 1 =
        some (.cbr c (st1.blocks.length + 1) b1) := by
      have hbl : blen ((addRaw st3 b3 (.br st1.blocks.length)).blocks ++ [⟨[], false⟩])
          st1.blocks.length = 1 := by
        unfold blen
        rw [getElem?_old (by rw [addRaw_len]; omega), hhead]; rfl
      have := addRaw_at hl6 hB6
      dsimp only at this
      rw [hbl] at this
      rw [this, hbn]
    have hbody0 : blen (st1.blocks ++ [⟨[.eval c], false⟩] ++ [⟨[], false⟩])
        (st1.blocks.length + 1) = 0 := by
      have : (st1.blocks ++ [(⟨[.eval c], false⟩ : Block S V)]).length = st1.blocks.length + 1 := by
        simp
      unfold blen
      rw [← this]
      simp
    have lb := layout body _ st3 (st1.blocks.length + 1) b3 B h3 rfl (by simp) hc3 hB3
    dsimp only at lb
    rw [hbody0] at lb
    exact .loop (layout i st st1 bi bi B h1 hc hb hci hB1) hjinit hi0 hi1 lb (jump hl4 hB4 rfl)
termination_by p => sizeOf p

/-- **Simulation.**  Laid-out code does what the program does. -/
theorem Layout.sim {B : List (Block S V)} {p : Stmt S V} {b i b1 i1 : ℕ}
    (h : Layout B p b i b1 i1) : ∀ n s r, exec n p s = some r → Good B b i s r b1 i1 := by
  induction h with
  | skip =>
    intro n s r hx
    simp only [exec, Option.some.injEq] at hx
    subst hx
    exact .refl
  | act hi =>
    intro n s r hx
    simp only [exec, Option.some.injEq] at hx
    subst hx
    exact .act hi .refl
  | ret hi =>
    intro n s r hx
    simp only [exec, Option.some.injEq] at hx
    subst hx
    exact ⟨_, _, _, .refl, hi, rfl⟩
  | seq _ _ ih1 ih2 =>
    intro n s r hx
    simp only [exec] at hx
    rcases bind_some hx with ⟨x, v, hp, rfl⟩ | ⟨x, hp, hq⟩
    · exact ih1 n s _ hp
    · exact Good.pre (ih1 n s _ hp) (ih2 n x r hq)
  | ite1 hi _ hj ih =>
    intro n s r hx
    simp only [exec, execElse] at hx
    split at hx
    · rename_i hc
      refine Good.pre (Steps.cbr hi (by rw [if_pos hc]; exact .refl)) ((ih n s r hx).post ?_)
      intro s' hr
      subst hr
      rcases hj with hj | hj
      · exact absurd hx (hj n s s')
      · exact .br hj .refl
    · rename_i hc
      cases hx
      exact Steps.cbr hi (by rw [if_neg hc]; exact .refl)
  | ite2 hi _ hj _ hj' ih ih' =>
    intro n s r hx
    simp only [exec, execElse] at hx
    split at hx
    · rename_i hc
      refine Good.pre (Steps.cbr hi (by rw [if_pos hc]; exact .refl)) ((ih n s r hx).post ?_)
      intro s' hr
      subst hr
      rcases hj with hj | hj
      · exact absurd hx (hj n s s')
      · exact .br hj .refl
    · rename_i hc
      refine Good.pre (Steps.cbr hi (by rw [if_neg hc]; exact .refl)) ((ih' n s r hx).post ?_)
      intro s' hr
      subst hr
      rcases hj' with hj | hj
      · exact absurd hx (hj n s s')
      · exact .br hj .refl
  | @loop init c body b i b2 i2 hd bb be ie nx _ hbr hi0 hi1 _ hback ih1 ih2 =>
    intro n s r hx
    have hloop : ∀ k x r, whileN c (exec n body) k x = some r → Good B hd 0 x r nx 0 := by
      intro k
      induction k with
      | zero => intro x r hw; simp [whileN] at hw
      | succ k ih =>
        intro x r hw
        unfold whileN at hw
        split at hw
        · rename_i hcx
          have hst : Steps B hd 0 x bb 0 x := by
            refine .eval hi0 (.cbr hi1 ?_)
            rw [if_pos hcx]; exact .refl
          rcases bind_some hw with ⟨y, v, hy, rfl⟩ | ⟨y, hy, hw'⟩
          · exact Good.pre hst (ih2 n x _ hy)
          · exact Good.pre (hst.trans (Steps.trans (ih2 n x _ hy) (.br hback .refl))) (ih y r hw')
        · rename_i hcx
          cases hw
          refine Steps.eval hi0 (.cbr hi1 ?_)
          rw [if_neg hcx]; exact .refl
    simp only [exec] at hx
    rcases bind_some hx with ⟨x, v, hp, rfl⟩ | ⟨x, hp, hq⟩
    · exact ih1 n s _ hp
    · exact Good.pre (Steps.trans (ih1 n s _ hp) (.br hbr .refl)) (hloop n x r hq)

/-- Machine steps only use up fuel. -/
theorem Steps.run_fwd {B : List (Block S V)} {b i s b' i' s'} (h : Steps B b i s b' i' s') :
    ∀ {m : ℕ} {o : Res S V}, Verif.BB.run B m b i s = some o →
      ∃ m', m' ≤ m ∧ Verif.BB.run B m' b' i' s' = some o := by
  induction h with
  | refl => intro m o hr; exact ⟨m, Nat.le_refl _, hr⟩
  | act hi _ ih | eval hi _ ih | br hi _ ih | cbr hi _ ih =>
    intro m o hr
    cases m with
    | zero => simp [Verif.BB.run] at hr
    | succ m =>
      unfold instr at hi
      unfold Verif.BB.run at hr
      rw [hi] at hr
      obtain ⟨m', h1, h2⟩ := ih hr
      exact ⟨m', by omega, h2⟩

theorem bind_none {f : S → Option (Res S V)} {o : Option (Res S V)}
    (h : Res.bind f o = none) : o = none ∨ ∃ s, o = some (.normal s) ∧ f s = none := by
  unfold Res.bind at h
  split at h
  · exact Or.inl rfl
  · cases h
  · exact Or.inr ⟨_, rfl, h⟩

/-- **Divergence.**  A program not finished within `n` iterations of its loops keeps the machine
running for more than `n` steps. -/
theorem Layout.div {B : List (Block S V)} {p : Stmt S V} {b i b1 i1 : ℕ}
    (h : Layout B p b i b1 i1) : ∀ n s, exec n p s = none → ∀ m o, run B m b i s = some o → n < m := by
  induction h with
  | skip => intro n s hx; simp [exec] at hx
  | act hi => intro n s hx; simp [exec] at hx
  | ret hi => intro n s hx; simp [exec] at hx
  | seq hl _ ih1 ih2 =>
    intro n s hx m o hr
    simp only [exec] at hx
    rcases bind_none hx with hp | ⟨x, hp, hq⟩
    · exact ih1 n s hp m o hr
    · obtain ⟨m', h1, h2⟩ := Steps.run_fwd (hl.sim n s _ hp) hr
      have := ih2 n x hq m' o h2
      omega
  | ite1 hi _ hj ih =>
    intro n s hx m o hr
    simp only [exec, execElse] at hx
    split at hx
    · rename_i hc
      obtain ⟨m', h1, h2⟩ :=
        (Steps.cbr hi (by rw [if_pos hc]; exact .refl) : Steps B _ _ s _ 0 s).run_fwd hr
      have := ih n s hx m' o h2
      omega
    · cases hx
  | ite2 hi _ hj _ hj' ih ih' =>
    intro n s hx m o hr
    simp only [exec, execElse] at hx
    split at hx
    · rename_i hc
      obtain ⟨m', h1, h2⟩ :=
        (Steps.cbr hi (by rw [if_pos hc]; exact .refl) : Steps B _ _ s _ 0 s).run_fwd hr
      have := ih n s hx m' o h2
      omega
    · rename_i hc
      obtain ⟨m', h1, h2⟩ :=
        (Steps.cbr hi (by rw [if_neg hc]; exact .refl) : Steps B _ _ s _ 0 s).run_fwd hr
      have := ih' n s hx m' o h2
      omega
  | @loop init c body b i b2 i2 hd bb be ie nx hl1 hbr hi0 hi1 hl2 hback ih1 ih2 =>
    intro n s hx m o hr
    have hloop : ∀ k, k ≤ n → ∀ x, whileN c (exec n body) k x = none → ∀ m o,
        run B m hd 0 x = some o → k < m := by
      intro k
      induction k with
      | zero =>
        intro _ x _ m o hr
        cases m with
        | zero => simp [Verif.BB.run] at hr
        | succ m => omega
      | succ k ih =>
        intro hk x hw m o hr
        unfold whileN at hw
        split at hw
        · rename_i hcx
          cases m with
          | zero => simp [Verif.BB.run] at hr
          | succ m =>
            have hr1 : run B m hd 1 x = some o := by
              unfold Verif.BB.run at hr
              unfold instr at hi0
              rw [hi0] at hr
              exact hr
            obtain ⟨m', h1, h2⟩ :=
              (Steps.cbr hi1 (by rw [if_pos hcx]; exact .refl) : Steps B hd 1 x bb 0 x).run_fwd hr1
            rcases bind_none hw with hp | ⟨y, hy, hw'⟩
            · have := ih2 n x hp m' o h2
              omega
            · obtain ⟨m'', h3, h4⟩ :=
                (Steps.trans (hl2.sim n x _ hy) (.br hback .refl)).run_fwd h2
              have := ih (by omega) y hw' m'' o h4
              omega
        · cases hw
    simp only [exec] at hx
    rcases bind_none hx with hp | ⟨x, hp, hq⟩
    · exact ih1 n s hp m o hr
    · obtain ⟨m', h1, h2⟩ := (Steps.trans (hl1.sim n s _ hp) (.br hbr .refl)).run_fwd hr
      have := hloop n (Nat.le_refl _) x hq m' o h2
      omega

end Verif.BB
