import Verif.BB.Gen

/-!
# C25: which programs basic-block generation accepts
-/

namespace Verif.BB

variable {S V : Type}

/-- What the current block looks like after a translation: its `final` flag is `fin`, and its last
instruction is not a branch. -/
theorem post : ∀ (p : Stmt S V) (st st' : Tr S V) (b0 b1 : ℕ), trans p st = some st' →
    cur st = some b0 → b0 < st.blocks.length → ¬ LastCF st b0 → cur st' = some b1 →
    isFinal st' b1 = fin (isFinal st b0) p ∧ ¬ LastCF st' b1
  | .skip, st, st', b0, b1, h, hc, hb, hn, hc1 => by
    simp only [trans, Option.some.injEq] at h
    subst h
    rw [hc] at hc1; cases hc1
    exact ⟨rfl, hn⟩
  | .act f, st, st', b0, b1, h, hc, hb, hn, hc1 => by
    simp only [trans, bind, hc, Option.bind_some, Option.some.injEq] at h
    subst h
    have : cur (addRaw st b0 (.act f)) = cur st := rfl
    rw [this, hc] at hc1; cases hc1
    refine ⟨isFinal_addRaw _ _ _ _, ?_⟩
    rintro ⟨bb, x, h1, h2, h3⟩
    rw [addRaw_get, if_pos rfl, List.getElem?_eq_getElem hb] at h1
    cases h1
    simp at h2
    subst h2
    cases h3
  | .ret e, st, st', b0, b1, h, hc, hb, hn, hc1 => by
    simp only [trans, bind, hc, Option.bind_some, Option.some.injEq] at h
    subst h
    have : cur (setFinal (addRaw st b0 (.ret e)) b0) = cur st := rfl
    rw [this, hc] at hc1; cases hc1
    constructor
    · unfold isFinal
      rw [setFinal_get, if_pos rfl, addRaw_get, if_pos rfl, List.getElem?_eq_getElem hb]
      rfl
    · rintro ⟨bb, x, h1, h2, h3⟩
      rw [setFinal_get, if_pos rfl, addRaw_get, if_pos rfl, List.getElem?_eq_getElem hb] at h1
      cases h1
      simp at h2
      subst h2
      cases h3
  | .seq p q, st, st', b0, b1, h, hc, hb, hn, hc1 => by
    obtain ⟨st1, h1, h2⟩ := trans_seq.1 h
    obtain ⟨b, c, o, l, _⟩ := (frame p st st1 b0 h1 hc hb).cur
    obtain ⟨hf, hn1⟩ := post p st st1 b0 b h1 hc hb hn c
    have := post q st1 st' b b1 h2 c l hn1 hc1
    rw [hf] at this
    exact this
  | .ite c t e, st, st', b0, b1, h, hc, hb, hn, hc1 => by
    obtain ⟨entry, rest, hst, st2, h2, ifEnd, rest2, hst2, ee, next, st3, h3, st4, h4, h5⟩ :=
      trans_ite h
    have : entry = b0 := by simp [cur, hst] at hc; exact hc
    subst this
    have F := frame t _ st2 st.blocks.length h2 rfl (by simp)
    have hlen := F.len
    simp only [List.length_append, List.length_cons, List.length_nil] at hlen
    obtain ⟨bi, hci, hbi, hlt, -⟩ := F.cur
    have : bi = ifEnd := by simp [cur, hst2] at hci; exact hci.symm
    subst this
    have FE : FrameElse ⟨st2.blocks, rest2⟩ st3 next := frameElse_of h3 (fun e' _ => frame e')
    have hlo := FE.lo
    dsimp only at hlo
    obtain ⟨rfl, hlt4, -, -⟩ := addToBB_eq h4
    have key : ∀ st' : Tr S V, st'.blocks[next]? = some ⟨[], false⟩ →
        isFinal st' next = false ∧ ¬ LastCF st' next := by
      intro st' hs
      refine ⟨by simp [isFinal, hs], ?_⟩
      rintro ⟨bb, x, h1, h2, -⟩
      rw [hs] at h1; cases h1; cases h2
    split at h5
    · cases h5
      have hbn : b1 = next := by
        have : cur (addRaw st3 entry (.cbr c st.blocks.length ee)) = cur st3 := rfl
        rw [this, FE.cur] at hc1; cases hc1; rfl
      subst hbn
      exact key _ (by rw [addRaw_other (by omega), FE.new])
    · obtain ⟨rfl, hlt5, -, -⟩ := addToBB_eq h5
      have hbn : b1 = next := by
        have : cur (addRaw (addRaw st3 entry (.cbr c st.blocks.length ee)) bi (.br next)) =
          cur st3 := rfl
        rw [this, FE.cur] at hc1; cases hc1; rfl
      subst hbn
      exact key _ (by rw [addRaw_other (by omega), addRaw_other (by omega), FE.new])
  | .loop i c body, st, st', b0, b1, h, hc, hb, hn, hc1 => by
    obtain ⟨b0', h0, st1, h1, st3, h3, eb, rest, hst3, st4, h4, st6, h6, h7⟩ := trans_loop h
    have : b0' = b0 := by rw [hc] at h0; cases h0; rfl
    subst this
    have F1 := frame i st st1 b0' h1 hc hb
    have F3 := frame body _ st3 (st1.blocks.length + 1) h3 rfl (by simp)
    have l1 := F1.len
    have l3 := F3.len
    simp only [List.length_append, List.length_cons, List.length_nil] at l3
    obtain ⟨rfl, hl4, -, -⟩ := addToBB_eq h4
    obtain ⟨rfl, hl6, -, -⟩ := addToBB_eq h6
    obtain ⟨rfl, hl7, -, -⟩ := addToBB_eq h7
    have hb1 : b1 = st3.blocks.length := by
      simp [cur, addRaw] at hc1; exact hc1.symm
    subst hb1
    have hs : (addRaw (addRaw (⟨(addRaw st3 eb (.br st1.blocks.length)).blocks ++ [⟨[], false⟩],
          (addRaw st3 eb (.br st1.blocks.length)).blocks.length :: rest⟩ : Tr S V)
          st1.blocks.length (.cbr c (st1.blocks.length + 1)
            (addRaw st3 eb (.br st1.blocks.length)).blocks.length)) b0'
          (.br st1.blocks.length)).blocks[st3.blocks.length]? = some ⟨[], false⟩ := by
      rw [addRaw_other (by omega), addRaw_other (by omega)]
      dsimp only
      have := getElem?_new (addRaw st3 eb (.br st1.blocks.length)).blocks (⟨[], false⟩ : Block S V)
      rw [addRaw_len] at this
      exact this
    refine ⟨by simp only [isFinal, hs]; rfl, ?_⟩
    rintro ⟨bb, x, h1, h2, -⟩
    rw [hs] at h1; cases h1; cases h2
termination_by p => sizeOf p

theorem addToBB_ok {st : Tr S V} {b : ℕ} {i : Instr S V} (hb : b < st.blocks.length)
    (hf : isFinal st b = false) (hn : ¬ LastCF st b) : addToBB st b i = some (addRaw st b i) := by
  unfold addToBB
  rw [List.getElem?_eq_getElem hb]
  dsimp only
  rw [if_pos]
  unfold isFinal at hf
  rw [List.getElem?_eq_getElem hb] at hf
  simp only [Option.map_some, Option.getD_some] at hf
  rw [hf]
  cases hl : (st.blocks[b]).insts.getLast? with
  | none => rw [List.getLast?_eq_none_iff.1 hl]; rfl
  | some x =>
    cases hx : x.isCF with
    | false => simp [hx]
    | true => exact absurd ⟨_, x, List.getElem?_eq_getElem hb, hl, hx⟩ hn

/-- A straight-line program without return. -/
theorem straight_trans : ∀ (p : Stmt S V) (st : Tr S V) (b0 : ℕ), Straight p → cur st = some b0 →
    ∃ st', trans p st = some st' ∧ cur st' = some b0
  | .skip, st, b0, _, hc => ⟨st, by simp [trans], hc⟩
  | .act f, st, b0, _, hc => ⟨addRaw st b0 (.act f), by simp [trans, hc], hc⟩
  | .seq p q, st, b0, h, hc => by
    simp only [Straight] at h
    obtain ⟨st1, h1, c1⟩ := straight_trans p st b0 h.1 hc
    obtain ⟨st2, h2, c2⟩ := straight_trans q st1 b0 h.2 c1
    exact ⟨st2, trans_seq.2 ⟨st1, h1, h2⟩, c2⟩
  | .ret _, _, _, h, _ => by simp [Straight] at h
  | .ite _ _ _, _, _, h, _ => by simp [Straight] at h
  | .loop _ _ _, _, _, h, _ => by simp [Straight] at h

theorem straight_fin : ∀ (p : Stmt S V) (f : Bool), Straight p → fin f p = f
  | .skip, _, _ => rfl
  | .act _, _, _ => rfl
  | .seq p q, f, h => by
    simp only [Straight] at h
    simp only [fin]
    rw [straight_fin p f h.1, straight_fin q f h.2]
  | .ret _, _, h => by simp [Straight] at h
  | .ite _ _ _, _, h => by simp [Straight] at h
  | .loop _ _ _, _, h => by simp [Straight] at h

theorem not_lastCF_new (A : List (Block S V)) (stk : List ℕ) :
    ¬ LastCF (⟨A ++ [⟨[], false⟩], stk⟩ : Tr S V) A.length := by
  rintro ⟨bb, x, h1, h2, -⟩
  rw [getElem?_new] at h1; cases h1; cases h2

theorem not_lastCF_congr {st st' : Tr S V} {b : ℕ} (h : st'.blocks[b]? = st.blocks[b]?)
    (hl : ¬ LastCF st b) : ¬ LastCF st' b := fun hh => hl (hh.congr h.symm)

/-- Acceptable programs are accepted. -/
theorem accept : ∀ (p : Stmt S V) (st : Tr S V) (b0 : ℕ), cur st = some b0 →
    b0 < st.blocks.length → ¬ LastCF st b0 → Acceptable (isFinal st b0) p →
    ∃ st', trans p st = some st'
  | .skip, st, b0, hc, hb, hn, ha => ⟨st, by simp [trans]⟩
  | .act f, st, b0, hc, hb, hn, ha => ⟨_, by simp [trans, hc]; rfl⟩
  | .ret e, st, b0, hc, hb, hn, ha => ⟨_, by simp [trans, hc]; rfl⟩
  | .seq p q, st, b0, hc, hb, hn, ha => by
    simp only [Acceptable] at ha
    obtain ⟨st1, h1⟩ := accept p st b0 hc hb hn ha.1
    obtain ⟨b, c, o, l, _⟩ := (frame p st st1 b0 h1 hc hb).cur
    obtain ⟨hf, hn1⟩ := post p st st1 b0 b h1 hc hb hn c
    obtain ⟨st2, h2⟩ := accept q st1 b c l hn1 (by rw [hf]; exact ha.2)
    exact ⟨st2, trans_seq.2 ⟨st1, h1, h2⟩⟩
  | .ite c t e, st, b0, hc, hb, hn, ha => by
    simp only [Acceptable] at ha
    obtain ⟨hf0, hat, hae⟩ := ha
    obtain ⟨rest, hst⟩ : ∃ rest, st.stack = b0 :: rest := by
      unfold cur at hc
      cases hs : st.stack with
      | nil => rw [hs] at hc; cases hc
      | cons a r => rw [hs] at hc; cases hc; exact ⟨r, rfl⟩
    obtain ⟨st2, h2⟩ := accept t ⟨st.blocks ++ [⟨[], false⟩], st.blocks.length :: rest⟩
      st.blocks.length rfl (by simp) (not_lastCF_new _ _)
      (by rw [isFinal_new]; exact hat)
    have F := frame t _ st2 st.blocks.length h2 rfl (by simp)
    have hlen := F.len
    simp only [List.length_append, List.length_cons, List.length_nil] at hlen
    obtain ⟨bi, hci, hbi, hlt, -⟩ := F.cur
    obtain ⟨rest2, hst2⟩ : ∃ rest2, st2.stack = bi :: rest2 := by
      unfold cur at hci
      cases hs : st2.stack with
      | nil => rw [hs] at hci; cases hci
      | cons a r => rw [hs] at hci; cases hci; exact ⟨r, rfl⟩
    have hge : st.blocks.length ≤ bi := by
      rcases hbi with h | h
      · omega
      · simp at h; omega
    have P := post t _ st2 st.blocks.length bi h2 rfl (by simp) (not_lastCF_new _ _) hci
    have hsame : ∀ b, b < st.blocks.length → st2.blocks[b]? = st.blocks[b]? := by
      intro b hb
      rw [F.same b (by simp; omega) (by omega)]
      exact getElem?_old hb
    have hE : ∃ ee next st3, transElse e ⟨st2.blocks, rest2⟩ = some (ee, next, st3) := by
      cases e with
      | none => exact ⟨_, _, _, by simp only [transElse]; rfl⟩
      | some e' =>
        obtain ⟨se, he⟩ := accept e' ⟨st2.blocks ++ [⟨[], false⟩], st2.blocks.length :: rest2⟩
          st2.blocks.length rfl (by simp) (not_lastCF_new _ _)
          (by rw [isFinal_new]; simpa only [AcceptableElse] using hae)
        have Fe := frame e' _ se st2.blocks.length he rfl (by simp)
        obtain ⟨be, hce, hbe, hlte, -⟩ := Fe.cur
        have Pe := post e' _ se st2.blocks.length be he rfl (by simp) (not_lastCF_new _ _) hce
        obtain ⟨re, hse⟩ : ∃ re, se.stack = be :: re := by
          unfold cur at hce
          cases hs : se.stack with
          | nil => rw [hs] at hce; cases hce
          | cons a r => rw [hs] at hce; cases hce; exact ⟨r, rfl⟩
        simp only [transElse, bind, pushNew, he, Option.bind_some, pop, hse]
        by_cases hf : isFinal (⟨se.blocks ++ [⟨[], false⟩], se.blocks.length :: re⟩ : Tr S V) be = true
        · exact ⟨_, _, _, if_pos hf⟩
        · have h9 := addToBB_ok (st := (⟨se.blocks ++ [⟨[], false⟩], se.blocks.length :: re⟩ : Tr S V))
            (i := .br se.blocks.length) (by simp; omega) (by simpa using hf)
            (not_lastCF_congr (getElem?_old hlte) Pe.2)
          exact ⟨_, _, _, (if_neg hf).trans (by rw [h9]; rfl)⟩
    obtain ⟨ee, next, st3, h3⟩ := hE
    have FE : FrameElse ⟨st2.blocks, rest2⟩ st3 next := frameElse_of h3 (fun e' _ => frame e')
    have hl3 := FE.len
    dsimp only at hl3
    have hs3 : st3.blocks[b0]? = st.blocks[b0]? := by
      rw [FE.same b0 (by simp; omega), hsame b0 hb]
    have h4 : addToBB st3 b0 (.cbr c st.blocks.length ee) =
        some (addRaw st3 b0 (.cbr c st.blocks.length ee)) :=
      addToBB_ok (by omega) (by rw [isFinal_congr hs3]; exact hf0) (not_lastCF_congr hs3 hn)
    simp only [trans, bind, pop, hst, Option.bind_some, pushNew, h2, hst2, h3, h4]
    by_cases hf : isFinal (addRaw st3 b0 (.cbr c st.blocks.length ee)) bi = true
    · exact ⟨_, if_pos hf⟩
    · have hs4 : (addRaw st3 b0 (.cbr c st.blocks.length ee)).blocks[bi]? = st2.blocks[bi]? := by
        rw [addRaw_other (by omega), FE.same bi hlt]
      exact ⟨_, (if_neg hf).trans
        (addToBB_ok (by rw [addRaw_len]; omega) (by simpa using hf) (not_lastCF_congr hs4 P.2))⟩
  | .loop i c body, st, b0, hc, hb, hn, ha => by
    simp only [Acceptable] at ha
    obtain ⟨hf0, hai, hab, hfb⟩ := ha
    obtain ⟨st1, h1, hc1⟩ := straight_trans i st b0 hai hc
    have F1 := frame i st st1 b0 h1 hc hb
    have P1 := post i st st1 b0 b0 h1 hc hb hn hc1
    have l1 := F1.len
    rw [straight_fin i _ hai] at P1
    have hadd : (addRaw (⟨st1.blocks ++ [⟨[], false⟩], st1.blocks.length :: st1.stack⟩ : Tr S V)
        st1.blocks.length (.eval c)) =
        ⟨st1.blocks ++ [⟨[.eval c], false⟩], st1.blocks.length :: st1.stack⟩ := by
      unfold addRaw
      dsimp only
      rw [modify_last]
      rfl
    have hlen2 : (st1.blocks ++ [(⟨[.eval c], false⟩ : Block S V)]).length = st1.blocks.length + 1 := by
      simp
    obtain ⟨st3, h3⟩ := accept body ⟨st1.blocks ++ [⟨[.eval c], false⟩] ++ [⟨[], false⟩],
        (st1.blocks ++ [(⟨[.eval c], false⟩ : Block S V)]).length :: st1.stack⟩ _ rfl (by simp)
        (not_lastCF_new _ _) (by rw [isFinal_new]; exact hab)
    have F3 := frame body _ st3 _ h3 rfl (by simp)
    have l3 := F3.len
    simp only [List.length_append, List.length_cons, List.length_nil] at l3
    obtain ⟨b3, hc3, hb3, hlt3, -⟩ := F3.cur
    have P3 := post body _ st3 _ b3 h3 rfl (by simp) (not_lastCF_new _ _) hc3
    rw [isFinal_new, hfb] at P3
    have hge : st1.blocks.length < b3 := by
      rcases hb3 with h | h
      · omega
      · simp at h; omega
    obtain ⟨rest, hst3⟩ : ∃ rest, st3.stack = b3 :: rest := by
      unfold cur at hc3
      cases hs : st3.stack with
      | nil => rw [hs] at hc3; cases hc3
      | cons a r => rw [hs] at hc3; cases hc3; exact ⟨r, rfl⟩
    have h4 : addToBB st3 b3 (.br st1.blocks.length) =
        some (addRaw st3 b3 (.br st1.blocks.length)) := addToBB_ok hlt3 P3.1 P3.2
    have hstk4 : (addRaw st3 b3 (.br st1.blocks.length)).stack = b3 :: rest := hst3
    -- the header
    have hh3 : st3.blocks[st1.blocks.length]? = some ⟨[.eval c], false⟩ := by
      rw [F3.same st1.blocks.length (by simp) (by rw [hlen2]; omega)]
      simp
    have hb03 : st3.blocks[b0]? = st1.blocks[b0]? := by
      rw [F3.same b0 (by simp; omega) (by rw [hlen2]; omega)]
      dsimp only
      rw [List.append_assoc, getElem?_old (by omega)]
    have hget : ∀ b, b < st1.blocks.length + 1 →
        ((addRaw st3 b3 (.br st1.blocks.length)).blocks ++ [(⟨[], false⟩ : Block S V)])[b]? =
          st3.blocks[b]? := by
      intro b hlt
      rw [getElem?_old (by rw [addRaw_len]; omega), addRaw_other (by omega)]
    have h6 := addToBB_ok (st := (⟨(addRaw st3 b3 (.br st1.blocks.length)).blocks ++ [⟨[], false⟩],
        (addRaw st3 b3 (.br st1.blocks.length)).blocks.length :: rest⟩ : Tr S V))
      (b := st1.blocks.length) (i := .cbr c (st1.blocks.length + 1)
        (addRaw st3 b3 (.br st1.blocks.length)).blocks.length)
      (by rw [List.length_append, addRaw_len]; simp; omega)
      (by unfold isFinal; rw [hget _ (by omega), hh3]; rfl)
      (by
        rintro ⟨bb, x, g1, g2, g3⟩
        dsimp only at g1
        rw [hget _ (by omega), hh3] at g1
        cases g1
        cases g2
        cases g3)
    simp only [trans, bind, hc, h1, Option.bind_some, pushNew, hadd, pop, h3, hc3, h4, hstk4]
    rw [hlen2, h6]
    simp only [Option.bind_some]
    have hs : (addRaw (⟨(addRaw st3 b3 (.br st1.blocks.length)).blocks ++ [⟨[], false⟩],
        (addRaw st3 b3 (.br st1.blocks.length)).blocks.length :: rest⟩ : Tr S V)
        st1.blocks.length (.cbr c (st1.blocks.length + 1)
        (addRaw st3 b3 (.br st1.blocks.length)).blocks.length)).blocks[b0]? = st1.blocks[b0]? := by
      rw [addRaw_other (by omega)]
      dsimp only
      rw [hget _ (by omega), hb03]
    exact ⟨_, addToBB_ok (by rw [addRaw_len, List.length_append, addRaw_len]; omega)
      (by rw [isFinal_congr hs, P1.1]; exact hf0) (not_lastCF_congr hs P1.2)⟩
termination_by p => sizeOf p

/-- A program that leaves the current block where it is, unfinished, is straight. -/
theorem straight_of : ∀ (p : Stmt S V) (st st' : Tr S V) (b0 b1 : ℕ), trans p st = some st' →
    cur st = some b0 → b0 < st.blocks.length → ¬ LastCF st b0 → cur st' = some b1 →
    isFinal st' b0 = false → ¬ LastCF st' b0 → Straight p
  | .skip, _, _, _, _, _, _, _, _, _, _, _ => by simp [Straight]
  | .act _, _, _, _, _, _, _, _, _, _, _, _ => by simp [Straight]
  | .ret e, st, st', b0, b1, h, hc, hb, hn, hc1, hf, hl => by
    have hcc := hc1
    simp only [trans, bind, hc, Option.bind_some, Option.some.injEq] at h
    subst h
    exfalso
    unfold isFinal at hf
    rw [setFinal_get, if_pos rfl, addRaw_get, if_pos rfl, List.getElem?_eq_getElem hb] at hf
    cases hf
  | .seq p q, st, st', b0, b1, h, hc, hb, hn, hc1, hf, hl => by
    obtain ⟨st1, h1, h2⟩ := trans_seq.1 h
    have F1 := frame p st st1 b0 h1 hc hb
    obtain ⟨b, c, o, l, n⟩ := F1.cur
    have l1 := F1.len
    have F2 := frame q st1 st' b h2 c l
    obtain ⟨b2, c2, o2, l2, n2⟩ := F2.cur
    have hbb : b = b0 := by
      by_contra hne
      have := n hne
      exact hl (this.congr (F2.same b0 (by omega) (Ne.symm hne)))
    subst hbb
    obtain ⟨hf1, hn1⟩ := post p st st1 b b h1 hc hb hn c
    have hq := straight_of q st1 st' b b1 h2 c l hn1 hc1 hf hl
    obtain ⟨st'', h2', c2'⟩ := straight_trans q st1 b hq c
    rw [h2] at h2'; cases h2'
    have hfq := (post q st1 st' b b h2 c l hn1 c2').1
    rw [straight_fin q _ hq, hf] at hfq
    have hp := straight_of p st st1 b b h1 hc hb hn c hfq.symm hn1
    simp only [Straight]
    exact ⟨hp, hq⟩
  | .ite c t e, st, st', b0, b1, h, hc, hb, hn, hc1, hf, hl => by
    exfalso
    obtain ⟨b2, c2, o2, l2, n2⟩ := (frame _ st st' b0 h hc hb).cur
    refine hl (n2 ?_)
    rintro rfl
    obtain ⟨entry, rest, hst, st2, h2, ifEnd, rest2, hst2, ee, next, st3, h3, st4, h4, h5⟩ :=
      trans_ite h
    have F := frame t _ st2 st.blocks.length h2 rfl (by simp)
    have hlen := F.len
    simp only [List.length_append, List.length_cons, List.length_nil] at hlen
    have FE : FrameElse ⟨st2.blocks, rest2⟩ st3 next := frameElse_of h3 (fun e' _ => frame e')
    have hlo := FE.lo
    dsimp only at hlo
    obtain ⟨rfl, -, -, -⟩ := addToBB_eq h4
    have : cur st' = cur st3 := by
      split at h5
      · cases h5; rfl
      · obtain ⟨rfl, -, -, -⟩ := addToBB_eq h5; rfl
    rw [this, FE.cur] at c2
    cases c2
    omega
  | .loop i c body, st, st', b0, b1, h, hc, hb, hn, hc1, hf, hl => by
    exfalso
    obtain ⟨b0', h0, st1, h1, st3, h3, eb, rest, hst3, st4, h4, st6, h6, h7⟩ := trans_loop h
    have : b0' = b0 := by rw [hc] at h0; cases h0; rfl
    subst this
    obtain ⟨rfl, hl7, -, -⟩ := addToBB_eq h7
    exact hl (lastCF_addRaw hl7 rfl)
termination_by p => sizeOf p

/-- Accepted programs are acceptable. -/
theorem accept_only : ∀ (p : Stmt S V) (st st' : Tr S V) (b0 : ℕ), trans p st = some st' →
    cur st = some b0 → b0 < st.blocks.length → ¬ LastCF st b0 → Acceptable (isFinal st b0) p
  | .skip, _, _, _, _, _, _, _ => by simp [Acceptable]
  | .act _, _, _, _, _, _, _, _ => by simp [Acceptable]
  | .ret _, _, _, _, _, _, _, _ => by simp [Acceptable]
  | .seq p q, st, st', b0, h, hc, hb, hn => by
    obtain ⟨st1, h1, h2⟩ := trans_seq.1 h
    obtain ⟨b, c, o, l, _⟩ := (frame p st st1 b0 h1 hc hb).cur
    obtain ⟨hf, hn1⟩ := post p st st1 b0 b h1 hc hb hn c
    have a2 := accept_only q st1 st' b h2 c l hn1
    rw [hf] at a2
    simp only [Acceptable]
    exact ⟨accept_only p st st1 b0 h1 hc hb hn, a2⟩
  | .ite c t e, st, st', b0, h, hc, hb, hn => by
    obtain ⟨entry, rest, hst, st2, h2, ifEnd, rest2, hst2, ee, next, st3, h3, st4, h4, h5⟩ :=
      trans_ite h
    have : entry = b0 := by simp [cur, hst] at hc; exact hc
    subst this
    have F := frame t _ st2 st.blocks.length h2 rfl (by simp)
    have hlen := F.len
    simp only [List.length_append, List.length_cons, List.length_nil] at hlen
    have FE : FrameElse ⟨st2.blocks, rest2⟩ st3 next := frameElse_of h3 (fun e' _ => frame e')
    have hs3 : st3.blocks[entry]? = st.blocks[entry]? := by
      rw [FE.same entry (by simp; omega)]
      dsimp only
      rw [F.same entry (by simp; omega) (by omega)]
      exact getElem?_old hb
    obtain ⟨rfl, hlt4, hf4, -⟩ := addToBB_eq h4
    have at_ := accept_only t _ st2 st.blocks.length h2 rfl (by simp) (not_lastCF_new _ _)
    rw [isFinal_new] at at_
    simp only [Acceptable]
    refine ⟨by rw [← isFinal_congr hs3]; exact hf4, at_, ?_⟩
    cases e with
    | none => simp [AcceptableElse]
    | some e' =>
      obtain ⟨rfl, se, he2, -⟩ := transElse_some h3
      have ae := accept_only e' _ se st2.blocks.length he2 rfl (by simp) (not_lastCF_new _ _)
      rw [isFinal_new] at ae
      simpa only [AcceptableElse] using ae
  | .loop i c body, st, st', b0, h, hc, hb, hn => by
    obtain ⟨b0', h0, st1, h1, st3, h3, eb, rest, hst3, st4, h4, st6, h6, h7⟩ := trans_loop h
    have : b0' = b0 := by rw [hc] at h0; cases h0; rfl
    subst this
    have F1 := frame i st st1 b0' h1 hc hb
    have l1 := F1.len
    obtain ⟨bi, hci, hbi, hlti, -⟩ := F1.cur
    have hlen2 : (st1.blocks ++ [(⟨[.eval c], false⟩ : Block S V)]).length = st1.blocks.length + 1 := by
      simp
    rw [← hlen2] at h3
    have F3 := frame body _ st3 _ h3 rfl (by simp)
    have l3 := F3.len
    simp only [List.length_append, List.length_cons, List.length_nil] at l3
    obtain ⟨b3, hc3, hb3, hlt3, -⟩ := F3.cur
    have : b3 = eb := by simp [cur, hst3] at hc3; exact hc3.symm
    subst this
    have hge : st1.blocks.length < b3 := by
      rcases hb3 with h | h
      · omega
      · simp at h; omega
    have P3 := post body _ st3 _ b3 h3 rfl (by simp) (not_lastCF_new _ _) hc3
    rw [isFinal_new] at P3
    obtain ⟨rfl, hl4, hf4, -⟩ := addToBB_eq h4
    obtain ⟨rfl, hl6, -, -⟩ := addToBB_eq h6
    obtain ⟨rfl, hl7, hf7, hcf7⟩ := addToBB_eq h7
    have hb03 : st3.blocks[b0']? = st1.blocks[b0']? := by
      rw [F3.same b0' (by simp; omega) (by rw [hlen2]; omega)]
      dsimp only
      rw [List.append_assoc, getElem?_old (by omega)]
    have hs : (addRaw (⟨(addRaw st3 b3 (.br st1.blocks.length)).blocks ++ [⟨[], false⟩],
        (addRaw st3 b3 (.br st1.blocks.length)).blocks.length :: rest⟩ : Tr S V)
        st1.blocks.length (.cbr c (st1.blocks.length + 1)
        (addRaw st3 b3 (.br st1.blocks.length)).blocks.length)).blocks[b0']? =
          st1.blocks[b0']? := by
      rw [addRaw_other (by omega)]
      dsimp only
      rw [getElem?_old (by rw [addRaw_len]; omega), addRaw_other (by omega), hb03]
    have hf1 : isFinal st1 b0' = false := by rw [← isFinal_congr hs]; exact hf7
    have hn1 : ¬ LastCF st1 b0' := by
      rintro ⟨bb, x, g1, g2, g3⟩
      have := hcf7 bb (hs.trans g1) x g2
      rw [g3] at this; cases this
    have hstr := straight_of i st st1 b0' bi h1 hc hb hn hci hf1 hn1
    obtain ⟨st'', h1', c1'⟩ := straight_trans i st b0' hstr hc
    rw [h1] at h1'; cases h1'
    have hfi := (post i st st1 b0' b0' h1 hc hb hn c1').1
    rw [straight_fin i _ hstr, hf1] at hfi
    have ab := accept_only body _ st3 _ h3 rfl (by simp) (not_lastCF_new _ _)
    rw [isFinal_new] at ab
    simp only [Acceptable]
    exact ⟨hfi.symm, hstr, ab, by rw [← P3.1]; exact hf4⟩
termination_by p => sizeOf p

end Verif.BB
