import Verif.CFG.Dom
import Verif.BB.Theorems

/-!
# C27: the graphs of generated code
-/

namespace Verif.CFG

open Verif.BB

variable {S V : Type}

def TOk (n : ℕ) (B : List (Block S V)) : Prop :=
  ∀ (b : ℕ) (bb : Block S V), B[b]? = some bb → ∀ x ∈ bb.insts, ∀ d ∈ dests x, 0 < d ∧ d < n

theorem TOk.mono {n m : ℕ} {B : List (Block S V)} (h : TOk n B) (hm : n ≤ m) : TOk m B :=
  fun b bb hb x hx d hd => ⟨(h b bb hb x hx d hd).1, Nat.lt_of_lt_of_le (h b bb hb x hx d hd).2 hm⟩

theorem TOk.add {n : ℕ} {st : Tr S V} {b : ℕ} {i : Instr S V} (h : TOk n st.blocks)
    (hi : ∀ d ∈ dests i, 0 < d ∧ d < n) : TOk n (addRaw st b i).blocks := by
  intro b' bb hb x hx
  rw [addRaw_get] at hb
  split at hb
  · cases hs : st.blocks[b']? with
    | none => rw [hs] at hb; cases hb
    | some bb0 =>
      rw [hs] at hb
      cases hb
      rcases List.mem_append.1 hx with hx | hx
      · exact h b' bb0 hs x hx
      · simp at hx; subst hx; exact hi
  · exact h b' bb hb x hx

theorem TOk.final {n : ℕ} {st : Tr S V} {b : ℕ} (h : TOk n st.blocks) :
    TOk n (setFinal st b).blocks := by
  intro b' bb hb x hx
  rw [setFinal_get] at hb
  split at hb
  · cases hs : st.blocks[b']? with
    | none => rw [hs] at hb; cases hb
    | some bb0 => rw [hs] at hb; cases hb; exact h b' bb0 hs x hx
  · exact h b' bb hb x hx

theorem TOk.snoc {n : ℕ} {B : List (Block S V)} {bb : Block S V} (h : TOk n B)
    (hb : ∀ x ∈ bb.insts, dests x = []) : TOk n (B ++ [bb]) := by
  intro b b' hb' x hx d hd
  by_cases hlt : b < B.length
  · rw [List.getElem?_append_left hlt] at hb'
    exact h b b' hb' x hx d hd
  · have : b' ∈ [bb] := by
      rw [List.getElem?_append_right (by omega)] at hb'
      exact List.mem_of_getElem? hb'
    simp at this
    subst this
    rw [hb x hx] at hd; cases hd

theorem tok : ∀ (p : Stmt S V) (st st' : Tr S V) (b0 : ℕ), BB.trans p st = some st' →
    cur st = some b0 → b0 < st.blocks.length → TOk st.blocks.length st.blocks →
    TOk st'.blocks.length st'.blocks
  | .skip, st, st', b0, h, hc, hb, ht => by
    simp only [BB.trans, Option.some.injEq] at h
    subst h
    exact ht
  | .act f, st, st', b0, h, hc, hb, ht => by
    simp only [BB.trans, bind, hc, Option.bind_some, Option.some.injEq] at h
    subst h
    rw [addRaw_len]
    exact ht.add (by simp [dests])
  | .ret e, st, st', b0, h, hc, hb, ht => by
    simp only [BB.trans, bind, hc, Option.bind_some, Option.some.injEq] at h
    subst h
    rw [setFinal_len, addRaw_len]
    exact (ht.add (by simp [dests])).final
  | .seq p q, st, st', b0, h, hc, hb, ht => by
    obtain ⟨st1, h1, h2⟩ := trans_seq.1 h
    obtain ⟨b, c, o, l, _⟩ := (frame p st st1 b0 h1 hc hb).cur
    exact tok q st1 st' b h2 c l (tok p st st1 b0 h1 hc hb ht)
  | .ite c t e, st, st', b0, h, hc, hb, ht => by
    obtain ⟨entry, rest, hst, st2, h2, ifEnd, rest2, hst2, ee, next, st3, h3, st4, h4, h5⟩ :=
      trans_ite h
    have F := frame t _ st2 st.blocks.length h2 rfl (by simp)
    have hlen := F.len
    simp only [List.length_append, List.length_cons, List.length_nil] at hlen
    have T2 := tok t _ st2 st.blocks.length h2 rfl (by simp)
      ((ht.mono (by simp)).snoc (by simp))
    have FE : FrameElse ⟨st2.blocks, rest2⟩ st3 next := frameElse_of h3 (fun e' _ => frame e')
    have hl3 := FE.len
    have hlo := FE.lo
    have hhi := FE.hi
    dsimp only at hl3 hlo
    have hee : 0 < ee ∧ ee < st3.blocks.length ∧ TOk st3.blocks.length st3.blocks := by
      cases e with
      | none =>
        simp only [transElse, pushNew, Option.some.injEq, Prod.mk.injEq] at h3
        obtain ⟨rfl, rfl, rfl⟩ := h3
        refine ⟨by omega, hhi, ?_⟩
        exact (T2.mono (by simp)).snoc (by simp)
      | some e' =>
        obtain ⟨rfl, se, he2, elseEnd, re, hse, hnx, he5⟩ := transElse_some h3
        have Fe := frame e' _ se st2.blocks.length he2 rfl (by simp)
        have hle := Fe.len
        simp only [List.length_append, List.length_cons, List.length_nil] at hle
        have Te := tok e' _ se st2.blocks.length he2 rfl (by simp)
          ((T2.mono (by simp)).snoc (by simp))
        have Te' : TOk (se.blocks.length + 1) (se.blocks ++ [⟨[], false⟩]) :=
          (Te.mono (by omega)).snoc (by simp)
        refine ⟨by dsimp only; omega, by dsimp only; omega, ?_⟩
        split at he5
        · cases he5
          simpa using Te'
        · obtain ⟨rfl, -, -, -⟩ := addToBB_eq he5
          have hn1 : (addRaw (⟨se.blocks ++ [⟨[], false⟩], se.blocks.length :: re⟩ : Tr S V) elseEnd
              (.br next)).blocks.length = se.blocks.length + 1 := by rw [addRaw_len]; simp
          rw [hn1]
          refine TOk.add (st := ⟨se.blocks ++ [⟨[], false⟩], se.blocks.length :: re⟩) Te' ?_
          intro d hd
          simp [dests] at hd
          subst hd
          omega
    obtain ⟨rfl, hlt4, -, -⟩ := addToBB_eq h4
    have T4 : TOk st3.blocks.length (addRaw st3 entry (.cbr c st.blocks.length ee)).blocks := by
      refine hee.2.2.add ?_
      intro d hd
      simp [dests] at hd
      rcases hd with rfl | rfl
      · omega
      · exact ⟨hee.1, hee.2.1⟩
    split at h5
    · cases h5
      rw [addRaw_len]; exact T4
    · obtain ⟨rfl, -, -, -⟩ := addToBB_eq h5
      rw [addRaw_len, addRaw_len]
      refine T4.add ?_
      intro d hd
      simp [dests] at hd
      subst hd
      omega
  | .loop i c body, st, st', b0, h, hc, hb, ht => by
    obtain ⟨b0', h0, st1, h1, st3, h3, eb, rest, hst3, st4, h4, st6, h6, h7⟩ := trans_loop h
    have F1 := frame i st st1 b0 h1 hc hb
    have l1 := F1.len
    have T1 := tok i st st1 b0 h1 hc hb ht
    have F3 := frame body _ st3 (st1.blocks.length + 1) h3 rfl (by simp)
    have l3 := F3.len
    simp only [List.length_append, List.length_cons, List.length_nil] at l3
    have T3 := tok body _ st3 (st1.blocks.length + 1) h3 rfl (by simp)
      (((T1.mono (by simp)).snoc (by simp [dests])).snoc (by simp))
    obtain ⟨rfl, hl4, -, -⟩ := addToBB_eq h4
    obtain ⟨rfl, hl6, -, -⟩ := addToBB_eq h6
    obtain ⟨rfl, hl7, -, -⟩ := addToBB_eq h7
    rw [addRaw_len, addRaw_len]
    have hL : (addRaw st3 eb (.br st1.blocks.length)).blocks.length = st3.blocks.length := addRaw_len _ _ _
    dsimp only
    rw [List.length_append, hL]
    refine TOk.add (TOk.add (st := ⟨(addRaw st3 eb (.br st1.blocks.length)).blocks ++ [⟨[], false⟩],
      st3.blocks.length :: rest⟩) (TOk.snoc (TOk.add (T3.mono (by simp)) ?_) (by simp)) ?_) ?_
    · intro d hd
      simp [dests] at hd
      subst hd
      simp
      omega
    · intro d hd
      simp [dests] at hd
      simp
      rcases hd with rfl | rfl <;> omega
    · intro d hd
      simp [dests] at hd
      subst hd
      simp
      omega
termination_by p => sizeOf p

/-- The blocks of a translated program as block objects. -/
def heapOf (B : List (Block S V)) : Heap S V := fun b => ((B[b]?).map (fun bb => bb.insts.map .op)).getD []

theorem mem_cfgEdges {h : Heap S V} : ∀ {L : List ℕ} {E : List (ℕ × ℕ)}, cfgEdges h L = some E →
    ∀ {a d}, (a, d) ∈ E → a ∈ L ∧ ∃ i, .op i ∈ h a ∧ d ∈ dests i
  | [], E, hE, a, d, hm => by cases hE; cases hm
  | b :: L, E, hE, a, d, hm => by
    unfold cfgEdges at hE
    split at hE
    · cases hE
    · rename_i i hi
      rw [Option.map_eq_some_iff] at hE
      obtain ⟨E', hE', rfl⟩ := hE
      rcases List.mem_append.1 hm with hm | hm
      · obtain ⟨d', hd', heq⟩ := List.mem_map.1 hm
        cases heq
        exact ⟨by simp, i, List.mem_of_getLast? hi, hd'⟩
      · obtain ⟨h1, h2⟩ := mem_cfgEdges hE' hm
        exact ⟨by simp [h1], h2⟩
    · obtain ⟨h1, h2⟩ := mem_cfgEdges hE hm
      exact ⟨by simp [h1], h2⟩

/-- The control-flow graph of generated code meets the hypotheses of `C27_dominators_partial`: its
edges stay among the blocks and none enters the first block. -/
theorem C27_generated (p : Stmt S V) (B : List (Block S V)) (hB : translate p = some B)
    (E : List (ℕ × ℕ)) (hE : cfgEdges (heapOf B) (List.range B.length) = some E) :
    0 ∈ List.range B.length ∧
    (∀ a b, (a, b) ∈ E → a ∈ List.range B.length ∧ b ∈ List.range B.length) ∧
    ∀ a, (a, 0) ∉ E := by
  unfold translate at hB
  rw [Option.map_eq_some_iff] at hB
  obtain ⟨st', h, rfl⟩ := hB
  have T := tok p _ st' 0 h rfl (by simp) (by
    intro b bb hb x hx
    have : bb ∈ [(⟨[], false⟩ : Block S V)] := List.mem_of_getElem? hb
    simp at this
    subst this
    cases hx)
  have key : ∀ a b, (a, b) ∈ E → a ∈ List.range st'.blocks.length ∧ 0 < b ∧ b < st'.blocks.length := by
    intro a b hab
    obtain ⟨h1, i, h2, h3⟩ := mem_cfgEdges hE hab
    refine ⟨h1, ?_⟩
    unfold heapOf at h2
    cases hs : st'.blocks[a]? with
    | none => rw [hs] at h2; cases h2
    | some bb =>
      rw [hs] at h2
      simp at h2
      exact T a bb hs i h2 b h3
  have hl := (frame p _ st' 0 h rfl (by simp)).len
  refine ⟨by simp at hl ⊢; omega, ?_, ?_⟩
  · intro a b hab
    have := key a b hab
    exact ⟨this.1, by simp; omega⟩
  · intro a ha
    have := key a 0 ha
    omega

example : ((translate (S := ℕ) (V := ℕ) (.seq (.ite (fun s => s > 1) (.act (· + 1))
    (some (.act (· + 2)))) (.ret id))).bind
      fun B => cfgEdges (heapOf B) (List.range B.length)) = some [(0, 1), (0, 2), (1, 3), (2, 3)] := rfl

/-- **C27, edges.**  The edges are exactly those of the branch that ends each block, for every block list; the pass raises exactly
when a block is empty. -/
theorem C27_edges (h : Heap S V) : ∀ (L : List ℕ),
    (cfgEdges h L = none ↔ ∃ b ∈ L, h b = []) ∧
    ∀ E, cfgEdges h L = some E → ∀ a d, (a, d) ∈ E ↔ a ∈ L ∧
      ((h a).getLast? = some (.op (.br d)) ∨ ∃ c t e, (h a).getLast? = some (.op (.cbr c t e)) ∧ (d = t ∨ d = e))
  | [] => by
    simp only [cfgEdges]
    exact ⟨by simp, fun E hE a d => by cases hE; simp⟩
  | b :: L => by
    obtain ⟨h1, h2⟩ := C27_edges h L
    rw [cfgEdges]
    cases hl : (h b).getLast? with
    | none =>
      rw [List.getLast?_eq_none_iff] at hl
      exact ⟨by simp [hl], fun E hE => by cases hE⟩
    | some it =>
      have hne : h b ≠ [] := fun h0 => by rw [h0] at hl; cases hl
      cases it with
      | sq l =>
        dsimp only
        refine ⟨by rw [h1]; simp [hne], fun E hE a d => ?_⟩
        rw [h2 E hE a d]
        by_cases hab : a = b
        · subst hab; simp [hl]
        · simp [hab]
      | op i =>
        dsimp only
        refine ⟨by rw [Option.map_eq_none_iff, h1]; simp [hne], fun E hE a d => ?_⟩
        rw [Option.map_eq_some_iff] at hE
        obtain ⟨E', hE', rfl⟩ := hE
        rw [List.mem_append, h2 E' hE' a d]
        by_cases hab : a = b
        · subst hab
          cases i <;> simp [hl, dests, eq_comm] <;> tauto
        · simp [hab, Ne.symm hab]

example : cfgEdges (S := ℕ) (V := ℕ) (fun b => if b = 0 then [.op (.act id), .op (.cbr (fun s => s > 1) 1 2)] else
    if b = 1 then [.op (.br 2)] else [.op (.ret id)]) [0, 1, 2] = some [(0, 1), (0, 2), (1, 2)] := rfl

end Verif.CFG
