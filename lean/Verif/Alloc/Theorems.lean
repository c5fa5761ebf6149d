import Verif.Alloc.Model
import Verif.Lin.Theorems

/-! # C112: register allocation keeps what the program does -/

namespace Verif.Alloc

open Verif.Lin
open Verif.Machine (Ctl End runL)

variable {V : Type}

/-! ## The map of the registers -/

theorem abi_spec (l : List Reg) : ∀ (n : ℕ) (m : Reg → AReg) (r : Reg), l.Nodup →
    (∃ j : ℕ, l[j]? = some r ∧ abi l n m r = .phys (n + j)) ∨ (r ∉ l ∧ abi l n m r = m r) := by
  induction l with
  | nil => intro n m r _; right; simp [abi]
  | cons x l ih =>
    intro n m r hn
    obtain ⟨h1, h2⟩ := List.nodup_cons.1 hn
    rcases ih (n + 1) (Function.update m x (.phys n)) r h2 with ⟨j, a, b⟩ | ⟨a, b⟩
    · left
      refine ⟨j + 1, by simpa using a, ?_⟩
      rw [abi, b]; congr 1; omega
    · by_cases h : r = x
      · left
        refine ⟨0, by simp [h], ?_⟩
        rw [abi, b, h, Function.update_self, add_zero]
      · right
        refine ⟨by simp [h, a], ?_⟩
        rw [abi, b, Function.update_of_ne h]

theorem map_out {ins outs : List Reg} (ho : outs.Nodup) {j : ℕ} {r : Reg} (h : outs[j]? = some r) : regMap ins outs r = .phys j := by
  rcases abi_spec outs 0 (abi ins 0 .virt) r ho with ⟨k, a, b⟩ | ⟨a, _⟩
  · have hk := (List.getElem?_eq_some_iff.1 a)
    have hj := (List.getElem?_eq_some_iff.1 h)
    obtain ⟨k1, k2⟩ := hk
    obtain ⟨j1, j2⟩ := hj
    have : k = j := (List.Nodup.getElem_inj_iff ho).1 (k2.trans j2.symm)
    unfold regMap
    rw [b, zero_add, this]
  · exact absurd (List.mem_of_getElem? h) a

theorem map_in {ins outs : List Reg} (hi : ins.Nodup) (ho : outs.Nodup) {i : ℕ} {r : Reg} (h : ins[i]? = some r) (hr : ∀ j : ℕ, outs[j]? = some r → j = i) :
    regMap ins outs r = .phys i := by
  rcases abi_spec outs 0 (abi ins 0 .virt) r ho with ⟨k, a, b⟩ | ⟨a, b⟩
  · unfold regMap
    rw [b, zero_add, hr k a]
  · unfold regMap
    rw [b]
    rcases abi_spec ins 0 .virt r hi with ⟨k, c, d⟩ | ⟨c, _⟩
    · obtain ⟨k1, k2⟩ := List.getElem?_eq_some_iff.1 c
      obtain ⟨j1, j2⟩ := List.getElem?_eq_some_iff.1 h
      have : k = i := (List.Nodup.getElem_inj_iff hi).1 (k2.trans j2.symm)
      rw [d, zero_add, this]
    · exact absurd (List.mem_of_getElem? h) c

/-- Two registers with the same place are an argument and a result of the same rank. -/
theorem map_inj {ins outs : List Reg} (hi : ins.Nodup) (ho : outs.Nodup) {r s : Reg} (h : regMap ins outs r = regMap ins outs s) (hrs : s ≠ r) : Clash ins outs r s := by
  have key : ∀ r, (∃ j : ℕ, outs[j]? = some r ∧ regMap ins outs r = .phys j) ∨ (∃ j : ℕ, ins[j]? = some r ∧ regMap ins outs r = .phys j) ∨ regMap ins outs r = .virt r := by
    intro r
    rcases abi_spec outs 0 (abi ins 0 .virt) r ho with ⟨k, a, b⟩ | ⟨a, b⟩
    · left; exact ⟨k, a, by unfold regMap; rw [b, zero_add]⟩
    · right
      rcases abi_spec ins 0 .virt r hi with ⟨k, c, d⟩ | ⟨c, d⟩
      · left; exact ⟨k, c, by unfold regMap; rw [b, d, zero_add]⟩
      · right; unfold regMap; rw [b, d]
  rcases key r with ⟨j, a, b⟩ | ⟨j, a, b⟩ | b <;> rcases key s with ⟨k, c, d⟩ | ⟨k, c, d⟩ | d <;> rw [b, d] at h
  · cases h; rw [a] at c; exact absurd (Option.some.inj c).symm hrs
  · cases h; exact ⟨j, Or.inr ⟨c, a⟩⟩
  · cases h
  · cases h; exact ⟨j, Or.inl ⟨a, c⟩⟩
  · cases h; rw [a] at c; exact absurd (Option.some.inj c).symm hrs
  · cases h
  · cases h
  · cases h
  · cases h; exact absurd rfl hrs

/-! ## The description -/

theorem srcs_eq (l : List (Opnd V)) : srcs l = l.flatMap regs := by
  induction l with
  | nil => rfl
  | cons a l ih => cases a <;> simp [srcs, regs, ih]

theorem insn_spec {m : Reg → AReg} {a : Ins V} {A : AIns} (h : insn m a = .ok A) : A.uses = (reads a).map m ∧ A.defs = (writes a).toList.map m := by
  cases a with
  | cbr c b => cases c with
    | reg r => cases h; simp [reads, writes, regs]
    | cst v => cases h
  | op r f args => cases h; simp [reads, writes, srcs_eq]
  | store args => cases h; simp [reads, writes, srcs_eq]
  | _ => cases h; simp [reads, writes]

theorem mapM_get {α β ε : Type} {f : α → Except ε β} : ∀ (l : List α) (r : List β), l.mapM f = .ok r →
    r.length = l.length ∧ ∀ (i : ℕ) a, l[i]? = some a → ∃ b, r[i]? = some b ∧ f a = .ok b := by
  intro l
  induction l with
  | nil => intro r h; rw [List.mapM_nil] at h; cases h; simp
  | cons x l ih =>
    intro r h
    rw [List.mapM_cons] at h
    cases hx : f x with
    | error e => rw [hx] at h; cases h
    | ok y =>
      rw [hx] at h
      cases hl : l.mapM f with
      | error e => simp only [bind, Except.bind] at h; rw [hl] at h; cases h
      | ok s =>
        simp only [bind, Except.bind] at h
        rw [hl] at h
        cases h
        obtain ⟨h1, h2⟩ := ih s hl
        refine ⟨by simp [h1], ?_⟩
        intro i a hi
        cases i with
        | zero => simp only [List.getElem?_cons_zero, Option.some.injEq] at hi ⊢; exact ⟨y, rfl, hi ▸ hx⟩
        | succ i => simpa using h2 i a (by simpa using hi)

theorem block_spec {m : Reg → AReg} {L : List ℕ} {l : List (Ins V)} {B : ABlock} (h : block m L l = .ok B) :
    B.code.length = l.length ∧ (∀ (i : ℕ) a, l[i]? = some a → ∃ A, B.code[i]? = some A ∧ insn m a = .ok A) ∧
    (∀ d ∈ dests l, d ∈ L ∧ L.idxOf d ∈ B.succs) ∧ B.exit = hasRet l := by
  unfold block at h
  cases hc : l.mapM (insn m) with
  | error e => rw [hc] at h; cases h
  | ok c =>
    rw [hc] at h
    cases hs : (dests l).mapM (link L) with
    | error e => simp only [bind, Except.bind] at h; rw [hs] at h; cases h
    | ok s =>
      simp only [bind, Except.bind] at h
      rw [hs] at h
      cases h
      obtain ⟨h1, h2⟩ := mapM_get _ _ hc
      obtain ⟨h3, h4⟩ := mapM_get _ _ hs
      refine ⟨h1, h2, ?_, rfl⟩
      intro d hd
      obtain ⟨i, hi⟩ := List.getElem?_of_mem hd
      obtain ⟨b, hb, hl⟩ := h4 i d hi
      unfold link at hl
      by_cases hm : d ∈ L
      · rw [if_pos hm] at hl
        cases hl
        exact ⟨hm, List.mem_of_getElem? hb⟩
      · rw [if_neg hm] at hl; cases hl

theorem translate_spec {ins outs : List Reg} {Q : List (ℕ × List (Ins V))} {D : Desc} (h : translate ins outs Q = .ok D) :
    Q ≠ [] ∧ (∀ (k : ℕ) p, Q[k]? = some p → ∃ B, D.blocks[k]? = some B ∧ block (regMap ins outs) (Q.map Prod.fst) p.2 = .ok B) ∧
    D.pre = (List.range ins.length).map .phys ∧ D.post = (List.range outs.length).map .phys := by
  cases Q with
  | nil => cases h
  | cons q Q =>
    unfold translate at h
    simp only at h
    cases hb : (q :: Q).mapM (fun p => block (regMap ins outs) ((q :: Q).map Prod.fst) p.2) with
    | error e => rw [hb] at h; cases h
    | ok bs =>
      rw [hb] at h
      cases h
      exact ⟨by simp, (mapM_get _ _ hb).2, rfl, rfl⟩

theorem dests_mem {l : List (Ins V)} {a : Ins V} (ha : a ∈ l) {d : ℕ} (h : jumps a = some d) : d ∈ dests l := by
  induction l with
  | nil => cases ha
  | cons x l ih =>
    rcases List.mem_cons.1 ha with rfl | ha
    · cases a <;> simp_all [jumps, dests]
    · have := ih ha
      cases x <;> simp [dests, this]

theorem hasRet_mem {l : List (Ins V)} (h : Ins.ret ∈ l) : hasRet l = true := by
  induction l with
  | nil => cases h
  | cons x l ih =>
    rcases List.mem_cons.1 h with h | h
    · rw [← h]; rfl
    · have := ih h
      cases x <;> simp [hasRet, this]

/-- where the instructions of a block stand -/
theorem term_spec {l : List (Ins V)} (h : Terminated l) {i : ℕ} {a : Ins V} (ha : l[i]? = some a) :
    (Straight a → i + 1 < l.length) ∧ (a = .ret → i + 1 = l.length) ∧ (∀ d, a = .br d → i + 1 = l.length) ∧
    (∀ c d, a = .cbr c d → i + 2 = l.length ∧ ∃ e, l[i + 1]? = some (.br e)) := by
  obtain ⟨body, hb, h⟩ := h
  have key : ∀ t : List (Ins V), l = body ++ t → (i < body.length ∧ Straight a) ∨ (body.length ≤ i ∧ t[i - body.length]? = some a) := by
    intro t ht
    rw [ht] at ha
    by_cases hi : i < body.length
    · left
      rw [List.getElem?_append_left hi] at ha
      exact ⟨hi, hb a (List.mem_of_getElem? ha)⟩
    · right
      rw [List.getElem?_append_right (by omega)] at ha
      exact ⟨by omega, ha⟩
  have st : Straight a → a ≠ .ret ∧ (∀ d, a ≠ .br d) ∧ ∀ c d, a ≠ .cbr c d := by
    rintro ⟨h1, h2⟩
    refine ⟨?_, ?_, ?_⟩
    · rintro rfl; cases h2
    · rintro d rfl; cases h1
    · rintro c d rfl; cases h1
  rcases h with h | ⟨d, h⟩ | ⟨c, d, e, h⟩
  · have hl : l.length = body.length + 1 := by rw [h]; simp
    rcases key _ h with ⟨k1, k2⟩ | ⟨k1, k2⟩
    · obtain ⟨s1, s2, s3⟩ := st k2
      exact ⟨fun _ => by omega, fun q => absurd q s1, fun d q => absurd q (s2 d), fun c d q => absurd q (s3 c d)⟩
    · have hi : i - body.length = 0 := by
        have := (List.getElem?_eq_some_iff.1 k2).1; simpa using this
      rw [hi] at k2
      simp only [List.getElem?_cons_zero, Option.some.injEq] at k2
      subst k2
      exact ⟨fun q => absurd rfl (st q).1, fun _ => by omega, fun d q => by (cases q), fun c d q => by (cases q)⟩
  · have hl : l.length = body.length + 1 := by rw [h]; simp
    rcases key _ h with ⟨k1, k2⟩ | ⟨k1, k2⟩
    · obtain ⟨s1, s2, s3⟩ := st k2
      exact ⟨fun _ => by omega, fun q => absurd q s1, fun d q => absurd q (s2 d), fun c d q => absurd q (s3 c d)⟩
    · have hi : i - body.length = 0 := by
        have := (List.getElem?_eq_some_iff.1 k2).1; simpa using this
      rw [hi] at k2
      simp only [List.getElem?_cons_zero, Option.some.injEq] at k2
      subst k2
      exact ⟨fun q => absurd rfl ((st q).2.1 _), fun q => by (cases q), fun d q => by omega, fun c d q => by (cases q)⟩
  · have hl : l.length = body.length + 2 := by rw [h]; simp
    rcases key _ h with ⟨k1, k2⟩ | ⟨k1, k2⟩
    · obtain ⟨s1, s2, s3⟩ := st k2
      exact ⟨fun _ => by omega, fun q => absurd q s1, fun d q => absurd q (s2 d), fun c d q => absurd q (s3 c d)⟩
    · have hi : i - body.length < 2 := by
        have := (List.getElem?_eq_some_iff.1 k2).1; simpa using this
      rcases (by omega : i - body.length = 0 ∨ i - body.length = 1) with hi | hi
      · rw [hi] at k2
        simp only [List.getElem?_cons_zero, Option.some.injEq] at k2
        subst k2
        refine ⟨fun q => absurd rfl ((st q).2.2 _ _), fun q => by (cases q), fun d q => by (cases q), fun c d q => ⟨by omega, e, ?_⟩⟩
        rw [h, List.getElem?_append_right (by omega), show i + 1 - body.length = 1 by omega]; rfl
      · rw [hi] at k2
        simp only [List.getElem?_cons_succ, List.getElem?_cons_zero, Option.some.injEq] at k2
        subst k2
        exact ⟨fun q => absurd rfl ((st q).2.1 _), fun q => by (cases q), fun d q => by omega, fun c d q => by (cases q)⟩

theorem code_get {Q : List (ℕ × List (Ins V))} {k i : ℕ} {a : Ins V} (h : (code Q k)[i]? = some a) : ∃ p, Q[k]? = some p ∧ p.2 = code Q k := by
  unfold code at h ⊢
  cases hq : Q[k]? with
  | none => rw [hq] at h; simp at h
  | some p => exact ⟨p, rfl, rfl⟩

/-- A register that is live is live for the allocator. -/
theorem live_sound {ins outs : List Reg} {Q : List (ℕ × List (Ins V))} (hi : ins.Nodup) (ho : outs.Nodup) (ht : ∀ p ∈ Q, Terminated p.2) {D : Desc}
    (hD : translate ins outs Q = .ok D) (hc : NoClash Q ins outs) {color : AReg → ℕ} {L : ℕ → ℕ → AReg → Prop}
    (hL : ∀ (k : ℕ) (B : ABlock) (i : ℕ) (a : AIns), D.blocks[k]? = some B → B.code[i]? = some a →
      (∀ x ∈ a.uses, L k i x) ∧
      (∀ x, ((i + 1 < B.code.length ∧ L k (i + 1) x) ∨ (i + 1 = B.code.length ∧ ((∃ s ∈ B.succs, L s 0 x) ∨ (B.exit = true ∧ x ∈ D.post)))) →
        (x ∉ a.defs → L k i x) ∧ ∀ y ∈ a.defs, y ≠ x → color y ≠ color x))
    {k i : ℕ} {r : Reg} (h : Live Q outs k i r) : L k i (regMap ins outs r) := by
  obtain ⟨_, hb, _, hpost⟩ := translate_spec hD
  have get : ∀ {k i : ℕ} {a : Ins V}, (code Q k)[i]? = some a → ∃ (B : ABlock) (A : AIns), D.blocks[k]? = some B ∧ B.code[i]? = some A ∧ insn (regMap ins outs) a = .ok A ∧
      block (regMap ins outs) (Q.map Prod.fst) (code Q k) = .ok B ∧ Terminated (code Q k) := by
    intro k i a ha
    obtain ⟨p, hp, hp2⟩ := code_get ha
    obtain ⟨B, hB, hbl⟩ := hb k p hp
    rw [hp2] at hbl
    obtain ⟨A, hA, hins⟩ := (block_spec hbl).2.1 i a ha
    exact ⟨B, A, hB, hA, hins, hbl, hp2 ▸ ht p (List.mem_of_getElem? hp)⟩
  induction h with
  | @read k i a r ha hr =>
    obtain ⟨B, A, hB, hA, hins, _, _⟩ := get ha
    refine (hL k B i A hB hA).1 _ ?_
    rw [(insn_spec hins).1]
    exact List.mem_map_of_mem hr
  | @out k i r ha hr =>
    obtain ⟨B, A, hB, hA, hins, hbl, htm⟩ := get ha
    obtain ⟨b1, _, _, b4⟩ := block_spec hbl
    obtain ⟨j, hj⟩ := List.getElem?_of_mem hr
    refine ((hL k B i A hB hA).2 _ (Or.inr ⟨?_, Or.inr ⟨?_, ?_⟩⟩)).1 ?_
    · rw [b1]; exact (term_spec htm ha).2.1 rfl
    · rw [b4]; exact hasRet_mem (List.mem_of_getElem? ha)
    · rw [hpost, map_out ho hj]
      exact List.mem_map_of_mem (List.mem_range.2 (List.getElem?_eq_some_iff.1 hj).1)
    · rw [(insn_spec hins).2]; simp [writes]
  | @next k i a r ha hg hw hl ih =>
    obtain ⟨B, A, hB, hA, hins, hbl, htm⟩ := get ha
    obtain ⟨b1, _, _, _⟩ := block_spec hbl
    have hlt : i + 1 < (code Q k).length := by
      cases hl with
      | read h _ => exact (List.getElem?_eq_some_iff.1 h).1
      | out h _ => exact (List.getElem?_eq_some_iff.1 h).1
      | next h _ _ _ => exact (List.getElem?_eq_some_iff.1 h).1
      | jump h _ _ => exact (List.getElem?_eq_some_iff.1 h).1
    refine ((hL k B i A hB hA).2 _ (Or.inl ⟨by rw [b1]; exact hlt, ih⟩)).1 ?_
    rw [(insn_spec hins).2]
    intro hm
    cases hwa : writes a with
    | none => rw [hwa] at hm; simp at hm
    | some s =>
      rw [hwa] at hm
      simp only [Option.toList_some, List.map_cons, List.map_nil, List.mem_singleton] at hm
      have hne : r ≠ s := by rintro rfl; exact hw hwa
      exact hc k i a s r ha hwa hne hl (map_inj hi ho hm.symm hne)
  | @jump k i a d r ha hj hl ih =>
    obtain ⟨B, A, hB, hA, hins, hbl, htm⟩ := get ha
    obtain ⟨b1, _, b3, _⟩ := block_spec hbl
    have hs : pos Q d ∈ B.succs := (b3 d (dests_mem (List.mem_of_getElem? ha) hj)).2
    cases a with
    | br e =>
      cases hj
      refine ((hL k B i A hB hA).2 _ (Or.inr ⟨?_, Or.inl ⟨_, hs, ih⟩⟩)).1 ?_
      · rw [b1]; exact (term_spec htm ha).2.2.1 _ rfl
      · rw [(insn_spec hins).2]; simp [writes]
    | cbr c e =>
      cases hj
      obtain ⟨t1, e', t2⟩ := (term_spec htm ha).2.2.2 _ _ rfl
      obtain ⟨B', A', hB', hA', hins', _, _⟩ := get t2
      rw [hB] at hB'
      cases hB'
      have h1 : L k (i + 1) (regMap ins outs r) := by
        refine ((hL k B (i + 1) A' hB hA').2 _ (Or.inr ⟨by omega, Or.inl ⟨_, hs, ih⟩⟩)).1 ?_
        rw [(insn_spec hins').2]; simp [writes]
      refine ((hL k B i A hB hA).2 _ (Or.inl ⟨by omega, h1⟩)).1 ?_
      rw [(insn_spec hins).2]; simp [writes]
    | _ => cases hj

/-! ## The simulation -/

theorem val_map {ρ : Reg → Reg} {σ τ : Reg → V} {o : Opnd V} (h : ∀ r ∈ regs o, σ r = τ (ρ r)) : Opnd.val τ (Opnd.map ρ o) = Opnd.val σ o := by
  cases o with
  | reg r => exact (h r (by simp [regs])).symm
  | cst v => rfl

theorem vals_map {ρ : Reg → Reg} {σ τ : Reg → V} {l : List (Opnd V)} (h : ∀ r ∈ l.flatMap regs, σ r = τ (ρ r)) :
    (l.map (Opnd.map ρ)).map (Opnd.val τ) = l.map (Opnd.val σ) := by
  rw [List.map_map]
  apply List.map_congr_left
  intro o hoo
  exact val_map (fun r hr => h r (List.mem_flatMap.2 ⟨o, hoo, hr⟩))

theorem code_of {truth : V → Bool} {Q : List (ℕ × List (Ins V))} (hn : (Q.map Prod.fst).Nodup) {k b : ℕ} (hb : (Q.map Prod.fst)[k]? = some b) :
    codeOf truth Q b = (code Q k).map (Ins.ctl truth) := by
  rw [List.getElem?_map] at hb
  cases hq : Q[k]? with
  | none => rw [hq] at hb; cases hb
  | some p =>
    rw [hq] at hb
    simp only [Option.map_some, Option.some.injEq] at hb
    unfold codeOf code
    rw [hq]
    have hf : Q.find? (fun x => x.1 == b) = some p := by
      have hmem := List.mem_of_getElem? hq
      clear hq
      induction Q with
      | nil => cases hmem
      | cons q Q ih =>
        rw [List.map_cons, List.nodup_cons] at hn
        rw [List.find?_cons]
        rcases List.mem_cons.1 hmem with rfl | hmem
        · simp [hb]
        · have : q.1 ≠ b := by
            rintro rfl
            exact hn.1 (hb ▸ List.mem_map_of_mem hmem)
          simp only [beq_eq_false_iff_ne.2 this]
          exact ih hn.2 hmem
    rw [hf]

theorem code_rename (ρ : Reg → Reg) (Q : List (ℕ × List (Ins V))) (k : ℕ) : code (Q.map fun p => (p.1, p.2.map (rename ρ))) k = (code Q k).map (rename ρ) := by
  unfold code
  rw [List.getElem?_map]
  cases Q[k]? <;> rfl

theorem live_read {Q : List (ℕ × List (Ins V))} {outs : List Reg} {k i : ℕ} {a : Ins V} (ha : (code Q k)[i]? = some a) : ∀ r ∈ reads a, Live Q outs k i r := fun _ hr => .read ha hr

/-- how the two runs end -/
def Same (outs : List Reg) : Option (End (Mach V) Unit) → Option (End (Mach V) Unit) → Prop
  | some (.ret s _), some (.ret t _) => t.2 = s.2 ∧ ∀ (j : ℕ) r, outs[j]? = some r → t.1 (.t j) = s.1 r
  | some (.missing b), some (.missing c) => b = c
  | some (.fell _), some (.fell _) => True
  | none, none => True
  | _, _ => False

theorem sim (truth : V → Bool) {ins outs : List Reg} {Q : List (ℕ × List (Ins V))} (hn : (Q.map Prod.fst).Nodup) (hi : ins.Nodup) (ho : outs.Nodup) (ht : ∀ p ∈ Q, Terminated p.2)
    {D : Desc} (hD : translate ins outs Q = .ok D) (hc : NoClash Q ins outs) {color : AReg → ℕ} (hv : Valid D color) (n : ℕ) :
    ∀ (k i : ℕ) (σ τ : Reg → V) (tr : List (List V)), (k < Q.length → i < (code Q k).length) → (∀ r, Live Q outs k i r → σ r = τ (.t (color (regMap ins outs r)))) →
      Same outs (runL (codeOf truth Q) (Q.map Prod.fst) n k i (σ, tr))
        (runL (codeOf truth (Q.map fun p => (p.1, p.2.map (rename fun r => .t (color (regMap ins outs r)))))) (Q.map Prod.fst) n k i (τ, tr)) := by
  obtain ⟨ρ, hρ⟩ : ∃ ρ : Reg → Reg, ρ = fun r => .t (color (regMap ins outs r)) := ⟨_, rfl⟩
  obtain ⟨L, hL, hentry⟩ := hv.live
  obtain ⟨_, hb, _, _⟩ := translate_spec hD
  have hlab : (Q.map fun p => (p.1, p.2.map (rename ρ))).map Prod.fst = Q.map Prod.fst := by
    rw [List.map_map]; rfl
  rw [← hρ]
  have hρr : ∀ r, Reg.t (color (regMap ins outs r)) = ρ r := fun r => by rw [hρ]
  simp only [hρr]
  -- what is written does not disturb what is live
  have upd : ∀ k i a r (σ τ : Reg → V) v, (code Q k)[i]? = some a → Straight a → writes a = some r → (∀ r, Live Q outs k i r → σ r = τ (ρ r)) →
      ∀ s, Live Q outs k (i + 1) s → Function.update σ r v s = Function.update τ (ρ r) v (ρ s) := by
    intro k i a r σ τ v ha hst hw hinv s hs
    by_cases hsr : s = r
    · subst hsr; rw [Function.update_self, Function.update_self]
    · have hls : Live Q outs k i s := .next ha hst.2 (by rw [hw]; simpa using fun h => hsr h.symm) hs
      have hne : regMap ins outs r ≠ regMap ins outs s := fun h => hc k i a r s ha hw hsr hs (map_inj hi ho h hsr)
      obtain ⟨p, hp, hp2⟩ := code_get ha
      obtain ⟨B, hB, hbl⟩ := hb k p hp
      rw [hp2] at hbl
      obtain ⟨b1, b2, _, _⟩ := block_spec hbl
      obtain ⟨A, hA, hins⟩ := b2 i a ha
      have htm : Terminated (code Q k) := hp2 ▸ ht p (List.mem_of_getElem? hp)
      have hcol := ((hL k B i A hB hA).2 (regMap ins outs s) (Or.inl ⟨by rw [b1]; exact (term_spec htm ha).1 hst, live_sound hi ho ht hD hc hL hs⟩)).2
        (regMap ins outs r) (by rw [(insn_spec hins).2, hw]; simp) hne
      have hρne : ρ s ≠ ρ r := by rw [hρ]; intro h; exact hcol (Reg.t.inj h).symm
      rw [Function.update_of_ne hsr, Function.update_of_ne hρne]
      exact hinv s hls
  induction n with
  | zero => intro k i σ τ tr _ _; simp [runL, Same]
  | succ n ih =>
    intro k i σ τ tr hlt hinv
    cases hk : (Q.map Prod.fst)[k]? with
    | none => simp only [runL, hk, Same]
    | some b =>
      have hkl : k < Q.length := by simpa using (List.getElem?_eq_some_iff.1 hk).1
      have hil := hlt hkl
      have hcode := code_of (truth := truth) hn hk
      have hcode' : codeOf truth (Q.map fun p => (p.1, p.2.map (rename ρ))) b = ((code Q k).map (rename ρ)).map (Ins.ctl truth) := by
        rw [← code_rename]
        exact code_of (by rw [hlab]; exact hn) (by rw [hlab]; exact hk)
      obtain ⟨a, ha⟩ : ∃ a, (code Q k)[i]? = some a := ⟨_, List.getElem?_eq_getElem hil⟩
      have htm : Terminated (code Q k) := by
        obtain ⟨p, hp, hp2⟩ := code_get ha
        exact hp2 ▸ ht p (List.mem_of_getElem? hp)
      have e1 : (codeOf truth Q b)[i]? = some (Ins.ctl truth a) := by rw [hcode, List.getElem?_map, ha]; rfl
      have e2 : (codeOf truth (Q.map fun p => (p.1, p.2.map (rename ρ))) b)[i]? = some (Ins.ctl truth (rename ρ a)) := by
        rw [hcode', List.getElem?_map, List.getElem?_map, ha]; rfl
      -- jumps
      have jmp : ∀ d, jumps a = some d → d ∈ Q.map Prod.fst ∧ ((pos Q d) < Q.length → 0 < (code Q (pos Q d)).length) ∧
          ∀ r, Live Q outs (pos Q d) 0 r → σ r = τ (ρ r) := by
        intro d hd
        obtain ⟨p, hp, hp2⟩ := code_get ha
        obtain ⟨B, hB, hbl⟩ := hb k p hp
        rw [hp2] at hbl
        refine ⟨((block_spec hbl).2.2.1 d (dests_mem (List.mem_of_getElem? ha) hd)).1, ?_, fun r hr => hinv r (.jump ha hd hr)⟩
        intro hlt
        have hq : Q[pos Q d]? = some Q[pos Q d] := List.getElem?_eq_getElem hlt
        have : code Q (pos Q d) = Q[pos Q d].2 := by unfold code; rw [hq]; rfl
        rw [this]
        obtain ⟨body, _, h | ⟨_, h⟩ | ⟨_, _, _, h⟩⟩ := ht _ (List.getElem_mem hlt) <;> rw [h] <;> simp
      cases a with
      | op r f args =>
        have hst : Straight (Ins.op r f args) := ⟨rfl, rfl⟩
        rw [Lin.runL_step _ _ n k i _ b hk _ e1, Lin.runL_step _ _ n k i _ b hk _ e2]
        simp only
        rw [vals_map (σ := σ) (fun s hs => hinv s (.read ha hs))]
        exact ih k (i + 1) _ _ _ (fun _ => (term_spec htm ha).1 hst) (upd k i _ r σ τ _ ha hst rfl hinv)
      | copy r q =>
        have hst : Straight (Ins.copy (V := V) r q) := ⟨rfl, rfl⟩
        rw [Lin.runL_step _ _ n k i _ b hk _ e1, Lin.runL_step _ _ n k i _ b hk _ e2]
        simp only
        rw [← hinv q (.read ha (by simp [reads]))]
        exact ih k (i + 1) _ _ _ (fun _ => (term_spec htm ha).1 hst) (upd k i _ r σ τ _ ha hst rfl hinv)
      | mat r v =>
        have hst : Straight (Ins.mat r v) := ⟨rfl, rfl⟩
        rw [Lin.runL_step _ _ n k i _ b hk _ e1, Lin.runL_step _ _ n k i _ b hk _ e2]
        exact ih k (i + 1) _ _ _ (fun _ => (term_spec htm ha).1 hst) (upd k i _ r σ τ _ ha hst rfl hinv)
      | store args =>
        have hst : Straight (Ins.store args) := ⟨rfl, rfl⟩
        rw [Lin.runL_step _ _ n k i _ b hk _ e1, Lin.runL_step _ _ n k i _ b hk _ e2]
        simp only
        rw [vals_map (σ := σ) (fun s hs => hinv s (.read ha hs))]
        exact ih k (i + 1) _ _ _ (fun _ => (term_spec htm ha).1 hst) (fun r hr => hinv r (.next ha rfl (by simp [writes]) hr))
      | br d =>
        obtain ⟨j1, j2, j3⟩ := jmp d rfl
        rw [Lin.runL_goto _ _ n k i _ b hk d e1 j1 _ rfl, Lin.runL_goto _ _ n k i _ b hk d e2 j1 _ rfl]
        exact ih (pos Q d) 0 σ τ tr j2 j3
      | cbr c d =>
        obtain ⟨j1, j2, j3⟩ := jmp d rfl
        rw [Lin.runL_cond _ _ n k i _ b hk _ d e1 j1 _ rfl, Lin.runL_cond _ _ n k i _ b hk _ d e2 j1 _ rfl]
        simp only
        rw [val_map (σ := σ) (fun s hs => hinv s (.read ha hs))]
        by_cases hcv : truth (Opnd.val σ c) = true
        · rw [if_pos hcv, if_pos hcv]
          exact ih (pos Q d) 0 σ τ tr j2 j3
        · rw [if_neg hcv, if_neg hcv]
          refine ih k (i + 1) σ τ tr (fun _ => ?_) (fun r hr => hinv r (.next ha rfl (by simp [writes]) hr))
          have := ((term_spec htm ha).2.2.2 _ _ rfl).1
          omega
      | ret =>
        rw [Lin.runL_ret _ _ n k i _ b hk _ e1, Lin.runL_ret _ _ n k i _ b hk _ e2]
        refine ⟨rfl, ?_⟩
        intro j r hj
        have := hinv r (.out ha (List.mem_of_getElem? hj))
        change τ (.t j) = σ r
        rw [this, hρ]
        simp only [map_out ho hj, hv.phys]

/-- **C112**.  For every program whose blocks are terminated, every colouring that the allocator may return, every initial state that holds the arguments in the registers of the calling
convention: after register allocation the program performs the same stores in the same order, ends when the program ends, and leaves the results in the registers of the convention.
Missing from the full statement: programs that write a register while another one, to which the convention gives the same place, is live, and arguments returned with another rank. -/
theorem C112_allocation_partial (truth : V → Bool) {ins outs : List Reg} {Q Q' : List (ℕ × List (Ins V))} (hn : (Q.map Prod.fst).Nodup) (hi : ins.Nodup) (ho : outs.Nodup)
    (ht : ∀ p ∈ Q, Terminated p.2) {D : Desc} (hD : translate ins outs Q = .ok D) {color : AReg → ℕ} (hv : Valid D color) (hQ : allocate ins outs color Q = .ok Q')
    (hc : NoClash Q ins outs) (he : EntryOk Q ins outs) (σ τ : Reg → V) (hτ : ∀ (j : ℕ) r, ins[j]? = some r → τ (.t j) = σ r) (n : ℕ) :
    Same outs (runL (codeOf truth Q) (Q.map Prod.fst) n 0 0 (σ, [])) (runL (codeOf truth Q') (Q'.map Prod.fst) n 0 0 (τ, [])) := by
  unfold allocate at hQ
  rw [hD] at hQ
  cases hQ
  have hlab : (Q.map fun p => (p.1, p.2.map (rename fun r => Reg.t (color (regMap ins outs r))))).map Prod.fst = Q.map Prod.fst := by
    rw [List.map_map]; rfl
  rw [hlab]
  refine sim truth hn hi ho ht hD hc hv n 0 0 σ τ [] ?_ ?_
  · intro hlt
    have hq : Q[0]? = some Q[0] := List.getElem?_eq_getElem hlt
    have : code Q 0 = Q[0].2 := by unfold code; rw [hq]; rfl
    rw [this]
    obtain ⟨body, _, h | ⟨_, h⟩ | ⟨_, _, _, h⟩⟩ := ht _ (List.getElem_mem hlt) <;> rw [h] <;> simp
  · intro r hr
    obtain ⟨i, h1, h2⟩ := he r hr
    rw [map_in hi ho h1 h2, hv.phys]
    exact (hτ i r h1).symm

/-! ## From the basic blocks of expressions to the physical registers -/

/-- neither a branch nor a return -/
def SStraight : Stm V → Prop
  | .assign .. => True
  | .store _ => True
  | _ => False

/-- a source block ends by a return or a branch, and has no other -/
def STerminated (ss : List (Stm V)) : Prop :=
  ∃ body last, ss = body ++ [last] ∧ (∀ s ∈ body, SStraight s) ∧ ((∃ e, last = .ret e) ∨ (∃ d, last = .br d) ∨ ∃ c y z, last = .cbr c y z)

theorem lin_straight : (∀ e : E V, ∀ S : St, ∀ a ∈ (lin e S).2.2, Straight a) ∧ ∀ es : List (E V), ∀ S : St, ∀ a ∈ (linL es S).2.2, Straight a := by
  refine E.ind (P := fun e => ∀ S : St, ∀ a ∈ (lin e S).2.2, Straight a) (Q := fun es => ∀ S : St, ∀ a ∈ (linL es S).2.2, Straight a) ?_ ?_ ?_ ?_ ?_
  · intro x S a ha; simp [lin] at ha
  · intro c S a ha; simp [lin] at ha
  · intro i f args ih S a ha
    unfold lin at ha
    cases hm : S.memo i with
    | some k => rw [hm] at ha; simp at ha
    | none =>
      rw [hm] at ha
      simp only [List.mem_append, List.mem_singleton] at ha
      rcases ha with ha | ha
      · exact ih S a ha
      · subst ha; exact ⟨rfl, rfl⟩
  · intro S a ha; simp [linL] at ha
  · intro e es h1 h2 S a ha
    unfold linL at ha
    simp only [List.mem_append] at ha
    rcases ha with ha | ha
    · exact h1 S a ha
    · exact h2 _ a ha

theorem linS_straight {s : Stm V} (hs : SStraight s) {S S' : St} {c : List (Ins V)} (h : linS s S = .ok (S', c)) : ∀ a ∈ c, Straight a := by
  cases s with
  | assign x e =>
    cases h
    intro a ha
    rcases List.mem_append.1 ha with ha | ha
    · exact lin_straight.1 e S a ha
    · rw [List.mem_singleton.1 ha]
      cases (lin e S).2.1 <;> exact ⟨rfl, rfl⟩
  | store es =>
    cases h
    intro a ha
    rcases List.mem_append.1 ha with ha | ha
    · exact lin_straight.2 es S a ha
    · rw [List.mem_singleton.1 ha]; exact ⟨rfl, rfl⟩
  | _ => cases hs

theorem linB_term {ss : List (Stm V)} (hs : STerminated ss) : ∀ {S S' : St} {c : List (Ins V)}, linB ss S = .ok (S', c) → Terminated c := by
  obtain ⟨body, last, rfl, hb, hl⟩ := hs
  induction body with
  | nil =>
    intro S S' c h
    obtain ⟨S1, c1, c2, h1, h2, h3⟩ := linB_cons _ _ _ _ _ h
    cases h2
    subst h3
    rcases hl with ⟨e, rfl⟩ | ⟨d, rfl⟩ | ⟨e, y, z, rfl⟩
    · cases e with
      | none => cases h1; exact ⟨[], by simp, Or.inl rfl⟩
      | some e => cases h1; exact ⟨_, lin_straight.1 e S, Or.inl (by simp)⟩
    · cases h1; exact ⟨[], by simp, Or.inr (Or.inl ⟨d, rfl⟩)⟩
    · cases h1; exact ⟨_, lin_straight.1 e S, Or.inr (Or.inr ⟨_, _, _, List.append_nil _⟩)⟩
  | cons s body ih =>
    intro S S' c h
    obtain ⟨S1, c1, c2, h1, h2, h3⟩ := linB_cons _ _ _ _ _ h
    obtain ⟨bd, k1, k2⟩ := ih (fun s hs => hb s (by simp [hs])) h2
    have hst := linS_straight (hb s (by simp)) h1
    subst h3
    refine ⟨c1 ++ bd, ?_, ?_⟩
    · intro a ha
      rcases List.mem_append.1 ha with ha | ha
      · exact hst a ha
      · exact k1 a ha
    · rcases k2 with k | ⟨d, k⟩ | ⟨c, d, e, k⟩
      · left; rw [k, List.append_assoc]
      · right; left; exact ⟨d, by rw [k, List.append_assoc]⟩
      · right; right; exact ⟨c, d, e, by rw [k, List.append_assoc]⟩

theorem linP_term {P : Prog V} (hP : ∀ p ∈ P, STerminated p.2) : ∀ {S S' : St} {Q : List (ℕ × List (Ins V))}, linP P S = .ok (S', Q) → ∀ q ∈ Q, Terminated q.2 := by
  induction P with
  | nil => intro S S' Q h; cases h; simp
  | cons p P ih =>
    intro S S' Q h
    obtain ⟨S1, c1, Q2, h1, h2, h3⟩ := linP_cons _ _ _ _ _ h
    subst h3
    intro q hq
    rcases List.mem_cons.1 hq with rfl | hq
    · exact linB_term (hP p (by simp)) h1
    · exact ih (fun p hp => hP p (by simp [hp])) h2 q hq

/-- **C112**, with C90: from the basic blocks of expressions to physical registers.  When the function returns, the code with physical registers returns after the same stores and, if a
single expression is returned, its value is in the first register. -/
theorem C112_end_to_end_partial (truth : V → Bool) (args : List ℕ) (ha : args.Nodup) (b : ℕ) (ss : List (Stm V)) (P' P : Prog V) (hP : P = (b, ss) :: P') (hnd : (P.map Prod.fst).Nodup)
    (hC : Consistent P) (hL : Local P) (hS : Stable P) (hT : ∀ p ∈ P, STerminated p.2) (ins outs : List Reg) (Q Q' : List (ℕ × List (Ins V))) (h : linF args P = .ok (ins, outs, Q))
    {D : Desc} (hD : translate ins outs Q = .ok D) {color : AReg → ℕ} (hv : Valid D color) (hQ : allocate ins outs color Q = .ok Q')
    (hc : NoClash Q ins outs) (he : EntryOk Q ins outs)
    (env : ℕ → V) (τ : Reg → V) (hτ : ∀ (j x : ℕ), args[j]? = some x → τ (.t j) = env x) (n pred : ℕ) (stores : List (List V)) (e : E V) (v : V)
    (hrun : run truth P n pred b ss env [] = some (.ret stores (some e) (some v))) :
    ∃ m τ', runL (codeOf truth Q') (Q'.map Prod.fst) m 0 0 (τ, []) = some (.ret (τ', stores) ()) ∧ ((∀ e' ∈ returned P, e' = e) → τ' (.t 0) = v) := by
  obtain ⟨Sf, o, h1, _, _, h4⟩ := linF_ok args P ins outs Q h
  have h0 : St.init.Ok := by intro i k h; cases h
  have hlab := (linP_grow P _ _ _ h1 h0).2
  have hins := C90_inputs args P ins outs Q h
  have hin : ins.Nodup := by
    rw [hins]; exact List.Nodup.map (fun a b hab => by cases hab; rfl) ha
  have hout : outs.Nodup := by rw [h4]; exact List.nodup_dedup _
  have hterm : ∀ q ∈ Q, Terminated q.2 := linP_term hT h1
  obtain ⟨σ, hσ⟩ : ∃ σ : Reg → V, ∀ x, σ (.v x) = env x := ⟨fun r => match r with | .v x => env x | .t _ => v, fun _ => rfl⟩
  obtain ⟨m, σ', hm, hres⟩ := C90_linearize_partial truth args b ss P' P hP hnd hC hL hS ins outs Q h env σ hσ n pred stores (some e) (some v) hrun
  have hsame := C112_allocation_partial truth (by rw [hlab]; exact hnd) hin hout hterm hD hv hQ hc he σ τ (by
    intro j r hj
    rw [hins, List.getElem?_map] at hj
    cases hx : args[j]? with
    | none => rw [hx] at hj; cases hj
    | some x =>
      rw [hx] at hj
      cases hj
      rw [hσ]; exact hτ j x hx) m
  rw [hm] at hsame
  cases hr : runL (codeOf truth Q') (Q'.map Prod.fst) m 0 0 (τ, []) with
  | none => rw [hr] at hsame; exact hsame.elim
  | some en =>
    rw [hr] at hsame
    cases en with
    | ret t u =>
      obtain ⟨s1, s2⟩ := hsame
      obtain ⟨t1, t2⟩ := t
      refine ⟨m, t1, ?_, ?_⟩
      · rw [hr]; simp only at s1; rw [s1]
      · intro hu
        obtain ⟨r, _, hv', hone⟩ := hres e rfl
        have := s2 0 r (by rw [hone hu]; rfl)
        simp only at this
        rw [this]; exact (Option.some.inj hv').symm
    | fell => exact hsame.elim
    | missing => exact hsame.elim

/-! ## Where the allocation is wrong -/

/-- addition -/
def add : List ℤ → ℤ := List.sum

/-- `z = y; z = z + x; return z`, with the arguments `x`, `y` -/
def clobberQ : List (ℕ × List (Ins ℤ)) := [(0, [.copy (.v 2) (.v 1), .op (.t 0) add [.reg (.v 2), .reg (.v 0)], .copy (.v 2) (.t 0), .ret])]

/-- it comes from the linearization of these statements -/
example : linF [0, 1] [(0, [.assign 2 (.var 1), .assign 2 (.op 0 add [.var 2, .var 0]), .ret (some (.var 2))])] = .ok ([.v 0, .v 1], [.v 2], clobberQ) := rfl

/-- a colouring -/
def col : AReg → ℕ
  | .phys n => n
  | .virt _ => 2

/-- the live registers, for the allocator -/
def clobberL : ℕ → ℕ → AReg → Prop
  | 0, 0, x => x = .phys 1
  | 0, 1, x => x = .phys 0
  | 0, 2, x => x = .virt (.t 0)
  | 0, 3, x => x = .phys 0
  | _, _, _ => False

/-- its description -/
def clobberD : Desc := ⟨[⟨[⟨[.phys 0], [.phys 1]⟩, ⟨[.virt (.t 0)], [.phys 0, .phys 0]⟩, ⟨[.phys 0], [.virt (.t 0)]⟩, ⟨[], []⟩], [], true⟩], [.phys 0, .phys 1], [.phys 0]⟩

/-- **C112**, wrong: the register of a result is the register of an argument from the start of the function. The function that returns `y + x` returns `2 y`, with every colouring;
the allocator accepts colourings. -/
theorem C112_clobber_wrong : translate [.v 0, .v 1] [.v 2] clobberQ = .ok clobberD ∧ Valid clobberD col ∧
    ∀ (color : AReg → ℕ) (Q' : List (ℕ × List (Ins ℤ))), Valid clobberD color → allocate [.v 0, .v 1] [.v 2] color clobberQ = .ok Q' →
      ∀ (truth : ℤ → Bool) (σ τ : Reg → ℤ), τ (.t 0) = σ (.v 0) → τ (.t 1) = σ (.v 1) →
        (∃ σ', runL (codeOf truth clobberQ) [0] 4 0 0 (σ, []) = some (.ret (σ', []) ()) ∧ σ' (.v 2) = σ (.v 1) + σ (.v 0)) ∧
        ∃ τ', runL (codeOf truth Q') [0] 4 0 0 (τ, []) = some (.ret (τ', []) ()) ∧ τ' (.t 0) = 2 * σ (.v 1) := by
  refine ⟨rfl, ⟨fun _ => rfl, clobberL, ?_, ?_⟩, ?_⟩
  · intro k B i a hB ha
    rcases k with _ | k
    · simp only [clobberD, List.getElem?_cons_zero, Option.some.injEq] at hB
      subst hB
      rcases i with _ | _ | _ | _ | i
      all_goals simp at ha
      all_goals subst ha
      all_goals simp [clobberL, clobberD, col]
    · simp [clobberD] at hB
  · intro x hx
    simp only [clobberL] at hx
    simp [clobberD, hx]
  · intro color Q' hv hQ truth σ τ h0 h1
    cases hQ
    have r0 : regMap [.v 0, .v 1] [.v 2] (.v 0) = .phys 0 := rfl
    have r1 : regMap [.v 0, .v 1] [.v 2] (.v 1) = .phys 1 := rfl
    have r2 : regMap [.v 0, .v 1] [.v 2] (.v 2) = .phys 0 := rfl
    have p0 := hv.phys 0
    have p1 := hv.phys 1
    constructor
    · refine ⟨_, rfl, ?_⟩
      simp [add, Opnd.val]
    · refine ⟨_, rfl, ?_⟩
      simp [Opnd.map, add, Opnd.val, r0, r1, r2, p0, p1, h0, h1]
      try ring

/-- **C112**, wrong: a function of two arguments that returns the second one returns the first one, with every colouring. -/
theorem C112_argument_wrong (color : AReg → ℕ) (Q' : List (ℕ × List (Ins ℤ))) (hp : ∀ n, color (.phys n) = n) :
    linF (V := ℤ) [0, 1] [(0, [.store [.var 0], .ret (some (.var 1))])] = .ok ([.v 0, .v 1], [.v 1], [(0, [.store [.reg (.v 0)], .ret])]) ∧
    ((allocate [.v 0, .v 1] [.v 1] color [(0, [.store [.reg (.v 0)], .ret])] = .ok Q' →
      ∀ (truth : ℤ → Bool) (τ : Reg → ℤ), runL (codeOf truth Q') [0] 2 0 0 (τ, []) = some (.ret (τ, [[τ (.t 0)]]) ()))) := by
  refine ⟨rfl, ?_⟩
  intro h truth τ
  cases h
  have r0 : color (regMap [.v 0, .v 1] [.v 1] (.v 0)) = 0 := by rw [show regMap [.v 0, .v 1] [.v 1] (.v 0) = .phys 0 from rfl, hp]
  simp only [runL, codeOf, List.map, List.find?, rename, Opnd.map, r0]
  rfl

/-- **C112**, wrong: a program with a branch on a constant is refused. -/
theorem C112_constant_branch_wrong (ins outs : List Reg) (Q : List (ℕ × List (Ins V))) {p : ℕ × List (Ins V)} (hp : p ∈ Q) {v : V} {d : ℕ} (h : Ins.cbr (.cst v) d ∈ p.2) (D : Desc) :
    translate ins outs Q ≠ .ok D := by
  intro hD
  obtain ⟨_, hb, _, _⟩ := translate_spec hD
  obtain ⟨k, hk⟩ := List.getElem?_of_mem hp
  obtain ⟨B, _, hbl⟩ := hb k p hk
  obtain ⟨i, hi⟩ := List.getElem?_of_mem h
  obtain ⟨A, _, hA⟩ := (block_spec hbl).2.1 i _ hi
  cases hA

/-! ## A program that meets the hypotheses -/

/-- `t = x + y; do { store t } while (y); z = t; return z` -/
def loopQ : List (ℕ × List (Ins ℤ)) :=
  [(7, [.op (.t 0) add [.reg (.v 0), .reg (.v 1)], .br 8]), (8, [.store [.reg (.t 0)], .cbr (.reg (.v 1)) 8, .br 9]), (9, [.copy (.v 2) (.t 0), .ret])]

/-- registers that are live -/
def loopR : ℕ → ℕ → Reg → Prop
  | 0, 0, r => r = .v 0 ∨ r = .v 1
  | 0, 1, r => r = .t 0 ∨ r = .v 1
  | 1, _, r => r = .t 0 ∨ r = .v 1
  | 2, 0, r => r = .t 0
  | 2, 1, r => r = .v 2
  | _, _, _ => False

theorem loop_live {k i : ℕ} {r : Reg} (h : Live loopQ [.v 2] k i r) : loopR k i r := by
  have hc : ∀ k i a, (code loopQ k)[i]? = some a → (k = 0 ∧ i = 0 ∧ a = .op (.t 0) add [.reg (.v 0), .reg (.v 1)]) ∨ (k = 0 ∧ i = 1 ∧ a = .br 8) ∨
      (k = 1 ∧ i = 0 ∧ a = .store [.reg (.t 0)]) ∨ (k = 1 ∧ i = 1 ∧ a = .cbr (.reg (.v 1)) 8) ∨ (k = 1 ∧ i = 2 ∧ a = .br 9) ∨
      (k = 2 ∧ i = 0 ∧ a = .copy (.v 2) (.t 0)) ∨ (k = 2 ∧ i = 1 ∧ a = .ret) := by
    intro k i a h
    rcases k with _ | _ | _ | k
    · rcases i with _ | _ | i <;> simp [code, loopQ] at h <;> simp [h]
    · rcases i with _ | _ | _ | i <;> simp [code, loopQ] at h <;> simp [h]
    · rcases i with _ | _ | i <;> simp [code, loopQ] at h <;> simp [h]
    · simp [code, loopQ] at h
  induction h with
  | read h hr =>
    rcases hc _ _ _ h with ⟨rfl, rfl, rfl⟩ | ⟨rfl, rfl, rfl⟩ | ⟨rfl, rfl, rfl⟩ | ⟨rfl, rfl, rfl⟩ | ⟨rfl, rfl, rfl⟩ | ⟨rfl, rfl, rfl⟩ | ⟨rfl, rfl, rfl⟩ <;> simp_all [reads, regs, loopR]
  | out h hr =>
    rcases hc _ _ _ h with ⟨rfl, rfl, h⟩ | ⟨rfl, rfl, h⟩ | ⟨rfl, rfl, h⟩ | ⟨rfl, rfl, h⟩ | ⟨rfl, rfl, h⟩ | ⟨rfl, rfl, h⟩ | ⟨rfl, rfl, h⟩ <;> simp_all [loopR]
  | next h hg hw hl ih =>
    rcases hc _ _ _ h with ⟨rfl, rfl, rfl⟩ | ⟨rfl, rfl, rfl⟩ | ⟨rfl, rfl, rfl⟩ | ⟨rfl, rfl, rfl⟩ | ⟨rfl, rfl, rfl⟩ | ⟨rfl, rfl, rfl⟩ | ⟨rfl, rfl, rfl⟩ <;>
      simp_all [writes, goesOn, loopR]
    · rcases ih with rfl | rfl <;> simp_all
  | jump h hj hl ih =>
    have p8 : pos loopQ 8 = 1 := rfl
    have p9 : pos loopQ 9 = 2 := rfl
    rcases hc _ _ _ h with ⟨rfl, rfl, rfl⟩ | ⟨rfl, rfl, rfl⟩ | ⟨rfl, rfl, rfl⟩ | ⟨rfl, rfl, rfl⟩ | ⟨rfl, rfl, rfl⟩ | ⟨rfl, rfl, rfl⟩ | ⟨rfl, rfl, rfl⟩ <;> cases hj
    · rw [p8] at ih; exact ih
    · rw [p8] at ih; exact ih
    · rw [p9] at ih; exact Or.inl ih

/-- its description -/
def loopD : Desc :=
  ⟨[⟨[⟨[.virt (.t 0)], [.phys 0, .phys 1]⟩, ⟨[], []⟩], [1], false⟩, ⟨[⟨[], [.virt (.t 0)]⟩, ⟨[], [.phys 1]⟩, ⟨[], []⟩], [1, 2], false⟩,
    ⟨[⟨[.phys 0], [.virt (.t 0)]⟩, ⟨[], []⟩], [], true⟩], [.phys 0, .phys 1], [.phys 0]⟩

/-- the live registers, for the allocator -/
def loopL : ℕ → ℕ → AReg → Prop
  | 0, 0, x => x = .phys 0 ∨ x = .phys 1
  | 0, 1, x => x = .virt (.t 0) ∨ x = .phys 1
  | 1, _, x => x = .virt (.t 0) ∨ x = .phys 1
  | 2, 0, x => x = .virt (.t 0)
  | 2, 1, x => x = .phys 0
  | _, _, _ => False

theorem loop_valid : Valid loopD col := by
  refine ⟨fun _ => rfl, loopL, ?_, ?_⟩
  · intro k B i a hB ha
    rcases k with _ | _ | _ | k
    · simp only [loopD, List.getElem?_cons_zero, Option.some.injEq] at hB
      subst hB
      rcases i with _ | _ | i
      all_goals simp at ha
      all_goals subst ha
      · refine ⟨by simp [loopL], ?_⟩
        intro x hx
        simp [loopL] at hx
        rcases hx with rfl | rfl <;> simp [loopL, col]
      · simp [loopL]
    · simp only [loopD, List.getElem?_cons_succ, List.getElem?_cons_zero, Option.some.injEq] at hB
      subst hB
      rcases i with _ | _ | _ | i
      all_goals simp at ha
      all_goals subst ha
      · simp [loopL]
      · simp [loopL]
      · refine ⟨by simp, ?_⟩
        intro x hx
        simp [loopL] at hx
        simp [loopL]
        tauto
    · simp only [loopD, List.getElem?_cons_succ, List.getElem?_cons_zero, Option.some.injEq] at hB
      subst hB
      rcases i with _ | _ | i
      all_goals simp at ha
      all_goals subst ha
      all_goals simp [loopL, loopD]
    · simp [loopD] at hB
  · intro x hx
    simp only [loopL] at hx
    simpa [loopD] using hx

example (truth : ℤ → Bool) (σ τ : Reg → ℤ) (h0 : τ (.t 0) = σ (.v 0)) (h1 : τ (.t 1) = σ (.v 1)) (n : ℕ) (Q' : List (ℕ × List (Ins ℤ)))
    (hQ : allocate [.v 0, .v 1] [.v 2] col loopQ = .ok Q') :
    Same [.v 2] (runL (codeOf truth loopQ) [7, 8, 9] n 0 0 (σ, [])) (runL (codeOf truth Q') (Q'.map Prod.fst) n 0 0 (τ, [])) := by
  refine C112_allocation_partial truth (Q := loopQ) (ins := [.v 0, .v 1]) (outs := [.v 2]) (by decide) (by decide) (by decide) ?_ (D := loopD) rfl loop_valid hQ ?_ ?_ σ τ ?_ n
  · intro p hp
    simp only [loopQ, List.mem_cons, List.not_mem_nil, or_false] at hp
    rcases hp with rfl | rfl | rfl
    · exact ⟨[.op (.t 0) add [.reg (.v 0), .reg (.v 1)]], by simp [Straight, jumps, goesOn], Or.inr (Or.inl ⟨8, rfl⟩)⟩
    · exact ⟨[.store [.reg (.t 0)]], by simp [Straight, jumps, goesOn], Or.inr (Or.inr ⟨_, _, _, rfl⟩)⟩
    · exact ⟨[.copy (.v 2) (.t 0)], by simp [Straight, jumps, goesOn], Or.inl rfl⟩
  · intro k i a r s ha hw hs hl ⟨j, hj⟩
    have hr : r = .t 0 ∨ (r = .v 2 ∧ k = 2 ∧ i = 0) := by
      rcases k with _ | _ | _ | k
      · rcases i with _ | _ | i <;> simp [code, loopQ] at ha <;> subst ha <;> simp [writes] at hw <;> simp [← hw]
      · rcases i with _ | _ | _ | i <;> simp [code, loopQ] at ha <;> subst ha <;> simp [writes] at hw
      · rcases i with _ | _ | i <;> simp [code, loopQ] at ha <;> subst ha <;> simp [writes] at hw <;> simp [← hw]
      · simp [code, loopQ] at ha
    rcases hr with rfl | ⟨rfl, rfl, rfl⟩
    · rcases j with _ | _ | j <;> simp at hj
    · exact hs (loop_live hl)
  · intro r hr
    rcases loop_live hr with rfl | rfl
    · exact ⟨0, rfl, by intro j hj; rcases j with _ | j <;> simp at hj⟩
    · exact ⟨1, rfl, by intro j hj; rcases j with _ | j <;> simp at hj⟩
  · intro j r hj
    rcases j with _ | _ | j <;> simp at hj <;> subst hj <;> assumption

end Verif.Alloc
