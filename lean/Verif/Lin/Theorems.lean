import Verif.Lin.Sim

/-! # Theorems about the linearization of operation graphs (property C90) -/

namespace Verif.Lin

open Verif.Machine (Ctl runL End)

variable {V : Type}

theorem run_returned (truth : V → Bool) (P : Prog V) : ∀ (n pred b : ℕ) (ss : List (Stm V)) (env : ℕ → V) (tr trF : List (List V)) (e : E V) (v : Option V),
    run truth P n pred b ss env tr = some (.ret trF (some e) v) → (∀ s ∈ ss, ∃ p ∈ P, s ∈ p.2) → e ∈ returned P := by
  have blk : ∀ d ss', blockOf P d = some ss' → ∀ s ∈ ss', ∃ p ∈ P, s ∈ p.2 := by
    intro d ss' hb s hs
    obtain ⟨R1, R2, hR⟩ := blockOf_split P d ss' hb
    exact ⟨(d, ss'), by rw [hR]; simp, hs⟩
  intro n
  induction n with
  | zero => intro pred b ss env tr trF e v h; cases h
  | succ n ih =>
    intro pred b ss env tr trF e v h hss
    cases ss with
    | nil => cases h
    | cons s ss =>
      have hr : ∀ s' ∈ ss, ∃ p ∈ P, s' ∈ p.2 := fun s' hs' => hss s' (by simp [hs'])
      cases s with
      | assign x ex => exact ih _ _ _ _ _ _ _ _ h hr
      | store es => exact ih _ _ _ _ _ _ _ _ h hr
      | phi x src =>
        simp only [run] at h
        cases hf : src.find? (fun p => p.2 == pred) with
        | none => rw [hf] at h; cases h
        | some p => rw [hf] at h; exact ih _ _ _ _ _ _ _ _ h hr
      | br d =>
        simp only [run] at h
        cases hb : blockOf P d with
        | none => rw [hb] at h; cases h
        | some ss' => rw [hb] at h; exact ih _ _ _ _ _ _ _ _ h (blk d ss' hb)
      | cbr c y z =>
        simp only [run] at h
        cases hb : blockOf P (if truth (c.eval env) then y else z) with
        | none => rw [hb] at h; cases h
        | some ss' => rw [hb] at h; exact ih _ _ _ _ _ _ _ _ h (blk _ ss' hb)
      | ret re =>
        simp only [run] at h
        cases h
        obtain ⟨p, hp, hs⟩ := hss _ (List.mem_cons_self ..)
        unfold returned
        rw [List.mem_flatMap]
        refine ⟨p, hp, ?_⟩
        rw [List.mem_filterMap]
        exact ⟨_, hs, rfl⟩

theorem mapM_ok {α β : Type} (f : α → Except Err β) : ∀ (l : List α) (r : List β), l.mapM f = .ok r → (∀ a ∈ l, ∃ b ∈ r, f a = .ok b) ∧ ∀ b ∈ r, ∃ a ∈ l, f a = .ok b := by
  intro l
  induction l with
  | nil => intro r h; simp only [List.mapM_nil] at h; cases h; simp
  | cons a l ih =>
    intro r h
    rw [List.mapM_cons] at h
    simp only [bind, Except.bind] at h
    cases h1 : f a with
    | error e => rw [h1] at h; cases h
    | ok b =>
      rw [h1] at h
      simp only at h
      cases h2 : l.mapM f with
      | error e => rw [h2] at h; cases h
      | ok r' =>
        rw [h2] at h
        cases h
        obtain ⟨i1, i2⟩ := ih r' h2
        constructor
        · intro c hc
          rcases List.mem_cons.mp hc with rfl | hc
          · exact ⟨b, by simp, h1⟩
          · obtain ⟨d, hd, hf⟩ := i1 c hc
            exact ⟨d, by simp [hd], hf⟩
        · intro d hd
          rcases List.mem_cons.mp hd with rfl | hd
          · exact ⟨a, by simp, h1⟩
          · obtain ⟨c, hc, hf⟩ := i2 d hd
            exact ⟨c, by simp [hc], hf⟩

theorem linF_ok (args : List ℕ) (P : Prog V) (ins outs : List Reg) (Q : List (ℕ × List (Ins V))) (h : linF args P = .ok (ins, outs, Q)) :
    ∃ Sf o, linP P St.init = .ok (Sf, Q) ∧ args.mapM (fun x => regOf (V := V) Sf (.var x)) = .ok ins ∧ (returned P).mapM (regOf Sf) = .ok o ∧ outs = o.dedup := by
  simp only [linF, bind, Except.bind] at h
  cases h1 : linP P St.init with
  | error e => rw [h1] at h; cases h
  | ok r =>
    rw [h1] at h
    simp only at h
    cases h2 : args.mapM (fun x => regOf (V := V) r.1 (.var x)) with
    | error e => rw [h2] at h; cases h
    | ok i =>
      rw [h2] at h
      simp only at h
      cases h3 : (returned P).mapM (regOf r.1) with
      | error e => rw [h3] at h; cases h
      | ok o =>
        rw [h3] at h
        cases h
        exact ⟨r.1, o, rfl, h2, h3, rfl⟩

/-- C90.  The linearized function does what the basic blocks do: for every program whose operation nodes are each used in one block, with no assignment to their variables
between two uses, whenever the linearization succeeds and a run of the blocks returns, the machine code started with the same variables returns after the same stores; the value
is in one of the output registers, the only one when a single expression is returned.  Partial: nodes shared between blocks or used again after an assignment are not covered
(the code is wrong there, see below), nor are programs that are refused. -/
theorem C90_linearize_partial (truth : V → Bool) (args : List ℕ) (b : ℕ) (ss : List (Stm V)) (P' P : Prog V) (hP : P = (b, ss) :: P') (hnd : (P.map Prod.fst).Nodup)
    (hC : Consistent P) (hL : Local P) (hS : Stable P) (ins outs : List Reg) (Q : List (ℕ × List (Ins V))) (h : linF args P = .ok (ins, outs, Q))
    (env : ℕ → V) (σ : Reg → V) (hσ : ∀ x, σ (.v x) = env x) (n pred : ℕ) (stores : List (List V)) (e : Option (E V)) (v : Option V)
    (hrun : run truth P n pred b ss env [] = some (.ret stores e v)) :
    ∃ m σ', runL (codeOf truth Q) (Q.map Prod.fst) m 0 0 (σ, []) = some (.ret (σ', stores) ()) ∧
      ∀ e', e = some e' → ∃ r ∈ outs, v = some (σ' r) ∧ ((∀ e'' ∈ returned P, e'' = e') → outs = [r]) := by
  obtain ⟨Sf, o, h1, h2, h3, h4⟩ := linF_ok args P ins outs Q h
  have h0 : St.init.Ok := by intro i k h; cases h
  rw [(linP_grow P _ _ _ h1 h0).2]
  obtain ⟨m, σ', hm, hres⟩ := sim truth P Q Sf h1 hnd hC hL hS n pred b ss env [] stores e v hrun σ [] 0 (by rw [hP]; rfl)
    (at_entry truth P Q Sf h1 hnd hC hL b ss [] P' hP σ env hσ)
  refine ⟨m, σ', hm, ?_⟩
  intro e' he
  subst he
  have hmem : e' ∈ returned P := run_returned truth P n pred b ss env [] stores e' v hrun (fun s hs => ⟨(b, ss), by rw [hP]; simp, hs⟩)
  obtain ⟨op, hop, hv⟩ := hres e' rfl
  obtain ⟨r, hr, hreg⟩ := (mapM_ok _ _ _ h3).1 e' hmem
  have hopr : op = .reg r := by
    cases e' with
    | var x =>
      obtain ⟨hx, hop⟩ := hop
      simp only [regOf, if_pos hx] at hreg
      cases hreg; exact hop
    | cst c => cases hreg
    | op i f as =>
      obtain ⟨k, hk, hop⟩ := hop
      simp only [regOf, hk] at hreg
      cases hreg; exact hop
  refine ⟨r, by rw [h4]; exact List.mem_dedup.mpr hr, by rw [hv, hopr]; rfl, ?_⟩
  intro hall
  rw [h4]
  have hnd' := List.nodup_dedup o
  have hone : ∀ q ∈ o.dedup, q = r := by
    intro q hq
    obtain ⟨e2, he2, hq2⟩ := (mapM_ok _ _ _ h3).2 q (List.mem_dedup.mp hq)
    rw [hall e2 he2, hreg] at hq2
    cases hq2; rfl
  have hr' : r ∈ o.dedup := List.mem_dedup.mpr hr
  generalize o.dedup = l at *
  cases l with
  | nil => cases hr'
  | cons a l =>
    have ha := hone a (by simp)
    subst ha
    cases l with
    | nil => rfl
    | cons c l =>
      have := hone c (by simp)
      subst this
      simp at hnd'

/-- The arguments are in the input registers, in order. -/
theorem C90_inputs (args : List ℕ) (P : Prog V) (ins outs : List Reg) (Q : List (ℕ × List (Ins V))) (h : linF args P = .ok (ins, outs, Q)) : ins = args.map Reg.v := by
  obtain ⟨Sf, o, _, h2, _, _⟩ := linF_ok args P ins outs Q h
  clear h
  induction args generalizing ins with
  | nil => simp only [List.mapM_nil] at h2; cases h2; rfl
  | cons x l ih =>
    rw [List.mapM_cons] at h2
    simp only [bind, Except.bind] at h2
    by_cases hx : Sf.seen x = true
    · simp only [regOf, if_pos hx] at h2
      cases h3 : l.mapM (fun x => regOf (V := V) Sf (.var x)) with
      | error e => simp only [regOf] at h3; rw [h3] at h2; cases h2
      | ok r =>
        have := ih r h3
        simp only [regOf] at h3
        rw [h3] at h2
        cases h2
        rw [this]; rfl
    · simp only [regOf, if_neg hx] at h2
      cases h2

/-! ## A program that meets the hypotheses: a loop -/

/-- `x0 + 1` -/
def inc : E ℤ := .op 0 (fun l => l.headD 0 + 1) [.var 0]
/-- `x0 < x1` -/
def below : E ℤ := .op 1 (fun l => if l.headD 0 < l.getD 1 0 then 1 else 0) [.var 0, .var 1]
/-- counts `x0` up to `x1`, storing the values it takes, and returns `x0` -/
def loopP : Prog ℤ := [(0, [.br 1]), (1, [.cbr below 2 3]), (2, [.store [inc, inc], .assign 0 inc, .br 1]), (3, [.ret (some (.var 0))])]
def nz : ℤ → Bool := fun v => decide (v ≠ 0)

example : (loopP.map Prod.fst).Nodup ∧ Consistent loopP ∧ Local loopP ∧ Stable loopP ∧
    (∃ Q, linF [0, 1] loopP = .ok ([.v 0, .v 1], [.v 0], Q)) ∧
    run nz loopP 20 0 0 [.br 1] (fun x => if x = 1 then 2 else 0) [] = some (.ret [[1, 1], [2, 2]] (some (.var 0)) (some 2)) := by
  have o0 : opsOf [Stm.br (V := ℤ) 1] = [] := rfl
  have o1 : opsOf [Stm.cbr below 2 3] = [below] := rfl
  have o2 : opsOf [.store [inc, inc], .assign 0 inc, .br 1] = [inc, inc, inc] := rfl
  have o3 : opsOf [Stm.ret (V := ℤ) (some (.var 0))] = [] := rfl
  have hbi : below.idOf ≠ inc.idOf := by decide
  have hne : below ≠ inc := fun h => hbi (by rw [h])
  refine ⟨by decide, ?_, ?_, ?_, ⟨_, rfl⟩, by rfl⟩
  · intro p hp q hq a ha c hc h
    simp only [loopP, List.mem_cons, List.not_mem_nil, or_false] at hp hq
    rcases hp with rfl | rfl | rfl | rfl <;> rcases hq with rfl | rfl | rfl | rfl <;>
      simp only [o0, o1, o2, o3, List.mem_cons, List.not_mem_nil, or_false, or_self] at ha hc
    · rw [ha, hc]
    · subst ha; subst hc; exact absurd h hbi
    · subst ha; subst hc; exact absurd h.symm hbi
    · rw [ha, hc]
  · intro p hp q hq hpq a ha hc
    simp only [loopP, List.mem_cons, List.not_mem_nil, or_false] at hp hq
    rcases hp with rfl | rfl | rfl | rfl <;> rcases hq with rfl | rfl | rfl | rfl <;>
      simp only [o0, o1, o2, o3, List.mem_cons, List.not_mem_nil, or_false, or_self] at ha hc <;> simp only [ne_eq, not_true_eq_false] at hpq
    · exact hne (ha.symm.trans hc)
    · exact hne (hc.symm.trans ha)
  · intro p hp done x e rest h a ha hr
    simp only [loopP, List.mem_cons, List.not_mem_nil, or_false] at hp
    rcases hp with rfl | rfl | rfl | rfl
    all_goals
      rcases done with _ | ⟨d1, _ | ⟨d2, _ | ⟨d3, _ | ⟨d4, d5⟩⟩⟩⟩ <;> simp at h
    · obtain ⟨_, ⟨rfl, rfl⟩, rfl⟩ := h
      exact absurd hr (by simp [opsOf, Stm.ops])

/-! ## Where the machine code is wrong -/

theorem runL_goto {S W : Type} (h : ℕ → List (Ctl S W)) (L : List ℕ) (n k i : ℕ) (s : S) (b : ℕ) (hb : L[k]? = some b) (d : ℕ)
    (hi : (h b)[i]? = some (.goto d)) (hd : d ∈ L) (k' : ℕ) (hk : L.idxOf d = k') : runL h L (n + 1) k i s = runL h L n k' 0 s := by
  simp only [runL, hb, hi, if_pos hd, hk]

theorem runL_cond {S W : Type} (h : ℕ → List (Ctl S W)) (L : List ℕ) (n k i : ℕ) (s : S) (b : ℕ) (hb : L[k]? = some b) (c : S → Bool) (d : ℕ)
    (hi : (h b)[i]? = some (.cond c d)) (hd : d ∈ L) (k' : ℕ) (hk : L.idxOf d = k') :
    runL h L (n + 1) k i s = if c s then runL h L n k' 0 s else runL h L n k (i + 1) s := by
  simp only [runL, hb, hi, if_pos hd, hk]

theorem runL_ret {S W : Type} (h : ℕ → List (Ctl S W)) (L : List ℕ) (n k i : ℕ) (s : S) (b : ℕ) (hb : L[k]? = some b) (e : S → W)
    (hi : (h b)[i]? = some (.ret e)) : runL h L (n + 1) k i s = some (.ret s (e s)) := by
  simp only [runL, hb, hi]

/-- both branches give `x2` the same node -/
def sharedP : Prog ℤ := [(0, [.cbr (.var 1) 1 2]), (1, [.assign 2 inc, .br 3]), (2, [.assign 2 inc, .br 3]), (3, [.ret (some (.var 2))])]

/-- its machine code -/
def sharedQ : List (ℕ × List (Ins ℤ)) :=
  [(0, [.cbr (.reg (.v 1)) 1, .br 2]), (1, [.op (.t 0) (fun l => l.headD 0 + 1) [.reg (.v 0)], .copy (.v 2) (.t 0), .br 3]), (2, [.copy (.v 2) (.t 0), .br 3]), (3, [.ret])]

/-- A node used in two blocks is computed only in the first one: when the second branch is taken the function returns what its register happened to hold. -/
theorem C90_shared_blocks_wrong : linF [0, 1] sharedP = .ok ([.v 0, .v 1], [.v 2], sharedQ) ∧ ∀ (env : ℕ → ℤ) (σ : Reg → ℤ), env 1 = 0 → (∀ x, σ (.v x) = env x) →
    run nz sharedP 10 0 0 [.cbr (.var 1) 1 2] env [] = some (.ret [] (some (.var 2)) (some (env 0 + 1))) ∧
    ∃ σ', runL (codeOf nz sharedQ) (sharedQ.map Prod.fst) 10 0 0 (σ, []) = some (.ret (σ', []) ()) ∧ σ' (.v 2) = σ (.t 0) := by
  refine ⟨rfl, ?_⟩
  intro env σ h1 hσ
  constructor
  · simp only [run, sharedP, E.eval, h1, nz]
    rfl
  · have hs := hσ 1
    refine ⟨Function.update σ (.v 2) (σ (.t 0)), ?_, by simp⟩
    rw [runL_cond _ _ 9 0 0 _ 0 rfl _ 1 rfl (by decide) 1 rfl, if_neg (by simp [Opnd.val, nz, hs, h1])]
    rw [runL_goto _ _ 8 0 1 _ 0 rfl 2 rfl (by decide) 2 rfl]
    rw [runL_step _ _ 7 2 0 _ 2 rfl _ rfl]
    rw [runL_goto _ _ 6 2 1 _ 2 rfl 3 rfl (by decide) 3 rfl]
    rw [runL_ret _ _ 5 3 0 _ 3 rfl _ rfl]

/-- `x1 = x0 + 1; x0 = 5; x2 = x0 + 1; return x2` -/
def staleP : Prog ℤ := [(0, [.assign 1 inc, .assign 0 (.cst 5), .assign 2 inc, .ret (some (.var 2))])]

/-- its machine code -/
def staleQ : List (ℕ × List (Ins ℤ)) :=
  [(0, [.op (.t 0) (fun l => l.headD 0 + 1) [.reg (.v 0)], .copy (.v 1) (.t 0), .mat (.v 0) 5, .copy (.v 2) (.t 0), .ret])]

/-- A node used again after an assignment to its variable keeps its old value. -/
theorem C90_stale_wrong : linF [0] staleP = .ok ([.v 0], [.v 2], staleQ) ∧ ∀ (env : ℕ → ℤ) (σ : Reg → ℤ), (∀ x, σ (.v x) = env x) →
    run nz staleP 10 0 0 [.assign 1 inc, .assign 0 (.cst 5), .assign 2 inc, .ret (some (.var 2))] env [] = some (.ret [] (some (.var 2)) (some 6)) ∧
    ∃ σ', runL (codeOf nz staleQ) (staleQ.map Prod.fst) 10 0 0 (σ, []) = some (.ret (σ', []) ()) ∧ σ' (.v 2) = env 0 + 1 := by
  refine ⟨rfl, ?_⟩
  intro env σ hσ
  constructor
  · simp [run, E.eval, inc, E.evalL]
  · have hs := hσ 0
    refine ⟨Function.update (Function.update (Function.update (Function.update σ (.t 0) (env 0 + 1)) (.v 1) (env 0 + 1)) (.v 0) 5) (.v 2) (env 0 + 1), ?_, ?_⟩
    · rw [runL_step _ _ 9 0 0 _ 0 rfl _ rfl, runL_step _ _ 8 0 1 _ 0 rfl _ rfl, runL_step _ _ 7 0 2 _ 0 rfl _ rfl, runL_step _ _ 6 0 3 _ 0 rfl _ rfl,
        runL_ret _ _ 5 0 4 _ 0 rfl _ rfl]
      simp [Opnd.val, hs]
    · simp [Opnd.val, hs]

/-- `if (x1) return x2; else return x0 + 1` -/
def twoP : Prog ℤ := [(0, [.cbr (.var 1) 1 2]), (1, [.ret (some (.var 2))]), (2, [.ret (some inc)])]

/-- its machine code -/
def twoQ : List (ℕ × List (Ins ℤ)) :=
  [(0, [.cbr (.reg (.v 1)) 1, .br 2]), (1, [.ret]), (2, [.op (.t 0) (fun l => l.headD 0 + 1) [.reg (.v 0)], .ret])]

/-- With two returned expressions the function has two output registers, each right on one path only. -/
theorem C90_two_returns_wrong : linF [0, 1, 2] twoP = .ok ([.v 0, .v 1, .v 2], [.v 2, .t 0], twoQ) ∧ ∀ (env : ℕ → ℤ) (σ : Reg → ℤ), (∀ x, σ (.v x) = env x) →
    (env 1 = 0 → run nz twoP 10 0 0 [.cbr (.var 1) 1 2] env [] = some (.ret [] (some inc) (some (env 0 + 1))) ∧
      ∃ σ', runL (codeOf nz twoQ) (twoQ.map Prod.fst) 10 0 0 (σ, []) = some (.ret (σ', []) ()) ∧ σ' (.v 2) = env 2) ∧
    (env 1 = 1 → run nz twoP 10 0 0 [.cbr (.var 1) 1 2] env [] = some (.ret [] (some (.var 2)) (some (env 2))) ∧
      ∃ σ', runL (codeOf nz twoQ) (twoQ.map Prod.fst) 10 0 0 (σ, []) = some (.ret (σ', []) ()) ∧ σ' (.t 0) = σ (.t 0)) := by
  refine ⟨rfl, ?_⟩
  intro env σ hσ
  have h1 := hσ 1
  have h2 := hσ 2
  refine ⟨fun h => ⟨?_, ?_⟩, fun h => ⟨?_, ?_⟩⟩
  · simp only [run, twoP, E.eval, h, nz]
    rfl
  · refine ⟨Function.update σ (.t 0) (env 0 + 1), ?_, ?_⟩
    · rw [runL_cond _ _ 9 0 0 _ 0 rfl _ 1 rfl (by decide) 1 rfl, if_neg (by simp [Opnd.val, nz, h1, h]), runL_goto _ _ 8 0 1 _ 0 rfl 2 rfl (by decide) 2 rfl,
        runL_step _ _ 7 2 0 _ 2 rfl _ rfl, runL_ret _ _ 6 2 1 _ 2 rfl _ rfl]
      simp [Opnd.val, hσ 0]
    · simp [h2]
  · simp only [run, twoP, E.eval, h, nz]
    rfl
  · refine ⟨σ, ?_, rfl⟩
    rw [runL_cond _ _ 9 0 0 _ 0 rfl _ 1 rfl (by decide) 1 rfl, if_pos (by simp [Opnd.val, nz, h1, h]), runL_ret _ _ 8 1 0 _ 1 rfl _ rfl]

/-- A program with a phi node is never linearized. -/
theorem C90_phi_wrong (args : List ℕ) (P : Prog V) (p : ℕ × List (Stm V)) (hp : p ∈ P) (x : ℕ) (src : List (ℕ × ℕ)) (h : Stm.phi x src ∈ p.2) :
    linF args P = .error .nameError := by
  have hb : ∀ (ss : List (Stm V)) (S : St), Stm.phi x src ∈ ss → linB ss S = .error .nameError := by
    intro ss
    induction ss with
    | nil => intro S h; cases h
    | cons s ss ih =>
      intro S h
      have hS : linS s S = .error .nameError ∨ ∃ r, linS s S = .ok r := by
        cases s with
        | phi => exact Or.inl rfl
        | ret e => cases e <;> exact Or.inr ⟨_, rfl⟩
        | _ => exact Or.inr ⟨_, rfl⟩
      rcases List.mem_cons.mp h with rfl | h
      · rfl
      · rcases hS with hS | ⟨r, hS⟩
        · simp only [linB, bind, Except.bind, hS]
        · simp only [linB, bind, Except.bind, hS, ih r.1 h]
  have hbe : ∀ (ss : List (Stm V)) (S : St), linB ss S = .error .nameError ∨ ∃ r, linB ss S = .ok r := by
    intro ss
    induction ss with
    | nil => intro S; exact Or.inr ⟨_, rfl⟩
    | cons s ss ih =>
      intro S
      cases hs : linS s S with
      | error e => cases s with
        | phi => cases hs; exact Or.inl rfl
        | ret e => cases e <;> cases hs
        | _ => cases hs
      | ok r =>
        rcases ih r.1 with h | ⟨q, h⟩
        · exact Or.inl (by simp only [linB, bind, Except.bind, hs, h])
        · exact Or.inr ⟨(q.1, r.2 ++ q.2), by simp only [linB, bind, Except.bind, hs, h]; rfl⟩
  have hP : ∀ (P : Prog V) (S : St), p ∈ P → linP P S = .error .nameError := by
    intro P
    induction P with
    | nil => intro S h; cases h
    | cons q P ih =>
      intro S hq
      rcases List.mem_cons.mp hq with rfl | hq
      · simp only [linP, bind, Except.bind, hb _ S h]
      · rcases hbe q.2 S with h' | ⟨r, h'⟩
        · simp only [linP, bind, Except.bind, h']
        · simp only [linP, bind, Except.bind, h', ih r.1 hq]
  simp only [linF, bind, Except.bind, hP P _ hp]

example : linF [0] [(0, [.phi 2 [(0, 1)], .ret (some (.var (V := ℤ) 2))])] = .error .nameError :=
  C90_phi_wrong _ _ (0, _) (by simp; rfl) 2 [(0, 1)] (by simp)

/-- A function that returns a constant is never linearized. -/
theorem C90_constant_return_wrong (args : List ℕ) (P : Prog V) (c : V) (h : E.cst c ∈ returned P) (r) : linF args P ≠ .ok r := by
  intro hr
  obtain ⟨Sf, o, _, _, h3, _⟩ := linF_ok args P r.1 r.2.1 r.2.2 hr
  obtain ⟨b, _, hb⟩ := (mapM_ok _ _ _ h3).1 _ h
  cases hb

example : E.cst 1 ∈ returned [(0, [.ret (some (.cst (1 : ℤ)))])] := by simp [returned]

/-- the variables a statement reads -/
def Stm.reads {V : Type} : Stm V → List ℕ
  | .assign _ e => e.vars
  | .phi _ src => src.map Prod.fst
  | .store es => E.varsL es
  | .br _ => []
  | .cbr c _ _ => c.vars
  | .ret (some e) => e.vars
  | .ret none => []

theorem lin_seen (x : ℕ) : (∀ e : E V, ∀ S : St, S.seen x = false → x ∉ e.vars → (lin e S).1.seen x = false) ∧
    ∀ es : List (E V), ∀ S : St, S.seen x = false → x ∉ E.varsL es → (linL es S).1.seen x = false := by
  refine E.ind ?_ ?_ ?_ ?_ ?_
  · intro y S h hx
    simp only [E.vars, List.mem_singleton] at hx
    simp only [lin, Function.update_of_ne hx, h]
  · intro c S h _; exact h
  · intro i f args ih S h hx
    cases hm : S.memo i with
    | some k => simp only [lin, hm, h]
    | none => simp only [lin, hm]; exact ih S h hx
  · intro S h _; exact h
  · intro e es h1 h2 S h hx
    simp only [E.varsL, List.mem_append, not_or] at hx
    simp only [linL]
    exact h2 _ (h1 S h hx.1) hx.2

/-- A function one of whose arguments is never read is never linearized. -/
theorem C90_unused_argument_wrong (args : List ℕ) (P : Prog V) (x : ℕ) (hx : x ∈ args) (h : ∀ p ∈ P, ∀ s ∈ p.2, x ∉ s.reads) (r) : linF args P ≠ .ok r := by
  intro hr
  obtain ⟨Sf, o, h1, h2, _, _⟩ := linF_ok args P r.1 r.2.1 r.2.2 hr
  have hs : ∀ (s : Stm V) (S S' : St) (c), linS s S = .ok (S', c) → S.seen x = false → x ∉ s.reads → S'.seen x = false := by
    intro s S S' c hs h0 hx
    cases s with
    | assign y e => cases hs; exact (lin_seen x).1 e S h0 hx
    | phi y src => cases hs
    | store es => cases hs; exact (lin_seen x).2 es S h0 hx
    | br b => cases hs; exact h0
    | cbr e y z => cases hs; exact (lin_seen x).1 e S h0 hx
    | ret e => cases e with
      | none => cases hs; exact h0
      | some e => cases hs; exact (lin_seen x).1 e S h0 hx
  have hb : ∀ (ss : List (Stm V)) (S S' : St) (c), linB ss S = .ok (S', c) → S.seen x = false → (∀ s ∈ ss, x ∉ s.reads) → S'.seen x = false := by
    intro ss
    induction ss with
    | nil => intro S S' c h h0 _; cases h; exact h0
    | cons s ss ih =>
      intro S S' c h h0 hx
      obtain ⟨S1, c1, c2, g1, g2, _⟩ := linB_cons s ss S S' c h
      exact ih S1 S' c2 g2 (hs s S S1 c1 g1 h0 (hx s (by simp))) (fun s hs => hx s (by simp [hs]))
  have hp : ∀ (P : Prog V) (S S' : St) (c), linP P S = .ok (S', c) → S.seen x = false → (∀ p ∈ P, ∀ s ∈ p.2, x ∉ s.reads) → S'.seen x = false := by
    intro P
    induction P with
    | nil => intro S S' c h h0 _; cases h; exact h0
    | cons p P ih =>
      intro S S' Q h h0 hx
      obtain ⟨S1, c, Q', g1, g2, _⟩ := linP_cons p P S S' Q h
      exact ih S1 S' Q' g2 (hb p.2 S S1 c g1 h0 (hx p (by simp))) (fun p hp => hx p (by simp [hp]))
  have hf := hp P _ _ _ h1 rfl h
  obtain ⟨b, _, hb⟩ := (mapM_ok _ _ _ h2).1 x hx
  simp only [regOf, hf] at hb
  cases hb

example : ∀ p ∈ loopP, ∀ s ∈ p.2, 7 ∉ s.reads := by decide

end Verif.Lin
