import Verif.Lin.Lemmas

/-! # Lemmas: the blocks are simulated -/

namespace Verif.Lin

open Verif.Machine (Ctl runL End)

variable {V : Type}

/-- from state `S` to state `S'` only nodes of `os` were given a register -/
structure Grow (S S' : St) (os : List (E V)) : Prop where
  ok : S'.Ok
  keep : ∀ i k, S.memo i = some k → S'.memo i = some k
  new : ∀ i k, S'.memo i = some k → S.memo i = some k ∨ ∃ a ∈ os, a.idOf = some i
  seen : ∀ x, S.seen x = true → S'.seen x = true
  next : S.next ≤ S'.next

theorem Grow.refl {S : St} (h : S.Ok) (os : List (E V)) : Grow S S os :=
  ⟨h, fun _ _ h => h, fun _ _ h => Or.inl h, fun _ h => h, le_refl _⟩

theorem Grow.trans {S S1 S2 : St} {o1 o2 : List (E V)} (h : Grow S S1 o1) (h' : Grow S1 S2 o2) : Grow S S2 (o1 ++ o2) := by
  refine ⟨h'.ok, fun i k hk => h'.keep i k (h.keep i k hk), ?_, fun x hx => h'.seen x (h.seen x hx), le_trans h.next h'.next⟩
  intro i k hk
  rcases h'.new i k hk with h1 | ⟨a, ha, hi⟩
  · rcases h.new i k h1 with h2 | ⟨a, ha, hi⟩
    · exact Or.inl h2
    · exact Or.inr ⟨a, by simp [ha], hi⟩
  · exact Or.inr ⟨a, by simp [ha], hi⟩

theorem lin_grow : (∀ e : E V, ∀ S : St, S.Ok → Grow S (lin e S).1 e.ops) ∧ ∀ es : List (E V), ∀ S : St, S.Ok → Grow S (linL es S).1 (E.opsL es) := by
  refine E.ind ?_ ?_ ?_ ?_ ?_
  · intro x S hO
    refine ⟨hO, fun _ _ h => h, fun _ _ h => Or.inl h, ?_, le_refl _⟩
    intro y hy
    simp only [lin, Function.update_apply]
    split_ifs
    · rfl
    · exact hy
  · intro c S hO
    exact Grow.refl hO _
  · intro i f args ih S hO
    cases hm : S.memo i with
    | some k =>
      have hl : lin (.op i f args) S = (S, .reg (.t k), []) := by simp only [lin, hm]
      rw [hl]
      exact Grow.refl hO _
    | none =>
      have h1 := ih S hO
      have hl : (lin (.op i f args) S).1 = { (linL args S).1 with next := (linL args S).1.next + 1, memo := Function.update (linL args S).1.memo i (some (linL args S).1.next) } := by
        simp only [lin, hm]
      rw [hl]
      refine ⟨?_, ?_, ?_, h1.seen, ?_⟩
      · intro j k hj
        simp only [Function.update_apply] at hj
        show k < (linL args S).1.next + 1
        split_ifs at hj with hji
        · cases hj; omega
        · have := h1.ok j k hj
          omega
      · intro j k hj
        simp only [Function.update_apply]
        rw [if_neg (by rintro rfl; rw [hm] at hj; cases hj)]
        exact h1.keep j k hj
      · intro j k hj
        simp only [Function.update_apply] at hj
        split_ifs at hj with hji
        · exact Or.inr ⟨.op i f args, by simp [E.ops], by simp [E.idOf, hji]⟩
        · rcases h1.new j k hj with h5 | ⟨a, ha, hi⟩
          · exact Or.inl h5
          · exact Or.inr ⟨a, by simp [E.ops, ha], hi⟩
      · have := h1.next
        show S.next ≤ (linL args S).1.next + 1
        omega
  · intro S hO
    exact Grow.refl hO _
  · intro e es h1 h2 S hO
    simp only [linL, E.opsL]
    exact (h1 S hO).trans (h2 _ (h1 S hO).ok)

theorem linS_grow (s : Stm V) (S S' : St) (c : List (Ins V)) (h : linS s S = .ok (S', c)) (hO : S.Ok) : Grow S S' s.ops := by
  cases s with
  | assign x e => cases h; exact lin_grow.1 e S hO
  | phi x src => cases h
  | store es => cases h; exact lin_grow.2 es S hO
  | br b => cases h; exact Grow.refl hO _
  | cbr e y z => cases h; exact lin_grow.1 e S hO
  | ret e => cases e with
    | none => cases h; exact Grow.refl hO _
    | some e => cases h; exact lin_grow.1 e S hO

theorem linB_cons (s : Stm V) (ss : List (Stm V)) (S S' : St) (c : List (Ins V)) (h : linB (s :: ss) S = .ok (S', c)) :
    ∃ S1 c1 c2, linS s S = .ok (S1, c1) ∧ linB ss S1 = .ok (S', c2) ∧ c = c1 ++ c2 := by
  simp only [linB, bind, Except.bind] at h
  cases h1 : linS s S with
  | error e => rw [h1] at h; cases h
  | ok r =>
    rw [h1] at h
    simp only at h
    cases h2 : linB ss r.1 with
    | error e => rw [h2] at h; cases h
    | ok q =>
      rw [h2] at h
      cases h
      exact ⟨r.1, r.2, q.2, rfl, h2, rfl⟩

theorem linP_cons (p : ℕ × List (Stm V)) (ps : Prog V) (S S' : St) (Q : List (ℕ × List (Ins V))) (h : linP (p :: ps) S = .ok (S', Q)) :
    ∃ S1 c Q', linB p.2 S = .ok (S1, c) ∧ linP ps S1 = .ok (S', Q') ∧ Q = (p.1, c) :: Q' := by
  simp only [linP, bind, Except.bind] at h
  cases h1 : linB p.2 S with
  | error e => rw [h1] at h; cases h
  | ok r =>
    rw [h1] at h
    simp only at h
    cases h2 : linP ps r.1 with
    | error e => rw [h2] at h; cases h
    | ok q =>
      rw [h2] at h
      cases h
      exact ⟨r.1, r.2, q.2, rfl, h2, rfl⟩

theorem linB_grow (ss : List (Stm V)) : ∀ (S S' : St) (c : List (Ins V)), linB ss S = .ok (S', c) → S.Ok → Grow S S' (opsOf ss) := by
  induction ss with
  | nil => intro S S' c h hO; cases h; exact Grow.refl hO _
  | cons s ss ih =>
    intro S S' c h hO
    obtain ⟨S1, c1, c2, h1, h2, _⟩ := linB_cons s ss S S' c h
    have g := linS_grow s S S1 c1 h1 hO
    have := g.trans (ih S1 S' c2 h2 g.ok)
    simpa [opsOf] using this

theorem linP_grow (P : Prog V) : ∀ (S S' : St) (Q : List (ℕ × List (Ins V))), linP P S = .ok (S', Q) → S.Ok →
    Grow S S' (P.flatMap fun p => opsOf p.2) ∧ Q.map Prod.fst = P.map Prod.fst := by
  induction P with
  | nil => intro S S' Q h hO; cases h; exact ⟨Grow.refl hO _, rfl⟩
  | cons p P ih =>
    intro S S' Q h hO
    obtain ⟨S1, c, Q', h1, h2, hQ⟩ := linP_cons p P S S' Q h
    have g := linB_grow p.2 S S1 c h1 hO
    obtain ⟨g', hl⟩ := ih S1 S' Q' h2 g.ok
    refine ⟨?_, by rw [hQ]; simp [hl]⟩
    have := g.trans g'
    simpa using this

theorem linP_split (P1 : Prog V) (d : ℕ) (ss : List (Stm V)) (P2 : Prog V) :
    ∀ (S Sf : St) (Q : List (ℕ × List (Ins V))), linP (P1 ++ (d, ss) :: P2) S = .ok (Sf, Q) →
      ∃ S1 S2 Q1 c Q2, linP P1 S = .ok (S1, Q1) ∧ linB ss S1 = .ok (S2, c) ∧ linP P2 S2 = .ok (Sf, Q2) ∧ Q = Q1 ++ (d, c) :: Q2 := by
  induction P1 with
  | nil =>
    intro S Sf Q h
    obtain ⟨S1, c, Q', h1, h2, hQ⟩ := linP_cons _ _ _ _ _ h
    exact ⟨S, S1, [], c, Q', rfl, h1, h2, hQ⟩
  | cons p P1 ih =>
    intro S Sf Q h
    obtain ⟨S1, c, Q', h1, h2, hQ⟩ := linP_cons _ _ _ _ _ h
    obtain ⟨T1, T2, Q1, c', Q2, g1, g2, g3, g4⟩ := ih S1 Sf Q' h2
    refine ⟨T1, T2, (p.1, c) :: Q1, c', Q2, ?_, g2, g3, by rw [hQ, g4]; rfl⟩
    simp only [linP, bind, Except.bind, h1, g1]
    rfl

/-- The generator and the machine are at the statements `ss` of block `b`. -/
structure At (truth : V → Bool) (P : Prog V) (Q : List (ℕ × List (Ins V))) (Sf : St) (b : ℕ) (ss : List (Stm V)) (σ : Reg → V) (env : ℕ → V)
    (pre : List (Ctl (Mach V) Unit)) : Prop where
  pos : ∃ P1 P2 done S S' code, P = P1 ++ (b, done ++ ss) :: P2 ∧ S.Ok ∧ linB ss S = .ok (S', code) ∧ codeOf truth Q b = pre ++ code.map (Ins.ctl truth) ∧
    (∀ i k, S.memo i = some k → ∃ a, a.idOf = some i ∧ ((∃ p ∈ P1, a ∈ opsOf p.2) ∨ a ∈ opsOf done)) ∧
    Inv S (fun a => a ∈ opsOf ss) σ env ∧ (∀ i k, S'.memo i = some k → Sf.memo i = some k) ∧ ∀ x, S'.seen x = true → Sf.seen x = true
  vars : ∀ x, σ (.v x) = env x

theorem at_entry (truth : V → Bool) (P : Prog V) (Q : List (ℕ × List (Ins V))) (Sf : St) (hlin : linP P St.init = .ok (Sf, Q)) (hnd : (P.map Prod.fst).Nodup)
    (hC : Consistent P) (hL : Local P) (d : ℕ) (ss : List (Stm V)) (P1 P2 : Prog V) (hP : P = P1 ++ (d, ss) :: P2) (σ : Reg → V) (env : ℕ → V)
    (hv : ∀ x, σ (.v x) = env x) : At truth P Q Sf d ss σ env [] := by
  subst hP
  have h0 : St.init.Ok := by intro i k h; cases h
  obtain ⟨S1, S2, Q1, c, Q2, h1, h2, h3, h4⟩ := linP_split P1 d ss P2 _ _ _ hlin
  obtain ⟨g1, l1⟩ := linP_grow P1 _ _ _ h1 h0
  have g2 := linB_grow ss _ _ _ h2 g1.ok
  obtain ⟨g3, l3⟩ := linP_grow P2 _ _ _ h3 g2.ok
  have hmem : ∀ i k, S1.memo i = some k → ∃ a, a.idOf = some i ∧ ∃ p ∈ P1, a ∈ opsOf p.2 := by
    intro i k hk
    rcases g1.new i k hk with h | ⟨a, ha, hi⟩
    · cases h
    · rw [List.mem_flatMap] at ha
      obtain ⟨p, hp, ha⟩ := ha
      exact ⟨a, hi, p, hp, ha⟩
  have hne : ∀ p ∈ P1, p.1 ≠ d := by
    intro p hp he
    rw [List.map_append, List.nodup_append] at hnd
    exact hnd.2.2 p.1 (List.mem_map_of_mem hp) d (by simp) he
  refine ⟨⟨P1, P2, [], S1, S2, c, rfl, g1.ok, h2, ?_, ?_, ?_, g3.keep, g3.seen⟩, hv⟩
  · have : Q.find? (fun x => x.1 == d) = some (d, c) := by
      rw [List.find?_eq_some_iff_append]
      refine ⟨by simp, Q1, Q2, h4, ?_⟩
      intro q hq
      have hq1 : q.1 ∈ P1.map Prod.fst := by rw [← l1]; exact List.mem_map_of_mem hq
      obtain ⟨p, hp, hpq⟩ := List.mem_map.mp hq1
      have := hne p hp
      rw [hpq] at this
      simpa using this
    unfold codeOf
    rw [this]
    rfl
  · intro i k hk
    obtain ⟨a, ha, h⟩ := hmem i k hk
    exact ⟨a, ha, Or.inl h⟩
  · intro i f args k hU hk
    exfalso
    obtain ⟨a, ha, p, hp, hap⟩ := hmem i k hk
    have he := hC p (by simp [hp]) (d, ss) (by simp) a hap _ hU (by rw [ha]; rfl)
    subst he
    exact hL p (by simp [hp]) (d, ss) (by simp) (hne p hp) _ hap hU

/-- Going to a block. -/
theorem blockOf_split (P : Prog V) (d : ℕ) (ss : List (Stm V)) (h : blockOf P d = some ss) : ∃ P1 P2, P = P1 ++ (d, ss) :: P2 := by
  unfold blockOf at h
  rw [Option.map_eq_some_iff] at h
  obtain ⟨⟨x, y⟩, hf, hy⟩ := h
  rw [List.find?_eq_some_iff_append] at hf
  obtain ⟨hx, P1, P2, hP, _⟩ := hf
  simp only [beq_iff_eq] at hx hy
  subst hx; subst hy
  exact ⟨P1, P2, hP⟩

theorem idx_get (L : List ℕ) (d : ℕ) (h : d ∈ L) : L[L.idxOf d]? = some d := by
  rw [List.getElem?_eq_some_iff]
  exact ⟨List.idxOf_lt_length_iff.mpr h, List.getElem_idxOf _⟩

theorem Inv.mono {S : St} {U W : E V → Prop} {σ : Reg → V} {env : ℕ → V} (h : Inv S U σ env) (hw : ∀ a, W a → U a) : Inv S W σ env :=
  fun i f args k hU hk => h i f args k (hw _ hU) hk

theorem Names.mono {S S' : St} {e : E V} {o : Opnd V} (h : Names S e o) (hm : ∀ i k, S.memo i = some k → S'.memo i = some k) (hs : ∀ x, S.seen x = true → S'.seen x = true) :
    Names S' e o := by
  cases e with
  | var x => exact ⟨hs x h.1, h.2⟩
  | cst v => exact h
  | op i f args =>
    obtain ⟨k, hk, ho⟩ := h
    exact ⟨k, hm i k hk, ho⟩

theorem sim (truth : V → Bool) (P : Prog V) (Q : List (ℕ × List (Ins V))) (Sf : St) (hlin : linP P St.init = .ok (Sf, Q)) (hnd : (P.map Prod.fst).Nodup)
    (hC : Consistent P) (hL : Local P) (hS : Stable P) :
    ∀ (n : ℕ) (pred b : ℕ) (ss : List (Stm V)) (env : ℕ → V) (tr : List (List V)) (trF : List (List V)) (e : Option (E V)) (v : Option V),
      run truth P n pred b ss env tr = some (.ret trF e v) → ∀ (σ : Reg → V) (pre : List (Ctl (Mach V) Unit)) (k : ℕ), (P.map Prod.fst)[k]? = some b →
      At truth P Q Sf b ss σ env pre →
      ∃ m σ', runL (codeOf truth Q) (P.map Prod.fst) m k pre.length (σ, tr) = some (.ret (σ', trF) ()) ∧
        ∀ e', e = some e' → ∃ o, Names Sf e' o ∧ v = some (o.val σ') := by
  intro n
  induction n with
  | zero => intro pred b ss env tr trF e v h; cases h
  | succ n ih =>
    intro pred b ss env tr trF e v h σ pre k hk hat
    obtain ⟨⟨P1, P2, done, S, S', code, hP, hO, hB, hcode, hmem, hI, hkeep, hseen⟩, hv⟩ := hat
    have hin : (b, done ++ ss) ∈ P := by rw [hP]; simp
    cases ss with
    | nil => cases h
    | cons s ss =>
      obtain ⟨S1, c1, c2, h1, h2, hc⟩ := linB_cons s ss S S' code hB
      have g1 := linS_grow s S S1 c1 h1 hO
      have g2 := linB_grow ss S1 S' c2 h2 g1.ok
      have hU : ∀ a b' : E V, a ∈ opsOf (s :: ss) → b' ∈ opsOf (s :: ss) → a.idOf = b'.idOf → a = b' := by
        intro a b' ha hb' he
        refine hC _ hin _ hin a ?_ b' ?_ he
        · simp only [opsOf, List.flatMap_append, List.mem_append] at ha ⊢; exact Or.inr ha
        · simp only [opsOf, List.flatMap_append, List.mem_append] at hb' ⊢; exact Or.inr hb'
      have hops : ∀ a ∈ s.ops, a ∈ opsOf (s :: ss) := by intro a ha; simp [opsOf, ha]
      have hmem' : ∀ i k, S1.memo i = some k → ∃ a, a.idOf = some i ∧ ((∃ p ∈ P1, a ∈ opsOf p.2) ∨ a ∈ opsOf (done ++ [s])) := by
        intro i k hk
        rcases g1.new i k hk with h | ⟨a, ha, hi⟩
        · obtain ⟨a, ha, hp⟩ := hmem i k h
          refine ⟨a, ha, ?_⟩
          rcases hp with hp | hp
          · exact Or.inl hp
          · refine Or.inr ?_
            simp only [opsOf, List.flatMap_append, List.mem_append] at hp ⊢
            exact Or.inl hp
        · refine ⟨a, hi, Or.inr ?_⟩
          simp [opsOf, ha]
      have hP' : P = P1 ++ (b, (done ++ [s]) ++ ss) :: P2 := by rw [hP]; simp
      have hsub : ∀ a, a ∈ opsOf ss → a ∈ opsOf (s :: ss) := by
        intro a ha
        simp only [opsOf, List.flatMap_cons, List.mem_append]; exact Or.inr ha
      -- going to another block
      have goto : ∀ (d : ℕ) (τ : Reg → V) (q : List (Ctl (Mach V) Unit)), (∀ x, τ (.v x) = env x) →
          (match blockOf P d with
            | some ss => run truth P n b d ss env tr
            | none => some (.missing d)) = some (.ret trF e v) →
          d ∈ P.map Prod.fst ∧ ∃ m σ', runL (codeOf truth Q) (P.map Prod.fst) m ((P.map Prod.fst).idxOf d) 0 (τ, tr) = some (.ret (σ', trF) ()) ∧
            ∀ e', e = some e' → ∃ o, Names Sf e' o ∧ v = some (o.val σ') := by
        intro d τ q hτ hr
        cases hb : blockOf P d with
        | none => rw [hb] at hr; cases hr
        | some ss' =>
          rw [hb] at hr
          obtain ⟨R1, R2, hR⟩ := blockOf_split P d ss' hb
          have hd : d ∈ P.map Prod.fst := by rw [hR]; simp
          refine ⟨hd, ?_⟩
          exact ih b d ss' env tr trF e v hr τ [] _ (idx_get _ d hd) (at_entry truth P Q Sf hlin hnd hC hL d ss' R1 R2 hR τ env hτ)
      cases s with
      | assign x ex =>
        simp only [linS, Except.ok.injEq, Prod.mk.injEq] at h1
        obtain ⟨rfl, rfl⟩ := h1
        simp only [run] at h
        obtain ⟨st, hval, hbel, _, _⟩ := (lin_sound (env := env) hU).1 ex S σ hops hO hI hv
        generalize hr : lin ex S = r at *
        have stv := st.vars
        have sti := st.inv
        generalize hσ1 : exI r.2.2 σ = σ1 at hval stv sti
        have hins : ∃ f, (assignIns x r.2.1).ctl truth = .act f ∧ f (σ1, tr) = (Function.update σ1 (.v x) (ex.eval env), tr) := by
          rw [← hval]
          cases r.2.1 with
          | cst c => exact ⟨_, rfl, rfl⟩
          | reg q => exact ⟨_, rfl, rfl⟩
        obtain ⟨f, hf, hf'⟩ := hins
        obtain ⟨m, σ', hm, hres⟩ := ih pred b ss _ tr trF e v h (Function.update σ1 (.v x) (ex.eval env)) (pre ++ (r.2.2 ++ [assignIns x r.2.1]).map (Ins.ctl truth)) k hk (by
          refine ⟨⟨P1, P2, done ++ [.assign x ex], r.1, S', c2, hP', g1.ok, h2, ?_, hmem', ?_, hkeep, hseen⟩, ?_⟩
          · rw [hcode, hc]; simp
          · intro i g args j hUj hj
            rw [Function.update_of_ne (by simp), sti i g args j (hsub _ hUj) hj]
            obtain ⟨a, ha, hp⟩ := hmem' i j hj
            have hUa : (E.op i g args) ∈ opsOf (done ++ .assign x ex :: ss) := by
              simp only [opsOf, List.flatMap_append, List.flatMap_cons, List.mem_append]; exact Or.inr (Or.inr hUj)
            rcases hp with ⟨p, hp, hap⟩ | hap
            · exfalso
              have hpP : p ∈ P := by rw [hP]; simp [hp]
              have he := hC p hpP _ hin a hap _ hUa (by rw [ha]; rfl)
              subst he
              refine hL p hpP _ hin ?_ _ hap hUa
              intro he
              rw [hP, List.map_append, List.nodup_append] at hnd
              exact hnd.2.2 p.1 (List.mem_map_of_mem hp) b (by simp) he
            · have he := hC _ hin _ hin a (by
                show a ∈ opsOf (done ++ .assign x ex :: ss)
                simp only [opsOf, List.flatMap_append, List.flatMap_cons, List.mem_append, List.flatMap_nil, List.append_nil] at hap ⊢
                rcases hap with h | h
                · exact Or.inl h
                · exact Or.inr (Or.inl h)) _ hUa (by rw [ha]; rfl)
              subst he
              have hx := hS _ hin done x ex ss rfl _ hap hUj
              refine (eval_congr _ _).1 _ ?_
              intro y hy
              rw [Function.update_of_ne]
              rintro rfl
              exact hx hy
          · intro y
            by_cases hy : y = x
            · subst hy; simp
            · rw [Function.update_of_ne (by simp [hy]), Function.update_of_ne hy, stv, hv])
        refine ⟨m + 1 + r.2.2.length, σ', ?_, hres⟩
        have hco : codeOf truth Q b = pre ++ r.2.2.map (Ins.ctl truth) ++ ((assignIns x r.2.1).ctl truth :: c2.map (Ins.ctl truth)) := by
          rw [hcode, hc]; simp
        rw [runL_ops truth _ _ k b hk r.2.2 pre _ σ tr (m + 1) st.ops hco, hσ1]
        rw [runL_step _ _ m k _ _ b hk f (by rw [hco, ← hf]; simp), hf']
        rw [← hm]
        congr 1
        simp
        omega
      | phi x src => cases h1
      | store es =>
        simp only [linS, Except.ok.injEq, Prod.mk.injEq] at h1
        obtain ⟨rfl, rfl⟩ := h1
        simp only [run] at h
        obtain ⟨st, hval, _, _⟩ := (lin_sound (env := env) hU).2 es S σ hops hO hI hv
        generalize hr : linL es S = r at *
        have stv := st.vars
        have sti := st.inv
        generalize hσ1 : exI r.2.2 σ = σ1 at hval stv sti
        obtain ⟨m, σ', hm, hres⟩ := ih pred b ss env (tr ++ [E.evalL env es]) trF e v h σ1 (pre ++ (r.2.2 ++ [Ins.store r.2.1]).map (Ins.ctl truth)) k hk
          ⟨⟨P1, P2, done ++ [.store es], r.1, S', c2, hP', g1.ok, h2, by rw [hcode, hc]; simp, hmem', sti.mono hsub, hkeep, hseen⟩, fun y => by rw [stv, hv]⟩
        refine ⟨m + 1 + r.2.2.length, σ', ?_, hres⟩
        have hco : codeOf truth Q b = pre ++ r.2.2.map (Ins.ctl truth) ++ ((Ins.store r.2.1).ctl truth :: c2.map (Ins.ctl truth)) := by
          rw [hcode, hc]; simp
        rw [runL_ops truth _ _ k b hk r.2.2 pre _ σ tr (m + 1) st.ops hco, hσ1]
        rw [runL_step _ _ m k _ _ b hk _ (by rw [hco]; simp; rfl)]
        rw [hval, ← hm]
        congr 1
        simp
        omega
      | br d =>
        simp only [linS, Except.ok.injEq, Prod.mk.injEq] at h1
        obtain ⟨rfl, rfl⟩ := h1
        simp only [run] at h
        obtain ⟨hd, m, σ', hm, hres⟩ := goto d σ [] hv h
        refine ⟨m + 1, σ', ?_, hres⟩
        have hi : (codeOf truth Q b)[pre.length]? = some ((Ins.br d : Ins V).ctl truth) := by rw [hcode, hc]; simp
        simp only [runL, hk, hi, Ins.ctl]
        rw [if_pos hd, hm]
      | cbr c y z =>
        simp only [linS, Except.ok.injEq, Prod.mk.injEq] at h1
        obtain ⟨rfl, rfl⟩ := h1
        simp only [run] at h
        obtain ⟨st, hval, hbel, _, _⟩ := (lin_sound (env := env) hU).1 c S σ hops hO hI hv
        generalize hr : lin c S = r at *
        have stv := st.vars
        have sti := st.inv
        generalize hσ1 : exI r.2.2 σ = σ1 at hval stv sti
        obtain ⟨hd, m, σ', hm, hres⟩ := goto _ σ1 [] (fun x => by rw [stv, hv]) h
        have hco : codeOf truth Q b = pre ++ r.2.2.map (Ins.ctl truth) ++ ((Ins.cbr r.2.1 y).ctl truth :: (Ins.br z).ctl truth :: c2.map (Ins.ctl truth)) := by
          rw [hcode, hc]; simp
        have hi1 : (codeOf truth Q b)[pre.length + r.2.2.length]? = some ((Ins.cbr r.2.1 y).ctl truth) := by rw [hco]; simp
        have hi2 : (codeOf truth Q b)[pre.length + r.2.2.length + 1]? = some ((Ins.br z : Ins V).ctl truth) := by
          rw [hco, List.getElem?_append_right (by simp)]; simp
        by_cases ht : truth (c.eval env) = true
        · rw [if_pos ht] at hd hm
          refine ⟨m + 1 + r.2.2.length, σ', ?_, hres⟩
          rw [runL_ops truth _ _ k b hk r.2.2 pre _ σ tr (m + 1) st.ops hco, hσ1]
          simp only [runL, hk, hi1, Ins.ctl, hval, ht]
          rw [if_pos trivial, if_pos hd, hm]
        · rw [if_neg ht] at hd hm
          refine ⟨m + 1 + 1 + r.2.2.length, σ', ?_, hres⟩
          rw [runL_ops truth _ _ k b hk r.2.2 pre _ σ tr (m + 1 + 1) st.ops hco, hσ1]
          simp only [runL, hk, hi1, Ins.ctl, hval, hi2]
          rw [if_neg ht, if_pos hd, hm]
      | ret re =>
        simp only [run] at h
        cases h
        cases e with
        | none =>
          simp only [linS, Except.ok.injEq, Prod.mk.injEq] at h1
          obtain ⟨rfl, rfl⟩ := h1
          have hi : (codeOf truth Q b)[pre.length]? = some ((Ins.ret : Ins V).ctl truth) := by rw [hcode, hc]; simp
          refine ⟨1, σ, ?_, by intro e' he; cases he⟩
          simp only [runL, hk, hi, Ins.ctl]
        | some ex =>
          simp only [linS, Except.ok.injEq, Prod.mk.injEq] at h1
          obtain ⟨rfl, rfl⟩ := h1
          obtain ⟨st, hval, hbel, hnm, _⟩ := (lin_sound (env := env) hU).1 ex S σ hops hO hI hv
          generalize hr : lin ex S = r at *
          have stv := st.vars
          have sti := st.inv
          generalize hσ1 : exI r.2.2 σ = σ1 at hval stv sti
          have hco : codeOf truth Q b = pre ++ r.2.2.map (Ins.ctl truth) ++ ((Ins.ret : Ins V).ctl truth :: c2.map (Ins.ctl truth)) := by
            rw [hcode, hc]; simp
          have hi1 : (codeOf truth Q b)[pre.length + r.2.2.length]? = some ((Ins.ret : Ins V).ctl truth) := by rw [hco]; simp
          refine ⟨1 + r.2.2.length, σ1, ?_, ?_⟩
          · rw [runL_ops truth _ _ k b hk r.2.2 pre _ σ tr 1 st.ops hco, hσ1]
            simp only [runL, hk, hi1, Ins.ctl]
          · intro e' he
            cases he
            refine ⟨r.2.1, hnm.mono (fun i k hk => hkeep i k (g2.keep i k hk)) (fun x hx => hseen x (g2.seen x hx)), ?_⟩
            rw [hval]; rfl

end Verif.Lin
