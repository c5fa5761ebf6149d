import Verif.Share.Model
import Mathlib.Data.List.Basic

/-! # Lemmas: the generated code computes what the program does, and what is hoisted -/

namespace Verif.Share

/-- two operation nodes of a list with the same identity are the same node -/
def Coherent (L : List Expr) : Prop := ∀ i f g a b, Expr.op i f a ∈ L → Expr.op i g b ∈ L → Expr.op i f a = Expr.op i g b

mutual
theorem eval_indep (S : Sem) (inp v v' : ℕ → ℤ) : ∀ e : Expr, hasVar e = false → eval S inp v e = eval S inp v' e
  | .inp _, _ => rfl
  | .var _, h => by simp [hasVar] at h
  | .cst _, _ => rfl
  | .op i f args, h => by
    simp only [eval]
    rw [evalL_indep S inp v v' args (by simpa [hasVar] using h)]
theorem evalL_indep (S : Sem) (inp v v' : ℕ → ℤ) : ∀ es : List Expr, hasVarL es = false → evalL S inp v es = evalL S inp v' es
  | [], _ => rfl
  | e :: es, h => by
    simp only [hasVarL, Bool.or_eq_false_iff] at h
    simp only [evalL]
    rw [eval_indep S inp v v' e h.1, evalL_indep S inp v v' es h.2]
end

/-- every declared variable holds the value of its node -/
def CacheOk (S : Sem) (inp : ℕ → ℤ) (L : List Expr) (m : List (ℕ × ℤ)) : Prop :=
  ∀ i v, m.lookup i = some v → ∃ f args, Expr.op i f args ∈ L ∧ ∀ vars, eval S inp vars (.op i f args) = some v

mutual
theorem evalM_eq {S : Sem} {inp : ℕ → ℤ} {L : List Expr} (hc : Coherent L) {m : List (ℕ × ℤ)} (hm : CacheOk S inp L m) (vars : ℕ → ℤ) :
    ∀ e : Expr, (∀ x ∈ nodes e, x ∈ L) → evalM S inp vars m e = eval S inp vars e
  | .inp _, _ => rfl
  | .var _, _ => rfl
  | .cst _, _ => rfl
  | .op i f args, h => by
    simp only [evalM]
    cases hl : m.lookup i with
    | some v =>
      obtain ⟨g, b, h1, h2⟩ := hm i v hl
      have := hc i f g args b (h _ (by simp [nodes])) h1
      dsimp only
      rw [this, h2]
    | none =>
      dsimp only
      rw [evalML_eq hc hm vars args (fun x hx => h x (by simp [nodes, hx]))]
      rfl
theorem evalML_eq {S : Sem} {inp : ℕ → ℤ} {L : List Expr} (hc : Coherent L) {m : List (ℕ × ℤ)} (hm : CacheOk S inp L m) (vars : ℕ → ℤ) :
    ∀ es : List Expr, (∀ x ∈ nodesL es, x ∈ L) → evalML S inp vars m es = evalL S inp vars es
  | [], _ => rfl
  | e :: es, h => by
    simp only [evalML, evalL]
    rw [evalM_eq hc hm vars e (fun x hx => h x (by simp [nodesL, hx])), evalML_eq hc hm vars es (fun x hx => h x (by simp [nodesL, hx]))]
    rfl
end

/-- declaring a variable for a node that depends on inputs only -/
theorem CacheOk.cons {S : Sem} {inp : ℕ → ℤ} {L : List Expr} (hc : Coherent L) {m : List (ℕ × ℤ)} (hm : CacheOk S inp L m) (vars : ℕ → ℤ) {e : Expr}
    (hL : ∀ x ∈ nodes e, x ∈ L) (hv : hasVar e = false) : CacheOk S inp L (declare S inp vars m (.expr e)) := by
  cases e with
  | op i f args =>
    simp only [declare]
    rw [evalM_eq hc hm vars _ hL]
    cases he : eval S inp vars (.op i f args) with
    | none => exact hm
    | some v =>
      intro j w hj
      dsimp only at hj
      rw [List.lookup_cons] at hj
      by_cases hij : j = i
      · subst hij
        simp at hj
        subst hj
        exact ⟨f, args, hL _ (by simp [nodes]), fun vars' => by rw [eval_indep S inp vars' vars _ hv, he]⟩
      · have : (j == i) = false := by simp [hij]
        rw [this] at hj
        exact hm j w hj
  | _ => exact hm

/-- what may be put before a conditional -/
def Good (S : Sem) (inp : ℕ → ℤ) (L : List Expr) (h : Stmt) : Prop :=
  ∃ e, h = .expr e ∧ (∀ x ∈ nodes e, x ∈ L) ∧ hasVar e = false ∧ ∀ vars, eval S inp vars e ≠ none

/-- hoisted nodes change nothing -/
theorem execML_pre {S : Sem} {inp : ℕ → ℤ} {L : List Expr} (hc : Coherent L) {N : ℕ} (ss : List Stmt) (vars : ℕ → ℤ) (fl : List ℕ) (r : Res)
    (hr : ∀ m, CacheOk S inp L m → execML S inp N m ss vars fl = r) :
    ∀ (hs : List Stmt) (m : List (ℕ × ℤ)), (∀ h ∈ hs, Good S inp L h) → CacheOk S inp L m → execML S inp N m (hs ++ ss) vars fl = r
  | [], m, _, hm => hr m hm
  | h :: hs, m, hg, hm => by
    obtain ⟨e, rfl, h1, h2, h3⟩ := hg h (by simp)
    simp only [List.cons_append, execML, execM]
    rw [evalM_eq hc hm vars e h1]
    cases he : eval S inp vars e with
    | none => exact absurd he (h3 vars)
    | some v =>
      simp only [Res.andThen]
      exact execML_pre hc ss vars fl r hr hs _ (fun h hh => hg h (by simp [hh])) (hm.cons hc vars h1 h2)

theorem pre_good {S : Sem} {inp : ℕ → ℤ} {L : List Expr} {anc : List (ℕ × Stmt)} (hA : ∀ p ∈ anc, Good S inp L p.2) (s : Stmt) : ∀ h ∈ pre anc s, Good S inp L h := by
  intro h hh
  cases s <;> simp only [pre, List.mem_map, List.mem_filter, List.not_mem_nil] at hh
  all_goals
    obtain ⟨p, ⟨h1, -⟩, rfl⟩ := hh
    exact hA p h1

theorem iter_congr {c c' : (ℕ → ℤ) → Option ℤ} {b b' : (ℕ → ℤ) → List ℕ → Res} (h1 : ∀ v, c v = c' v) (h2 : ∀ v f, b v f = b' v f) : ∀ n v f, iter c b n v f = iter c' b' n v f := by
  have e1 : c = c' := funext h1
  have e2 : b = b' := funext fun v => funext fun f => h2 v f
  subst e1; subst e2
  intros; rfl

theorem andThen_congr {r r' : Res} {k k' : (ℕ → ℤ) → List ℕ → Res} (h1 : r = r') (h2 : ∀ v f, k v f = k' v f) : r.andThen k = r'.andThen k' := by
  subst h1
  cases r with
  | fin v f o => cases o <;> simp [Res.andThen, h2]
  | _ => rfl

mutual
/-- without insertion -/
theorem execM_eq {S : Sem} {inp : ℕ → ℤ} {L : List Expr} (hc : Coherent L) {N : ℕ} :
    ∀ (s : Stmt) {m : List (ℕ × ℤ)}, CacheOk S inp L m → (∀ x ∈ s.nodes, x ∈ L) → s.clean → ∀ vars fl, execM S inp N m s vars fl = exec S inp N s vars fl
  | .expr e, m, hm, hL, _, vars, fl => by simp only [execM, exec]; rw [evalM_eq hc hm vars e hL]; rfl
  | .assign _ _ e, m, hm, hL, _, vars, fl => by simp only [execM, exec]; rw [evalM_eq hc hm vars e hL]; rfl
  | .ret _ e, m, hm, hL, _, vars, fl => by simp only [execM, exec]; rw [evalM_eq hc hm vars e hL]; rfl
  | .raise _ _, _, _, _, _, _, _ => rfl
  | .cond _ c t f, m, hm, hL, hcl, vars, fl => by
    simp only [Stmt.nodes, List.mem_append] at hL
    simp only [Stmt.clean] at hcl
    simp only [execM, exec]
    rw [evalM_eq hc hm vars c (fun x hx => hL x (.inl (.inl hx))), execM_eq hc t hm (fun x hx => hL x (.inl (.inr hx))) hcl.1, execM_eq hc f hm (fun x hx => hL x (.inr hx)) hcl.2]
    rfl
  | .switch _ c cases, m, hm, hL, hcl, vars, fl => by
    simp only [Stmt.nodes, List.mem_append] at hL
    simp only [Stmt.clean] at hcl
    simp only [execM, exec]
    rw [evalM_eq hc hm vars c (fun x hx => hL x (.inl hx))]
    cases eval S inp vars c with
    | none => rfl
    | some x => exact execMC_eq hc cases hm (fun x hx => hL x (.inr hx)) hcl x vars fl
  | .loop i c b, m, hm, hL, hcl, vars, fl => by
    simp only [Stmt.nodes, List.mem_append] at hL
    simp only [Stmt.clean] at hcl
    simp only [execM, exec]
    refine andThen_congr (execM_eq hc i hm (fun x hx => hL x (.inl (.inl hx))) hcl.1 vars fl) ?_
    exact iter_congr (fun v => evalM_eq hc hm v c (fun x hx => hL x (.inl (.inr hx)))) (fun v f => execM_eq hc b hm (fun x hx => hL x (.inr hx)) hcl.2 v f) N
  | .block _ ss, m, hm, hL, hcl, vars, fl => by
    simp only [execM, exec]
    exact execML_eq hc ss hm (by simpa only [Stmt.nodes] using hL) (by simpa only [Stmt.clean] using hcl) vars fl
theorem execMC_eq {S : Sem} {inp : ℕ → ℤ} {L : List Expr} (hc : Coherent L) {N : ℕ} :
    ∀ (cs : List (ℤ × Stmt)) {m : List (ℕ × ℤ)}, CacheOk S inp L m → (∀ x ∈ casesNodes cs, x ∈ L) → casesClean cs → ∀ x vars fl, execMC S inp N m cs x vars fl = execC S inp N cs x vars fl
  | [], _, _, _, _, _, _, _ => rfl
  | (k, s) :: cs, m, hm, hL, hcl, x, vars, fl => by
    simp only [casesNodes, List.mem_append] at hL
    simp only [casesClean] at hcl
    simp only [execMC, execC]
    rw [execM_eq hc s hm (fun x hx => hL x (.inl hx)) hcl.1, execMC_eq hc cs hm (fun x hx => hL x (.inr hx)) hcl.2]
theorem execML_eq {S : Sem} {inp : ℕ → ℤ} {L : List Expr} (hc : Coherent L) {N : ℕ} :
    ∀ (ss : List Stmt) {m : List (ℕ × ℤ)}, CacheOk S inp L m → (∀ x ∈ stmtsNodes ss, x ∈ L) → stmtsClean ss → ∀ vars fl, execML S inp N m ss vars fl = execL S inp N ss vars fl
  | [], _, _, _, _, _, _ => rfl
  | s :: ss, m, hm, hL, hcl, vars, fl => by
    simp only [stmtsNodes, List.mem_append] at hL
    simp only [stmtsClean] at hcl
    simp only [execML, execL]
    have hd : CacheOk S inp L (declare S inp vars m s) := by
      cases s with
      | expr e => exact hm.cons hc vars (fun x hx => hL x (.inl (by simpa [Stmt.nodes] using hx))) (by simpa [Stmt.clean] using hcl.1)
      | _ => exact hm
    exact andThen_congr (execM_eq hc s hm (fun x hx => hL x (.inl hx)) hcl.1 vars fl)
      (execML_eq hc ss hd (fun x hx => hL x (.inr hx)) hcl.2)
end

mutual
/-- with insertion -/
theorem execM_insert {S : Sem} {inp : ℕ → ℤ} {L : List Expr} (hc : Coherent L) {N : ℕ} {anc : List (ℕ × Stmt)} (hA : ∀ p ∈ anc, Good S inp L p.2) :
    ∀ (s : Stmt) {m : List (ℕ × ℤ)}, CacheOk S inp L m → (∀ x ∈ s.nodes, x ∈ L) → s.clean → ∀ vars fl, execM S inp N m (insertPre anc s) vars fl = exec S inp N s vars fl
  | .expr e, m, hm, hL, hcl, vars, fl => execM_eq hc (.expr e) hm hL hcl vars fl
  | .assign i v e, m, hm, hL, hcl, vars, fl => execM_eq hc (.assign i v e) hm hL hcl vars fl
  | .ret i e, m, hm, hL, hcl, vars, fl => execM_eq hc (.ret i e) hm hL hcl vars fl
  | .raise _ _, _, _, _, _, _, _ => rfl
  | .switch i c cases, m, hm, hL, hcl, vars, fl => execM_eq hc (.switch i c cases) hm hL hcl vars fl
  | .cond i c t f, m, hm, hL, hcl, vars, fl => by
    simp only [Stmt.nodes, List.mem_append] at hL
    simp only [Stmt.clean] at hcl
    simp only [insertPre, execM, exec]
    rw [evalM_eq hc hm vars c (fun x hx => hL x (.inl (.inl hx))), execM_insert hc hA t hm (fun x hx => hL x (.inl (.inr hx))) hcl.1,
      execM_insert hc hA f hm (fun x hx => hL x (.inr hx)) hcl.2]
    rfl
  | .loop i c b, m, hm, hL, hcl, vars, fl => by
    simp only [Stmt.nodes, List.mem_append] at hL
    simp only [Stmt.clean] at hcl
    simp only [insertPre, execM, exec]
    refine andThen_congr (execM_insert hc hA i hm (fun x hx => hL x (.inl (.inl hx))) hcl.1 vars fl) ?_
    exact iter_congr (fun v => evalM_eq hc hm v c (fun x hx => hL x (.inl (.inr hx)))) (fun v f => execM_insert hc hA b hm (fun x hx => hL x (.inr hx)) hcl.2 v f) N
  | .block _ ss, m, hm, hL, hcl, vars, fl => by
    simp only [insertPre, execM, exec]
    exact execML_insert hc hA ss hm (by simpa only [Stmt.nodes] using hL) (by simpa only [Stmt.clean] using hcl) vars fl
theorem execML_insert {S : Sem} {inp : ℕ → ℤ} {L : List Expr} (hc : Coherent L) {N : ℕ} {anc : List (ℕ × Stmt)} (hA : ∀ p ∈ anc, Good S inp L p.2) :
    ∀ (ss : List Stmt) {m : List (ℕ × ℤ)}, CacheOk S inp L m → (∀ x ∈ stmtsNodes ss, x ∈ L) → stmtsClean ss → ∀ vars fl, execML S inp N m (insertPreL anc ss) vars fl = execL S inp N ss vars fl
  | [], _, _, _, _, _, _ => rfl
  | s :: ss, m, hm, hL, hcl, vars, fl => by
    simp only [stmtsNodes, List.mem_append] at hL
    simp only [stmtsClean] at hcl
    simp only [insertPreL]
    refine execML_pre hc _ vars fl _ ?_ _ _ (pre_good hA s) hm
    intro m hm
    simp only [execML, execL]
    have hd : CacheOk S inp L (declare S inp vars m (insertPre anc s)) := by
      cases s with
      | expr e => exact hm.cons hc vars (fun x hx => hL x (.inl (by simpa [Stmt.nodes] using hx))) (by simpa [Stmt.clean] using hcl.1)
      | _ => exact hm
    exact andThen_congr (execM_insert hc hA s hm (fun x hx => hL x (.inl hx)) hcl.1 vars fl)
      (execML_insert hc hA ss hd (fun x hx => hL x (.inr hx)) hcl.2)
end

/-! ## What is hoisted -/

/-- what is in `ancestor_map` and `sharing_map`; `E` are the nodes with effects -/
structure Inv (L : List Expr) (E : List ℕ) (st : St) : Prop where
  anc : ∀ p ∈ st.anc, ∃ i f args, p.2 = .expr (.op i f args) ∧ Expr.op i f args ∈ L ∧ hasVarL args = false
  sharing : ∀ p ∈ st.sharing, p.1 ∈ E ∨ ∃ f args, Expr.op p.1 f args ∈ L ∧ hasVarL args = false

theorem lookup_mem {i : ℕ} {ps : List ℕ} : ∀ {l : List (ℕ × List ℕ)}, l.lookup i = some ps → ∃ q, (i, q) ∈ l
  | [], h => by simp at h
  | (a, b) :: l, h => by
    rw [List.lookup_cons] at h
    by_cases hia : i = a
    · subst hia; exact ⟨b, by simp⟩
    · have : (i == a) = false := by simp [hia]
      rw [this] at h
      obtain ⟨q, hq⟩ := lookup_mem h
      exact ⟨q, by simp [hq]⟩

theorem lookup_none {i : ℕ} : ∀ {l : List (ℕ × List ℕ)}, (∀ p ∈ l, p.1 ≠ i) → l.lookup i = none
  | [], _ => rfl
  | (a, b) :: l, h => by
    rw [List.lookup_cons]
    have : (i == a) = false := by simpa using (h (a, b) (by simp)).symm
    rw [this]
    exact lookup_none (fun p hp => h p (by simp [hp]))

/-- the keys of `sharing_map` after a traversal: old ones, or allowed ones -/
def Adds (K : ℕ → Prop) (st st' : St) : Prop := ∀ p ∈ st'.sharing, p ∈ st.sharing ∨ K p.1

theorem Adds.refl {K : ℕ → Prop} {st : St} : Adds K st st := fun _ h => .inl h

theorem Adds.trans {K : ℕ → Prop} {a b c : St} (h1 : Adds K a b) (h2 : Adds K b c) : Adds K a c := by
  intro p hp
  rcases h2 p hp with h | h
  · exact h1 p h
  · exact .inr h

theorem Adds.mono {K K' : ℕ → Prop} {a b : St} (h : Adds K a b) (hk : ∀ i, K i → K' i) : Adds K' a b := fun p hp => (h p hp).imp id (hk _)

mutual
theorem lookE_inv {L : List Expr} {E : List ℕ} (hc : Coherent L) (hE : ∀ i f a, Expr.op i f a ∈ L → i ∉ E) (top : Bool) (ps : List ℕ) :
    ∀ (e : Expr), (∀ x ∈ nodes e, x ∈ L) → ∀ st, Inv L E st → Inv L E (lookE top ps e st) ∧ Adds (fun i => i ∉ E) st (lookE top ps e st)
  | .inp _, _, st, h => ⟨h, .refl⟩
  | .var _, _, st, h => ⟨h, .refl⟩
  | .cst _, _, st, h => ⟨h, .refl⟩
  | .op i f args, hL, st, h => by
    have hmem : Expr.op i f args ∈ L := hL _ (by simp [nodes])
    simp only [lookE, visit]
    cases hl : st.sharing.lookup i with
    | some ps0 =>
      dsimp only
      split_ifs
      · exact ⟨h, .refl⟩
      · cases commonAncestor ps0 ps with
        | none => exact ⟨h, .refl⟩
        | some a =>
          refine ⟨⟨?_, h.sharing⟩, fun p hp => .inl hp⟩
          intro p hp
          rcases List.mem_append.1 hp with hp | hp
          · exact h.anc p hp
          · simp only [List.mem_singleton] at hp
            subst hp
            obtain ⟨q, hq⟩ := lookup_mem hl
            refine ⟨i, f, args, rfl, hmem, ?_⟩
            rcases h.sharing _ hq with h' | ⟨g, b, h1, h2⟩
            · exact absurd h' (hE i f args hmem)
            · have := hc i f g args b hmem h1
              injection this with _ _ h3
              rw [h3]; exact h2
    | none =>
      dsimp only
      cases hv : hasVarL args with
      | true => exact ⟨h, .refl⟩
      | false =>
        rw [if_neg (by simp)]
        have h0 : Inv L E { st with sharing := st.sharing ++ [(i, ps)], level0 := if top then i :: st.level0 else st.level0 } := by
          refine ⟨h.anc, ?_⟩
          intro p hp
          rcases List.mem_append.1 hp with hp | hp
          · exact h.sharing p hp
          · simp only [List.mem_singleton] at hp
            subst hp
            exact .inr ⟨f, args, hmem, hv⟩
        have a0 : Adds (fun i => i ∉ E) st { st with sharing := st.sharing ++ [(i, ps)], level0 := if top then i :: st.level0 else st.level0 } := by
          intro p hp
          rcases List.mem_append.1 hp with hp | hp
          · exact .inl hp
          · simp only [List.mem_singleton] at hp
            subst hp
            exact .inr (hE i f args hmem)
        obtain ⟨r1, r2⟩ := lookEL_inv hc hE top ps args (fun x hx => hL x (by simp [nodes, hx])) _ h0
        exact ⟨r1, a0.trans r2⟩
theorem lookEL_inv {L : List Expr} {E : List ℕ} (hc : Coherent L) (hE : ∀ i f a, Expr.op i f a ∈ L → i ∉ E) (top : Bool) (ps : List ℕ) :
    ∀ (es : List Expr), (∀ x ∈ nodesL es, x ∈ L) → ∀ st, Inv L E st → Inv L E (lookEL top ps es st) ∧ Adds (fun i => i ∉ E) st (lookEL top ps es st)
  | [], _, st, h => ⟨h, .refl⟩
  | e :: es, hL, st, h => by
    obtain ⟨r1, r2⟩ := lookE_inv hc hE top ps e (fun x hx => hL x (by simp [nodesL, hx])) st h
    obtain ⟨r3, r4⟩ := lookEL_inv hc hE top ps es (fun x hx => hL x (by simp [nodesL, hx])) _ r1
    exact ⟨r3, r2.trans r4⟩
end

/-- a node with effects seen for the first time -/
theorem visit_inv {L : List Expr} {E : List ℕ} (top : Bool) (ps : List ℕ) {i : ℕ} (hi : i ∈ E) (dirty : Bool) (hoist : Stmt) (next : St → St)
    (hn : ∀ st, Inv L E st → Inv L E (next st) ∧ Adds (fun i => i ∉ E) st (next st)) {st : St} (h : Inv L E st) (hf : ∀ p ∈ st.sharing, p.1 ≠ i) :
    Inv L E (visit top ps i dirty hoist next st) ∧ Adds (fun j => j ∉ E ∨ j = i) st (visit top ps i dirty hoist next st) := by
  simp only [visit]
  rw [lookup_none hf]
  dsimp only
  generalize (if top = true then i :: st.level0 else st.level0) = lv
  cases dirty with
  | true => exact ⟨h, .refl⟩
  | false =>
    rw [if_neg (by simp)]
    have h0 : Inv L E { st with sharing := st.sharing ++ [(i, ps)], level0 := lv } := by
      refine ⟨h.anc, ?_⟩
      intro p hp
      rcases List.mem_append.1 hp with hp | hp
      · exact h.sharing p hp
      · simp only [List.mem_singleton] at hp
        subst hp
        exact .inl hi
    have a0 : Adds (fun j => j ∉ E ∨ j = i) st { st with sharing := st.sharing ++ [(i, ps)], level0 := lv } := by
      intro p hp
      rcases List.mem_append.1 hp with hp | hp
      · exact .inl hp
      · simp only [List.mem_singleton] at hp
        subst hp
        exact .inr (.inr rfl)
    obtain ⟨r1, r2⟩ := hn _ h0
    exact ⟨r1, a0.trans (r2.mono fun j hj => .inl hj)⟩

/-- freshness is kept by a traversal that adds other nodes -/
theorem fresh_after {st st' : St} {E F G : List ℕ} (ha : Adds (fun j => j ∉ E ∨ j ∈ F) st st') (hG : ∀ i ∈ G, i ∈ E) (hd : ∀ i ∈ F, i ∉ G) (hf : ∀ i ∈ G, ∀ p ∈ st.sharing, p.1 ≠ i) :
    ∀ i ∈ G, ∀ p ∈ st'.sharing, p.1 ≠ i := by
  intro i hi p hp
  rcases ha p hp with h | h | h
  · exact hf i hi p h
  · rintro rfl; exact h (hG _ hi)
  · rintro rfl; exact hd _ h hi

mutual
theorem look_inv {L : List Expr} {E : List ℕ} (hc : Coherent L) (hE : ∀ i f a, Expr.op i f a ∈ L → i ∉ E) :
    ∀ (s : Stmt) (top : Bool) (ps : List ℕ), (∀ x ∈ s.nodes, x ∈ L) → (∀ i ∈ s.effects, i ∈ E) → s.effects.Nodup → ∀ st, Inv L E st → (∀ i ∈ s.effects, ∀ p ∈ st.sharing, p.1 ≠ i) →
      Inv L E (look top ps s st) ∧ Adds (fun j => j ∉ E ∨ j ∈ s.effects) st (look top ps s st)
  | .expr e, top, ps, hL, _, _, st, h, _ => by
    obtain ⟨r1, r2⟩ := lookE_inv hc hE top ps e hL st h
    exact ⟨r1, r2.mono fun j hj => .inl hj⟩
  | .assign _ _ _, _, _, _, _, _, st, h, _ => ⟨h, .refl⟩
  | .loop _ _ _, _, _, _, _, _, st, h, _ => ⟨h, .refl⟩
  | .ret i e, top, ps, hL, hi, _, st, h, hf => by
    obtain ⟨r1, r2⟩ := visit_inv (L := L) (E := E) top ps (hi i (by simp [Stmt.effects])) (hasVar e) (.ret i e) (lookE top ps e)
      (fun st' h' => lookE_inv hc hE top ps e hL st' h') h (hf i (by simp [Stmt.effects]))
    exact ⟨r1, r2.mono fun j hj => hj.imp id (by rintro rfl; simp [Stmt.effects])⟩
  | .raise i x, top, ps, hL, hi, _, st, h, hf => by
    obtain ⟨r1, r2⟩ := visit_inv (L := L) (E := E) top ps (hi i (by simp [Stmt.effects])) false (.raise i x) id (fun st' h' => ⟨h', .refl⟩) h (hf i (by simp [Stmt.effects]))
    exact ⟨r1, r2.mono fun j hj => hj.imp id (by rintro rfl; simp [Stmt.effects])⟩
  | .cond i c t f, top, ps, hL, hi, hnd, st, h, hf => by
    simp only [Stmt.nodes, List.mem_append] at hL
    simp only [Stmt.effects, List.mem_append] at hi hf
    simp only [Stmt.effects, List.nodup_append] at hnd
    obtain ⟨n1, n2, n3⟩ := hnd
    simp only [look]
    obtain ⟨a1, a2⟩ := lookE_inv hc hE top (ps ++ [i]) c (fun x hx => hL x (.inl (.inl hx))) st h
    have f0 : ∀ j ∈ t.effects ++ f.effects, ∀ p ∈ (lookE top (ps ++ [i]) c st).sharing, p.1 ≠ j :=
      fresh_after (F := []) (E := E) (a2.mono fun j hj => .inl hj) (fun j hj => hi j (List.mem_append.1 hj)) (by simp) (fun j hj => hf j (List.mem_append.1 hj))
    obtain ⟨b1, b2⟩ := look_inv hc hE t false (ps ++ [i]) (fun x hx => hL x (.inl (.inr hx))) (fun j hj => hi j (.inl hj)) n1 _ a1 (fun j hj => f0 j (by simp [hj]))
    have f1 := fresh_after (F := t.effects) (E := E) (G := f.effects) b2 (fun j hj => hi j (.inr hj)) (fun j hj hj' => n3 j hj j hj' rfl) (fun j hj => f0 j (by simp [hj]))
    obtain ⟨c1, c2⟩ := look_inv hc hE f false (ps ++ [i]) (fun x hx => hL x (.inr hx)) (fun j hj => hi j (.inr hj)) n2 _ b1 f1
    refine ⟨c1, ((a2.mono fun j hj => .inl hj).trans (b2.mono fun j hj => hj.imp id fun h => ?_)).trans (c2.mono fun j hj => hj.imp id fun h => ?_)⟩ <;> simp [Stmt.effects, h]
  | .switch i c cases, top, ps, hL, hi, hnd, st, h, hf => by
    simp only [Stmt.nodes, List.mem_append] at hL
    simp only [Stmt.effects] at hi hf hnd
    simp only [look]
    obtain ⟨a1, a2⟩ := lookE_inv hc hE top (ps ++ [i]) c (fun x hx => hL x (.inl hx)) st h
    have f0 := fresh_after (F := []) (E := E) (G := casesEffects cases) (a2.mono fun j hj => .inl hj) hi (by simp) hf
    obtain ⟨b1, b2⟩ := lookC_inv hc hE cases (ps ++ [i]) (fun x hx => hL x (.inr hx)) hi hnd _ a1 f0
    refine ⟨b1, (a2.mono fun j hj => .inl hj).trans (b2.mono fun j hj => hj.imp id fun h => ?_)⟩
    simp [Stmt.effects, h]
  | .block p ss, top, ps, hL, hi, hnd, st, h, hf => by
    simp only [look]
    split_ifs
    · exact ⟨h, .refl⟩
    · simp only [Stmt.effects] at hi hf hnd
      obtain ⟨b1, b2⟩ := lookL_inv hc hE ss ps (by simpa only [Stmt.nodes] using hL) hi hnd _ h hf
      exact ⟨b1, b2.mono fun j hj => hj.imp id fun h => by simp [Stmt.effects, h]⟩
theorem lookC_inv {L : List Expr} {E : List ℕ} (hc : Coherent L) (hE : ∀ i f a, Expr.op i f a ∈ L → i ∉ E) :
    ∀ (cs : List (ℤ × Stmt)) (ps : List ℕ), (∀ x ∈ casesNodes cs, x ∈ L) → (∀ i ∈ casesEffects cs, i ∈ E) → (casesEffects cs).Nodup → ∀ st, Inv L E st →
      (∀ i ∈ casesEffects cs, ∀ p ∈ st.sharing, p.1 ≠ i) → Inv L E (lookC ps cs st) ∧ Adds (fun j => j ∉ E ∨ j ∈ casesEffects cs) st (lookC ps cs st)
  | [], _, _, _, _, st, h, _ => ⟨h, .refl⟩
  | (k, s) :: cs, ps, hL, hi, hnd, st, h, hf => by
    simp only [casesNodes, List.mem_append] at hL
    simp only [casesEffects, List.mem_append] at hi hf
    simp only [casesEffects, List.nodup_append] at hnd
    obtain ⟨n1, n2, n3⟩ := hnd
    simp only [lookC]
    obtain ⟨b1, b2⟩ := look_inv hc hE s false ps (fun x hx => hL x (.inl hx)) (fun j hj => hi j (.inl hj)) n1 st h (fun j hj => hf j (.inl hj))
    have f1 := fresh_after (F := s.effects) (E := E) (G := casesEffects cs) b2 (fun j hj => hi j (.inr hj)) (fun j hj hj' => n3 j hj j hj' rfl) (fun j hj => hf j (.inr hj))
    obtain ⟨c1, c2⟩ := lookC_inv hc hE cs ps (fun x hx => hL x (.inr hx)) (fun j hj => hi j (.inr hj)) n2 _ b1 f1
    refine ⟨c1, (b2.mono fun j hj => hj.imp id fun h => ?_).trans (c2.mono fun j hj => hj.imp id fun h => ?_)⟩ <;> simp [casesEffects, h]
theorem lookL_inv {L : List Expr} {E : List ℕ} (hc : Coherent L) (hE : ∀ i f a, Expr.op i f a ∈ L → i ∉ E) :
    ∀ (ss : List Stmt) (ps : List ℕ), (∀ x ∈ stmtsNodes ss, x ∈ L) → (∀ i ∈ stmtsEffects ss, i ∈ E) → (stmtsEffects ss).Nodup → ∀ st, Inv L E st →
      (∀ i ∈ stmtsEffects ss, ∀ p ∈ st.sharing, p.1 ≠ i) → Inv L E (lookL ps ss st) ∧ Adds (fun j => j ∉ E ∨ j ∈ stmtsEffects ss) st (lookL ps ss st)
  | [], _, _, _, _, st, h, _ => ⟨h, .refl⟩
  | s :: ss, ps, hL, hi, hnd, st, h, hf => by
    simp only [stmtsNodes, List.mem_append] at hL
    simp only [stmtsEffects, List.mem_append] at hi hf
    simp only [stmtsEffects, List.nodup_append] at hnd
    obtain ⟨n1, n2, n3⟩ := hnd
    simp only [lookL]
    obtain ⟨b1, b2⟩ := look_inv hc hE s false ps (fun x hx => hL x (.inl hx)) (fun j hj => hi j (.inl hj)) n1 st h (fun j hj => hf j (.inl hj))
    have f1 := fresh_after (F := s.effects) (E := E) (G := stmtsEffects ss) b2 (fun j hj => hi j (.inr hj)) (fun j hj hj' => n3 j hj j hj' rfl) (fun j hj => hf j (.inr hj))
    obtain ⟨c1, c2⟩ := lookL_inv hc hE ss ps (fun x hx => hL x (.inr hx)) (fun j hj => hi j (.inr hj)) n2 _ b1 f1
    refine ⟨c1, (b2.mono fun j hj => hj.imp id fun h => ?_).trans (c2.mono fun j hj => hj.imp id fun h => ?_)⟩ <;> simp [stmtsEffects, h]
end

mutual
theorem nodes_sub : ∀ (e : Expr), ∀ x ∈ nodes e, ∀ y ∈ nodes x, y ∈ nodes e
  | .inp _, x, hx, _, _ => by simp [nodes] at hx
  | .var _, x, hx, _, _ => by simp [nodes] at hx
  | .cst _, x, hx, _, _ => by simp [nodes] at hx
  | .op i f args, x, hx, y, hy => by
    simp only [nodes, List.mem_cons] at hx ⊢
    rcases hx with rfl | hx
    · simpa only [nodes, List.mem_cons] using hy
    · exact .inr (nodesL_sub args x hx y hy)
theorem nodesL_sub : ∀ (es : List Expr), ∀ x ∈ nodesL es, ∀ y ∈ nodes x, y ∈ nodesL es
  | [], x, hx, _, _ => by simp [nodesL] at hx
  | e :: es, x, hx, y, hy => by
    simp only [nodesL, List.mem_append] at hx ⊢
    rcases hx with hx | hx
    · exact .inl (nodes_sub e x hx y hy)
    · exact .inr (nodesL_sub es x hx y hy)
end

mutual
theorem stmt_nodes_sub : ∀ (s : Stmt), ∀ x ∈ s.nodes, ∀ y ∈ nodes x, y ∈ s.nodes
  | .expr e, x, hx, y, hy => nodes_sub e x hx y hy
  | .assign _ _ e, x, hx, y, hy => nodes_sub e x hx y hy
  | .ret _ e, x, hx, y, hy => nodes_sub e x hx y hy
  | .raise _ _, x, hx, y, hy => by simp [Stmt.nodes] at hx
  | .cond _ c t f, x, hx, y, hy => by
    simp only [Stmt.nodes, List.mem_append] at hx ⊢
    rcases hx with (hx | hx) | hx
    · exact .inl (.inl (nodes_sub c x hx y hy))
    · exact .inl (.inr (stmt_nodes_sub t x hx y hy))
    · exact .inr (stmt_nodes_sub f x hx y hy)
  | .switch _ c cs, x, hx, y, hy => by
    simp only [Stmt.nodes, List.mem_append] at hx ⊢
    rcases hx with hx | hx
    · exact .inl (nodes_sub c x hx y hy)
    · exact .inr (cases_nodes_sub cs x hx y hy)
  | .loop i c b, x, hx, y, hy => by
    simp only [Stmt.nodes, List.mem_append] at hx ⊢
    rcases hx with (hx | hx) | hx
    · exact .inl (.inl (stmt_nodes_sub i x hx y hy))
    · exact .inl (.inr (nodes_sub c x hx y hy))
    · exact .inr (stmt_nodes_sub b x hx y hy)
  | .block _ ss, x, hx, y, hy => by
    simp only [Stmt.nodes] at hx ⊢
    exact stmts_nodes_sub ss x hx y hy
theorem cases_nodes_sub : ∀ (cs : List (ℤ × Stmt)), ∀ x ∈ casesNodes cs, ∀ y ∈ nodes x, y ∈ casesNodes cs
  | [], x, hx, _, _ => by simp [casesNodes] at hx
  | (_, s) :: cs, x, hx, y, hy => by
    simp only [casesNodes, List.mem_append] at hx ⊢
    rcases hx with hx | hx
    · exact .inl (stmt_nodes_sub s x hx y hy)
    · exact .inr (cases_nodes_sub cs x hx y hy)
theorem stmts_nodes_sub : ∀ (ss : List Stmt), ∀ x ∈ stmtsNodes ss, ∀ y ∈ nodes x, y ∈ stmtsNodes ss
  | [], x, hx, _, _ => by simp [stmtsNodes] at hx
  | s :: ss, x, hx, y, hy => by
    simp only [stmtsNodes, List.mem_append] at hx ⊢
    rcases hx with hx | hx
    · exact .inl (stmt_nodes_sub s x hx y hy)
    · exact .inr (stmts_nodes_sub ss x hx y hy)
end

theorem lookup_append {i : ℕ} {q : List ℕ} : ∀ {l l' : List (ℕ × List ℕ)}, l.lookup i = some q → (l ++ l').lookup i = some q
  | [], _, h => by simp at h
  | (a, b) :: l, l', h => by
    rw [List.cons_append, List.lookup_cons]
    rw [List.lookup_cons] at h
    cases hia : (i == a) with
    | true => rw [hia] at h; exact h
    | false => rw [hia] at h; exact lookup_append h

theorem lookup_last {i : ℕ} {q : List ℕ} : ∀ {l : List (ℕ × List ℕ)}, l.lookup i = none → (l ++ [(i, q)]).lookup i = some q
  | [], _ => by simp [List.lookup_cons]
  | (a, b) :: l, h => by
    rw [List.cons_append, List.lookup_cons]
    rw [List.lookup_cons] at h
    cases hia : (i == a) with
    | true => rw [hia] at h; exact absurd h (by simp)
    | false => rw [hia] at h; exact lookup_last h

mutual
/-- a traversal keeps what is in `sharing_map` and in `ancestor_map` -/
theorem lookE_keep (ps : List ℕ) : ∀ (e : Expr) (st : St), (∀ i q, st.sharing.lookup i = some q → (lookE false ps e st).sharing.lookup i = some q) ∧
    (lookE false ps e st).level0 = st.level0 ∧ ∀ p ∈ st.anc, p ∈ (lookE false ps e st).anc
  | .inp _, st => ⟨fun _ _ h => h, rfl, fun _ h => h⟩
  | .var _, st => ⟨fun _ _ h => h, rfl, fun _ h => h⟩
  | .cst _, st => ⟨fun _ _ h => h, rfl, fun _ h => h⟩
  | .op i f args, st => by
    simp only [lookE, visit]
    cases hl : st.sharing.lookup i with
    | some ps0 =>
      dsimp only
      split_ifs
      · exact ⟨fun _ _ h => h, rfl, fun _ h => h⟩
      · cases commonAncestor ps0 ps with
        | none => exact ⟨fun _ _ h => h, rfl, fun _ h => h⟩
        | some a => exact ⟨fun _ _ h => h, rfl, fun _ h => by simp [h]⟩
    | none =>
      dsimp only
      cases hasVarL args with
      | true => exact ⟨fun _ _ h => h, rfl, fun _ h => h⟩
      | false =>
        rw [if_neg (by simp)]
        obtain ⟨h1, h2, h3⟩ := lookEL_keep ps args { st with sharing := st.sharing ++ [(i, ps)], level0 := st.level0 }
        refine ⟨fun j q hj => h1 j q (lookup_append hj), h2, h3⟩
theorem lookEL_keep (ps : List ℕ) : ∀ (es : List Expr) (st : St), (∀ i q, st.sharing.lookup i = some q → (lookEL false ps es st).sharing.lookup i = some q) ∧
    (lookEL false ps es st).level0 = st.level0 ∧ ∀ p ∈ st.anc, p ∈ (lookEL false ps es st).anc
  | [], st => ⟨fun _ _ h => h, rfl, fun _ h => h⟩
  | e :: es, st => by
    obtain ⟨h1, h2, h3⟩ := lookE_keep ps e st
    obtain ⟨h4, h5, h6⟩ := lookEL_keep ps es (lookE false ps e st)
    exact ⟨fun i q h => h4 i q (h1 i q h), h5.trans h2, fun p h => h6 p (h3 p h)⟩
end

end Verif.Share
