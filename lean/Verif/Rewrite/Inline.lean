import Verif.Rewrite.InlineModel
import Verif.Rewrite.Lower
import Mathlib.Tactic.IntervalCases

/-! # C57: inlining a function scheme -/

namespace Verif.Rewrite.Inline

variable {F V : Type}

/-! ## The graph that is built -/

/-- `n'` in `g` is `n` in `h` with the parameters replaced and the returns turned into assignments; the nodes it is made of satisfy
`Fz` -/
inductive Inst (h g : Heap (Op F)) (dst : ℕ) (args : List (ℕ × ℕ)) (Fz : ℕ → Prop) : ℕ → ℕ → Prop
  | param (n a : ℕ) : args.lookup n = some a → Inst h g dst args Fz n a
  | retNew (n a a' n' : ℕ) : args.lookup n = none → h[n]? = some ⟨.ret, [a]⟩ → Inst h g dst args Fz a a' →
      g[n']? = some ⟨.assign, [dst, a']⟩ → Fz n' → Inst h g dst args Fz n n'
  | retDst (n a : ℕ) : args.lookup n = none → h[n]? = some ⟨.ret, [a]⟩ → Inst h g dst args Fz a dst → Inst h g dst args Fz n dst
  | var (n : ℕ) (ins : List ℕ) : args.lookup n = none → h[n]? = some ⟨.var, ins⟩ → g[n]? = some ⟨.var, ins⟩ → Fz n →
      Inst h g dst args Fz n n
  | op (n : ℕ) (o : Op F) (ins ins' : List ℕ) : args.lookup n = none → h[n]? = some ⟨o, ins⟩ → o ≠ .ret → o ≠ .var →
      ins'.length = ins.length →
      (∀ i x y : ℕ, ins[i]? = some x → ins'[i]? = some y → Inst h g dst args Fz x y) →
      g[n]? = some ⟨o, ins'⟩ → Fz n → Inst h g dst args Fz n n

theorem Inst.mono {h g g' : Heap (Op F)} {dst : ℕ} {args : List (ℕ × ℕ)} {Fz Fz' : ℕ → Prop} {n n' : ℕ}
    (hi : Inst h g dst args Fz n n') (hg : ∀ k, Fz k → g'[k]? = g[k]?) (hf : ∀ k, Fz k → Fz' k) : Inst h g' dst args Fz' n n' := by
  induction hi with
  | param n a hl => exact .param n a hl
  | retNew n a a' n' hl hn _ hg' hz ih => exact .retNew n a a' n' hl hn ih (by rw [hg _ hz]; exact hg') (hf _ hz)
  | retDst n a hl hn _ ih => exact .retDst n a hl hn ih
  | var n ins hl hn hg' hz => exact .var n ins hl hn (by rw [hg _ hz]; exact hg') (hf _ hz)
  | op n o ins ins' hl hn h1 h2 hlen _ hg' hz ih =>
    exact .op n o ins ins' hl hn h1 h2 hlen ih (by rw [hg _ hz]; exact hg') (hf _ hz)

section
variable (h : Heap (Op F)) (dst : ℕ) (args : List (ℕ × ℕ)) (rank : ℕ → ℕ) (root : ℕ)

/-- nodes that are not modified any more -/
def Frozen (s : St F) (k : ℕ) : Prop := k < s.heap.length ∧ ((∃ b, (k, b) ∈ s.memo) ∨ h.length ≤ k)

structure OK (s : St F) (b : ℕ) : Prop where
  len : h.length ≤ s.heap.length
  memo : ∀ a c, (a, c) ∈ s.memo → a < h.length ∧ Inst h s.heap dst args (Frozen h s) a c
  fresh : ∀ k < h.length, rank k < b → (∀ c, (k, c) ∉ s.memo) → s.heap[k]? = h[k]?
  changed : ∀ k < h.length, s.heap[k]? ≠ h[k]? → Below h root k ∧ ∀ nd, h[k]? = some nd → nd.op ≠ .var

structure Post (s s' : St F) (ex : ℕ → Prop) (b : ℕ) : Prop where
  len : s.heap.length ≤ s'.heap.length
  sub : ∀ x ∈ s.memo, x ∈ s'.memo
  keys : ∀ a c, (a, c) ∈ s'.memo → (a, c) ∈ s.memo ∨ rank a < b
  frame : ∀ k, ¬ ex k → k < s.heap.length → Frozen h s k ∨ b ≤ rank k → s'.heap[k]? = s.heap[k]?

/-- what the recursive calls are known to do -/
def Rec (f : St F → ℕ → Option (St F × ℕ)) (K : ℕ) : Prop :=
  ∀ s b n, OK h dst args rank root s b → n < h.length → rank n < b → rank n < K → Below h root n →
    ∃ s' n', f s n = some (s', n') ∧ OK h dst args rank root s' b ∧ Post h rank s s' (fun _ => False) (rank n + 1) ∧
      Inst h s'.heap dst args (Frozen h s') n n'
end

variable {h : Heap (Op F)} {dst : ℕ} {args : List (ℕ × ℕ)} {rank : ℕ → ℕ} {root : ℕ}

theorem Post.refl (s : St F) (ex : ℕ → Prop) (b : ℕ) : Post h rank s s ex b :=
  ⟨le_rfl, fun _ h => h, fun _ _ h => Or.inl h, fun _ _ _ _ => rfl⟩

theorem Post.weaken {s s' : St F} {ex ex' : ℕ → Prop} {b b' : ℕ} (P : Post h rank s s' ex b) (he : ∀ k, ex k → ex' k) (hb : b ≤ b') :
    Post h rank s s' ex' b' :=
  ⟨P.len, P.sub, fun a c h => (P.keys a c h).imp id (fun h => h.trans_le hb),
    fun k hk hl hf => P.frame k (fun h => hk (he k h)) hl (hf.imp id (fun h => hb.trans h))⟩

theorem Post.frozen {s s' : St F} {ex : ℕ → Prop} {b k : ℕ} (P : Post h rank s s' ex b) (hk : Frozen h s k) : Frozen h s' k :=
  ⟨hk.1.trans_le P.len, hk.2.imp (fun ⟨c, hc⟩ => ⟨c, P.sub _ hc⟩) id⟩

theorem Post.trans {s s1 s2 : St F} {ex : ℕ → Prop} {b : ℕ} (P : Post h rank s s1 ex b) (Q : Post h rank s1 s2 ex b) :
    Post h rank s s2 ex b := by
  refine ⟨P.len.trans Q.len, fun x hx => Q.sub x (P.sub x hx), fun a c hc => ?_, fun k hk hl hf => ?_⟩
  · rcases Q.keys a c hc with h1 | h1
    · exact P.keys a c h1
    · exact Or.inr h1
  · rw [Q.frame k hk (hl.trans_le P.len) (hf.imp P.frozen id), P.frame k hk hl hf]

theorem Post.inst {s s' : St F} {ex : ℕ → Prop} {b n n' : ℕ} (P : Post h rank s s' ex b) (hx : ∀ k, ex k → ¬ Frozen h s k)
    (hi : Inst h s.heap dst args (Frozen h s) n n') : Inst h s'.heap dst args (Frozen h s') n n' :=
  hi.mono (fun k hk => P.frame k (fun h => hx k h hk) hk.1 (Or.inl hk)) (fun k hk => P.frozen hk)

theorem inlineInputs_done {f : St F → ℕ → Option (St F × ℕ)} {K : ℕ} (hf : Rec h dst args rank root f K) {n : ℕ} {o : Op F}
    {ins : List ℕ} (hn : h[n]? = some ⟨o, ins⟩) (hb : Below h root n) (ho : o ≠ .var) (hK : rank n ≤ K)
    (hin : ∀ m ∈ ins, m < h.length ∧ rank m < rank n) :
    ∀ (ops dn0 dn : List ℕ) (s : St F), ins = dn0 ++ ops → dn.length = dn0.length → OK h dst args rank root s (rank n) →
      (∀ c, (n, c) ∉ s.memo) → s.heap[n]? = some ⟨o, dn ++ ops⟩ →
      (∀ i x y : ℕ, dn0[i]? = some x → dn[i]? = some y → Inst h s.heap dst args (Frozen h s) x y) →
      ∃ s', inlineInputs f n dn.length ops s = some s' ∧ OK h dst args rank root s' (rank n) ∧
        Post h rank s s' (fun k => k = n) (rank n) ∧
        ∃ ins', s'.heap[n]? = some ⟨o, ins'⟩ ∧ ins'.length = ins.length ∧
          ∀ i x y : ℕ, ins[i]? = some x → ins'[i]? = some y → Inst h s'.heap dst args (Frozen h s') x y := by
  have hnl : n < h.length := (List.getElem?_eq_some_iff.1 hn).1
  intro ops
  induction ops with
  | nil =>
    intro dn0 dn s hi hl ok hno hg hd
    simp only [List.append_nil] at hi hg
    subst hi
    exact ⟨s, rfl, ok, .refl _ _ _, dn, hg, hl, hd⟩
  | cons x ops ih =>
    intro dn0 dn s hi hl ok hno hg hd
    have hx : x ∈ ins := by rw [hi]; simp
    obtain ⟨x1, x2⟩ := hin x hx
    obtain ⟨s1, m, e1, ok1, P1, I1⟩ := hf s (rank n) x ok x1 x2 (by omega) (.step hb hn hx)
    have P1 := P1.weaken (ex' := fun _ => False) (b' := rank n) (fun _ h => h) (by omega)
    have hno1 : ∀ c, (n, c) ∉ s1.memo := by
      intro c hc
      rcases P1.keys n c hc with h1 | h1
      · exact hno c h1
      · omega
    have hg1 : s1.heap[n]? = some ⟨o, dn ++ x :: ops⟩ := by
      rw [P1.frame n (fun h => h) (by have := ok.len; omega) (Or.inr le_rfl)]; exact hg
    have hnf : ¬ Frozen h s1 n := by
      rintro ⟨-, ⟨c, hc⟩ | hc⟩
      · exact hno1 c hc
      · omega
    set s2 : St F := { s1 with heap := setInput s1.heap n dn.length m } with hs2
    have hlen2 : s2.heap.length = s1.heap.length := setInput_length _ _ _ _
    have hfz : ∀ k, Frozen h s1 k → Frozen h s2 k := fun k hk => ⟨by rw [hlen2]; exact hk.1, hk.2⟩
    have hfr : ∀ k, k ≠ n → s2.heap[k]? = s1.heap[k]? := fun k hk => setInput_ne _ _ hk
    have hmono : ∀ {a c}, Inst h s1.heap dst args (Frozen h s1) a c → Inst h s2.heap dst args (Frozen h s2) a c := fun hi =>
      hi.mono (fun k hk => hfr k (fun e => hnf (e ▸ hk))) hfz
    have P2 : Post h rank s1 s2 (fun k => k = n) (rank n) :=
      ⟨hlen2.ge, fun _ h => h, fun _ _ h => Or.inl h, fun k hk _ _ => hfr k hk⟩
    have ok2 : OK h dst args rank root s2 (rank n) := by
      refine ⟨by rw [hlen2]; exact ok1.len, fun a c hc => ⟨(ok1.memo a c hc).1, hmono (ok1.memo a c hc).2⟩, fun k hk hr hc => ?_,
        fun k hk hne => ?_⟩
      · rw [hfr k (by rintro rfl; omega)]; exact ok1.fresh k hk hr hc
      · rcases eq_or_ne k n with rfl | hkn
        · exact ⟨hb, fun nd hnd => by rw [hn] at hnd; cases hnd; exact ho⟩
        · rw [hfr k hkn] at hne; exact ok1.changed k hk hne
    have hg2 : s2.heap[n]? = some ⟨o, (dn ++ [m]) ++ ops⟩ := by
      have := setInput_self hg1 dn.length m
      simpa [hs2] using this
    obtain ⟨s3, e3, ok3, P3, ins', h3⟩ := ih (dn0 ++ [x]) (dn ++ [m]) s2 (by simp [hi]) (by simp [hl]) ok2 hno1 hg2 (by
      intro i a c ha hc
      by_cases hi : i < dn0.length
      · rw [List.getElem?_append_left hi] at ha
        rw [List.getElem?_append_left (by omega)] at hc
        exact hmono (P1.inst (fun _ h => h.elim) (hd i a c ha hc))
      · have hi' : dn0.length ≤ i := by omega
        rw [List.getElem?_append_right hi'] at ha
        rw [List.getElem?_append_right (by omega), hl] at hc
        have : i - dn0.length = 0 := by
          by_contra hne
          rw [List.getElem?_eq_none (by simp; omega)] at ha
          cases ha
        rw [this] at ha hc
        simp only [List.getElem?_cons_zero, Option.some.injEq] at ha hc
        subst ha hc
        exact hmono I1)
    refine ⟨s3, ?_, ok3, ((P1.weaken (fun _ h => h.elim) le_rfl).trans P2).trans P3, ins', h3⟩
    rw [inlineInputs, e1]
    simpa using e3

theorem recursiveInline_done (hr : ∀ n nd, h[n]? = some nd → (∀ m ∈ nd.ins, m < h.length ∧ rank m < rank n) ∧
    (nd.op = .ret → nd.ins.length = 1)) : ∀ fuel, Rec h dst args rank root (recursiveInline dst args fuel) fuel := by
  intro fuel
  induction fuel with
  | zero => intro s b n _ _ _ h; omega
  | succ fuel ih =>
    intro s b n ok hn hb hfu hbel
    have hlen := ok.len
    rw [recursiveInline]
    cases hlk : s.memo.lookup n with
    | some m =>
      exact ⟨s, m, rfl, ok, .refl _ _ _, (ok.memo n m (lookup_mem hlk)).2⟩
    | none =>
      have hno := lookup_none hlk
      have hgs := ok.fresh n hn hb hno
      have hnfz : ¬ Frozen h s n := by
        rintro ⟨-, ⟨c, hc⟩ | hc⟩
        · exact hno c hc
        · omega
      -- recording an entry
      have record : ∀ (s1 : St F) (c : ℕ), OK h dst args rank root s1 (rank n) → Post h rank s s1 (fun k => k = n) (rank n) →
          (∀ Fz, (∀ k, Frozen h s1 k → Fz k) → Fz n → Inst h s1.heap dst args Fz n c) →
          OK h dst args rank root { s1 with memo := (n, c) :: s1.memo } b ∧
          Post h rank s { s1 with memo := (n, c) :: s1.memo } (fun _ => False) (rank n + 1) ∧
          Inst h s1.heap dst args (Frozen h { s1 with memo := (n, c) :: s1.memo }) n c := by
        intro s1 c ok1 P1 hinst
        have hl1 := ok1.len
        have hfz : ∀ k, Frozen h s1 k → Frozen h { s1 with memo := (n, c) :: s1.memo } k := fun k hk =>
          ⟨hk.1, hk.2.imp (fun ⟨q, hq⟩ => ⟨q, List.mem_cons_of_mem _ hq⟩) id⟩
        have hin := hinst (Frozen h { s1 with memo := (n, c) :: s1.memo }) hfz
          ⟨by show n < s1.heap.length; omega, Or.inl ⟨c, List.mem_cons_self⟩⟩
        refine ⟨⟨hl1, fun a q hq => ?_, fun k hk hrk hq => ?_, ok1.changed⟩,
          ⟨P1.len, fun x hx => List.mem_cons_of_mem _ (P1.sub x hx), fun a q hq => ?_, fun k _ hk hfr => ?_⟩, hin⟩
        · rcases List.mem_cons.1 hq with h1 | h1
          · obtain ⟨rfl, rfl⟩ := Prod.mk.inj h1; exact ⟨hn, hin⟩
          · exact ⟨(ok1.memo a q h1).1, (ok1.memo a q h1).2.mono (fun _ _ => rfl) hfz⟩
        · have hkn : k ≠ n := by rintro rfl; exact hq c List.mem_cons_self
          have hq1 : ∀ q, (k, q) ∉ s1.memo := fun q h => hq q (List.mem_cons_of_mem _ h)
          by_cases hlt : rank k < rank n
          · exact ok1.fresh k hk hlt hq1
          · show s1.heap[k]? = _
            rw [P1.frame k hkn (by omega) (Or.inr (by omega))]
            exact ok.fresh k hk hrk fun q h => hq1 q (P1.sub _ h)
        · rcases List.mem_cons.1 hq with h1 | h1
          · obtain ⟨rfl, rfl⟩ := Prod.mk.inj h1; exact Or.inr (Nat.lt_succ_self _)
          · exact (P1.keys a q h1).imp id (by omega)
        · have hkn : k ≠ n := by
            rintro rfl
            rcases hfr with h1 | h1
            · exact hnfz h1
            · omega
          exact P1.frame k hkn hk (hfr.imp id (by omega))
      have ok' : OK h dst args rank root s (rank n) :=
        ⟨ok.len, ok.memo, fun k hk hrk hc => ok.fresh k hk (by omega) hc, ok.changed⟩
      cases hal : args.lookup n with
      | some a =>
        obtain ⟨q1, q2, q3⟩ := record s a ok' (.refl _ _ _) (fun _ _ _ => .param n a hal)
        exact ⟨_, a, rfl, q1, q2, q3⟩
      | none =>
        have hg : h[n]? = some h[n] := List.getElem?_eq_getElem hn
        rw [hgs, hg]
        obtain ⟨r1, r2⟩ := hr n _ hg
        generalize h[n] = nd at hg r1 r2
        obtain ⟨o, ins⟩ := nd
        have general : o ≠ .ret → o ≠ .var → ∃ s' n', (match inlineInputs (recursiveInline dst args fuel) n 0 ins s with
            | none => none
            | some s1 => some (({ s1 with memo := (n, n) :: s1.memo } : St F), n)) = some (s', n') ∧
            OK h dst args rank root s' b ∧ Post h rank s s' (fun _ => False) (rank n + 1) ∧
            Inst h s'.heap dst args (Frozen h s') n n' := by
          intro h1 h2
          obtain ⟨s1, e1, ok1, P1, ins', g1, g2, g3⟩ := inlineInputs_done ih hg hbel h2 (by omega) r1 ins [] [] s rfl rfl ok' hno
            (by rw [hgs]; exact hg) (by simp)
          simp only [List.length_nil] at e1
          rw [e1]
          obtain ⟨q1, q2, q3⟩ := record s1 n ok1 P1 (fun Fz hf hz => .op n o ins ins' hal hg h1 h2 g2
            (fun i x y hx hy => (g3 i x y hx hy).mono (fun _ _ => rfl) hf) g1 hz)
          exact ⟨_, n, rfl, q1, q2, q3⟩
        cases o with
        | var =>
          obtain ⟨q1, q2, q3⟩ := record s n ok' (.refl _ _ _) (fun Fz hf hz => .var n ins hal hg (by rw [hgs]; exact hg) hz)
          exact ⟨_, n, rfl, q1, q2, q3⟩
        | ret =>
          obtain ⟨a, rfl⟩ := List.length_eq_one_iff.1 (r2 rfl)
          obtain ⟨a1, a2⟩ := r1 a (by simp)
          obtain ⟨s1, v, e1, ok1, P1, I1⟩ := ih s b a ok a1 (by omega) (by omega) (.step hbel hg (by simp))
          simp only [e1]
          by_cases hv : v = dst
          · rw [if_pos hv]
            exact ⟨s1, v, rfl, ok1, P1.weaken (fun _ h => h) (by omega), by rw [hv] at I1 ⊢; exact .retDst n a hal hg I1⟩
          · rw [if_neg hv]
            have hl1 := ok1.len
            set s2 : St F := { s1 with heap := s1.heap ++ [⟨.assign, [dst, v]⟩] } with hs2
            have hlen2 : s2.heap.length = s1.heap.length + 1 := by simp [hs2]
            have hfr : ∀ k, k < s1.heap.length → s2.heap[k]? = s1.heap[k]? := fun k hk => List.getElem?_append_left hk
            have hfz : ∀ k, Frozen h s1 k → Frozen h s2 k := fun k hk => ⟨by rw [hlen2]; have := hk.1; omega, hk.2⟩
            have hmono : ∀ {a c}, Inst h s1.heap dst args (Frozen h s1) a c → Inst h s2.heap dst args (Frozen h s2) a c := fun hi =>
              hi.mono (fun k hk => hfr k hk.1) hfz
            have ok2 : OK h dst args rank root s2 (rank n) :=
              ⟨by omega, fun a c hc => ⟨(ok1.memo a c hc).1, hmono (ok1.memo a c hc).2⟩,
                fun k hk hrk hc => by rw [hfr k (by omega)]; exact ok1.fresh k hk (by omega) hc,
                fun k hk hne => by rw [hfr k (by omega)] at hne; exact ok1.changed k hk hne⟩
            have P2 : Post h rank s1 s2 (fun k => k = n) (rank n) :=
              ⟨by omega, fun _ h => h, fun _ _ h => Or.inl h, fun k _ hk _ => hfr k hk⟩
            obtain ⟨q1, q2, q3⟩ := record s2 s1.heap.length ok2 ((P1.weaken (fun _ h => h.elim) (by omega)).trans P2)
              (fun Fz hf hz => .retNew n a v s1.heap.length hal hg ((hmono I1).mono (fun _ _ => rfl) hf) (by simp [hs2])
                (hf _ ⟨by omega, Or.inr hl1⟩))
            exact ⟨_, _, rfl, q1, q2, q3⟩
        | fn f => exact general (by simp) (by simp)
        | assign => exact general (by simp) (by simp)
        | seq => exact general (by simp) (by simp)
        | ite => exact general (by simp) (by simp)
        | loop => exact general (by simp) (by simp)

/-! ## Fuel -/

theorem inlineInputs_mono {f g : St F → ℕ → Option (St F × ℕ)} (hfg : ∀ s n r, f s n = some r → g s n = some r) (n : ℕ) :
    ∀ (ops : List ℕ) (idx : ℕ) (s s' : St F), inlineInputs f n idx ops s = some s' → inlineInputs g n idx ops s = some s' := by
  intro ops
  induction ops with
  | nil => intro idx s s' hs; exact hs
  | cons o ops ih =>
    intro idx s s' hs
    rw [inlineInputs] at hs ⊢
    cases hf : f s o with
    | none => rw [hf] at hs; cases hs
    | some r => rw [hf] at hs; rw [hfg _ _ _ hf]; exact ih _ _ _ hs

theorem recursiveInline_mono1 : ∀ (fuel : ℕ) (s : St F) (n : ℕ) (r : St F × ℕ), recursiveInline dst args fuel s n = some r →
    recursiveInline dst args (fuel + 1) s n = some r := by
  intro fuel
  induction fuel with
  | zero => intro s n r h; cases h
  | succ fuel ih =>
    intro s n r hs
    rw [recursiveInline] at hs ⊢
    cases hlk : s.memo.lookup n with
    | some m => rw [hlk] at hs; exact hs
    | none =>
      rw [hlk] at hs
      cases hal : args.lookup n with
      | some a => rw [hal] at hs; exact hs
      | none =>
        rw [hal] at hs
        have general : ∀ ins, (match inlineInputs (recursiveInline dst args fuel) n 0 ins s with
            | none => none
            | some s1 => some (({ s1 with memo := (n, n) :: s1.memo } : St F), n)) = some r →
            (match inlineInputs (recursiveInline dst args (fuel + 1)) n 0 ins s with
            | none => none
            | some s1 => some (({ s1 with memo := (n, n) :: s1.memo } : St F), n)) = some r := by
          intro ins hs
          cases hc : inlineInputs (recursiveInline dst args fuel) n 0 ins s with
          | none => rw [hc] at hs; cases hs
          | some s1 => rw [hc] at hs; rw [inlineInputs_mono ih n _ _ _ _ hc]; exact hs
        cases hg : s.heap[n]? with
        | none => rw [hg] at hs; cases hs
        | some nd =>
          rw [hg] at hs
          obtain ⟨o, ins⟩ := nd
          cases o with
          | var => exact hs
          | ret =>
            cases ins with
            | nil => cases hs
            | cons a rest =>
              simp only at hs ⊢
              cases hc : recursiveInline dst args fuel s a with
              | none => rw [hc] at hs; cases hs
              | some q => rw [hc] at hs; rw [ih _ _ _ hc]; exact hs
          | fn f => exact general _ hs
          | assign => exact general _ hs
          | seq => exact general _ hs
          | ite => exact general _ hs
          | loop => exact general _ hs

theorem recursiveInline_mono {fuel fuel' : ℕ} (hle : fuel ≤ fuel') {s : St F} {n : ℕ} {r : St F × ℕ}
    (hs : recursiveInline dst args fuel s n = some r) : recursiveInline dst args fuel' s n = some r := by
  induction hle with
  | refl => exact hs
  | step _ ih => exact recursiveInline_mono1 _ _ _ _ ih

/-! ## Semantics -/

/-- the store `σ` of the function and the store `τ` around the call -/
structure Rel (S : Sem F V) (g : Heap (Op F)) (args : List (ℕ × ℕ)) (σ τ : ℕ → V) : Prop where
  same : ∀ x, args.lookup x = none → σ x = τ x
  arg : ∀ p a, args.lookup p = some a → EvalE S g τ a (σ p)

variable {S : Sem F V} {g : Heap (Op F)} {Fz : ℕ → Prop}

theorem EvalE.inst {σ τ : ℕ → V} (hR : Rel S g args σ τ) (hvar : ∀ p a, args.lookup p = some a → ∃ ins, h[p]? = some ⟨.var, ins⟩)
    {n : ℕ} {v : V} (he : EvalE S h σ n v) : ∀ {n'}, Inst h g dst args Fz n n' → EvalE S g τ n' v := by
  induction he with
  | var n ins hn =>
    intro n' hi
    cases hi with
    | param _ _ hl => exact hR.arg _ _ hl
    | var _ ins' hl _ hg _ => rw [hR.same n hl]; exact .var n ins' hg
    | retNew _ _ _ _ _ hn' => rw [hn] at hn'; cases hn'
    | retDst _ _ _ hn' => rw [hn] at hn'; cases hn'
    | op _ o _ _ _ hn' _ h2 => rw [hn] at hn'; cases hn'; exact absurd rfl h2
  | fn n f ins vs hn hl hv ih =>
    intro n' hi
    cases hi with
    | param _ _ hl => obtain ⟨_, h1⟩ := hvar _ _ hl; rw [hn] at h1; cases h1
    | var _ ins' hl hn' => rw [hn] at hn'; cases hn'
    | retNew _ _ _ _ _ hn' => rw [hn] at hn'; cases hn'
    | retDst _ _ _ hn' => rw [hn] at hn'; cases hn'
    | op _ o ins0 ins' _ hn' _ _ hlen hin hg _ =>
      rw [hn] at hn'
      cases hn'
      refine .fn n f ins' vs hg (by omega) ?_
      intro i m w hm hw
      have hlt : i < ins.length := by have := (List.getElem?_eq_some_iff.1 hm).1; omega
      exact ih i _ _ (List.getElem?_eq_getElem hlt) hw (hin i _ _ (List.getElem?_eq_getElem hlt) hm)

/-- code below `root` without return -/
def NR (h : Heap (Op F)) (root : ℕ) : Code → Prop
  | .stm n => Below h root n ∧ NoReturn h n
  | .blk ns => ∀ n ∈ ns, Below h root n ∧ NoReturn h n
  | .whl c b => (Below h root c ∧ NoReturn h c) ∧ Below h root b ∧ NoReturn h b

def InstC (h g : Heap (Op F)) (dst : ℕ) (args : List (ℕ × ℕ)) (Fz : ℕ → Prop) : Code → Code → Prop
  | .stm n, .stm n' => Inst h g dst args Fz n n'
  | .blk ns, .blk ns' => ns'.length = ns.length ∧ ∀ i x y : ℕ, ns[i]? = some x → ns'[i]? = some y → Inst h g dst args Fz x y
  | .whl c b, .whl c' b' => Inst h g dst args Fz c c' ∧ Inst h g dst args Fz b b'
  | _, _ => False

theorem NoReturn.sub {n m : ℕ} {nd : Node (Op F)} (hn : h[n]? = some nd) (hm : m ∈ nd.ins) (hr : NoReturn h n) : NoReturn h m := by
  have key : ∀ k, Below h m k → Below h n k := by
    intro k hk
    induction hk with
    | refl => exact .step .refl hn hm
    | step _ hg hk ih => exact .step ih hg hk
  exact fun k nd hk => hr k nd (key k hk)

/-- assignments of the scheme do not interfere with the arguments -/
def Apart (h g : Heap (Op F)) (args : List (ℕ × ℕ)) (root : ℕ) : Prop :=
  ∀ k x a, Below h root k → h[k]? = some ⟨.assign, [x, a]⟩ → args.lookup x = none ∧ ∀ p b, args.lookup p = some b → ¬ Below g b x

theorem EvalE.congr {σ σ' : ℕ → V} {n : ℕ} {v : V} (he : EvalE S g σ n v) (hs : ∀ x, Below g n x → σ' x = σ x) : EvalE S g σ' n v := by
  induction he with
  | var n ins hn => rw [← hs n .refl]; exact .var n ins hn
  | fn n f ins vs hn hl _ ih =>
    refine .fn n f ins vs hn hl fun i m w hm hw => ih i m w hm hw fun x hx => hs x ?_
    have key : ∀ k, Below g m k → Below g n k := by
      intro k hk
      induction hk with
      | refl => exact .step .refl hn (List.mem_of_getElem? hm)
      | step _ hg hk ih => exact .step ih hg hk
    exact key x hx

theorem EvalE.stm {σ : ℕ → V} {n : ℕ} {v : V} (he : EvalE S g σ n v) : Exec S g σ (.stm n) (σ, none) := by
  cases he with
  | var _ ins hg => exact .exprVar σ n ins hg
  | fn _ f ins vs hg => exact .exprFn σ n f ins hg

theorem Inst.opNode (hvar : ∀ p a, args.lookup p = some a → ∃ ins, h[p]? = some ⟨.var, ins⟩) {n n' : ℕ} {o : Op F} {ins : List ℕ}
    (hn : h[n]? = some ⟨o, ins⟩) (h1 : o ≠ .ret) (h2 : o ≠ .var) (hi : Inst h g dst args Fz n n') :
    n' = n ∧ ∃ ins', g[n]? = some ⟨o, ins'⟩ ∧ ins'.length = ins.length ∧
      ∀ i x y : ℕ, ins[i]? = some x → ins'[i]? = some y → Inst h g dst args Fz x y := by
  cases hi with
  | param _ _ hl => obtain ⟨_, h3⟩ := hvar _ _ hl; rw [hn] at h3; cases h3; exact absurd rfl h2
  | var _ ins' hl hn' => rw [hn] at hn'; cases hn'; exact absurd rfl h2
  | retNew _ _ _ _ _ hn' => rw [hn] at hn'; cases hn'; exact absurd rfl h1
  | retDst _ _ _ hn' => rw [hn] at hn'; cases hn'; exact absurd rfl h1
  | op _ o ins0 ins' _ hn' _ _ hlen hin hg _ =>
    rw [hn] at hn'
    cases hn'
    exact ⟨rfl, ins', hg, hlen, hin⟩

theorem exec_inst (hvar : ∀ p a, args.lookup p = some a → ∃ ins, h[p]? = some ⟨.var, ins⟩) (hap : Apart h g args root)
    {σ : ℕ → V} {c : Code} {o : (ℕ → V) × Option V} (he : Exec S h σ c o) : NR h root c →
    ∀ {c'} {τ : ℕ → V}, InstC h g dst args Fz c c' → Rel S g args σ τ →
      o.2 = none ∧ ∃ τ', Exec S g τ c' (τ', none) ∧ Rel S g args o.1 τ' := by
  induction he with
  | exprVar σ n ins hn =>
    rintro _ (n' | _ | _) τ hi hR <;> try exact hi.elim
    exact ⟨rfl, τ, (EvalE.inst hR hvar (.var n ins hn) (n' := n') hi).stm, hR⟩
  | exprFn σ n f ins hn =>
    rintro _ (n' | _ | _) τ hi hR <;> try exact hi.elim
    obtain ⟨rfl, ins', hg, -⟩ := Inst.opNode hvar hn (by simp) (by simp) hi
    exact ⟨rfl, τ, .exprFn τ n' f ins' hg, hR⟩
  | ret σ n a v hn he =>
    intro hnr
    exact absurd rfl (hnr.2 n _ .refl hn)
  | assign σ n x a v ins hn hx hev =>
    rintro hnr (n' | _ | _) τ hi hR <;> try exact hi.elim
    obtain ⟨rfl, ins', hg, hlen, hin⟩ := Inst.opNode hvar hn (by simp) (by simp) hi
    obtain ⟨x', a', rfl⟩ := List.length_eq_two.1 (show ins'.length = 2 from hlen)
    obtain ⟨p1, p2⟩ := hap n' x a hnr.1 hn
    have ix := hin 0 x x' rfl rfl
    have ia := hin 1 a a' rfl rfl
    have hxx : x' = x ∧ ∃ ins, g[x]? = some ⟨.var, ins⟩ := by
      cases ix with
      | param _ _ hl => rw [p1] at hl; cases hl
      | var _ ins2 hl2 hn2 hg2 hz2 => exact ⟨rfl, _, hg2⟩
      | retNew _ _ _ _ _ hn' => rw [hx] at hn'; cases hn'
      | retDst _ _ _ hn' => rw [hx] at hn'; cases hn'
      | op _ o _ _ _ hn' _ h2 => rw [hx] at hn'; cases hn'; exact absurd rfl h2
    obtain ⟨rfl, insx, hgx⟩ := hxx
    have hv := EvalE.inst hR hvar hev ia
    refine ⟨rfl, Function.update τ x' v, .assign τ n' x' a' v insx hg hgx hv, ⟨fun y hy => ?_, fun p b hpb => ?_⟩⟩
    · rcases eq_or_ne y x' with rfl | hne
      · simp
      · simp [hne, hR.same y hy]
    · have hne : p ≠ x' := by rintro rfl; rw [p1] at hpb; cases hpb
      have hp : (Function.update σ x' v) p = σ p := by simp [hne]
      rw [show (Function.update σ x' v, (none : Option V)).1 p = σ p from hp]
      refine (hR.arg p b hpb).congr fun y hy => ?_
      have : y ≠ x' := by rintro rfl; exact p2 p b hpb hy
      simp [this]
  | seq σ n ms o hn _ ih =>
    rintro hnr (n' | _ | _) τ hi hR <;> try exact hi.elim
    obtain ⟨rfl, ins', hg, hlen, hin⟩ := Inst.opNode hvar hn (by simp) (by simp) hi
    obtain ⟨h1, τ', h2, h3⟩ := ih (fun m hm => ⟨.step hnr.1 hn hm, hnr.2.sub hn hm⟩) (c' := .blk ins') ⟨hlen, hin⟩ hR
    exact ⟨h1, τ', .seq τ n' ins' _ hg h2, h3⟩
  | nil σ =>
    rintro hnr (_ | ns' | _) τ hi hR <;> try exact hi.elim
    obtain ⟨hl, -⟩ := hi
    obtain rfl := List.length_eq_zero_iff.1 hl
    exact ⟨rfl, τ, .nil τ, hR⟩
  | cons σ σ1 m ms o _ _ ih1 ih2 =>
    rintro hnr (_ | ns' | _) τ hi hR <;> try exact hi.elim
    obtain ⟨hl, hin⟩ := hi
    cases ns' with
    | nil => simp at hl
    | cons m' ms' =>
      obtain ⟨-, τ1, h1, R1⟩ := ih1 (hnr m List.mem_cons_self) (c' := .stm m') (hin 0 m m' rfl rfl) hR
      obtain ⟨h2, τ2, h3, R2⟩ := ih2 (fun x hx => hnr x (List.mem_cons_of_mem _ hx)) (c' := .blk ms')
        ⟨by simpa using hl, fun i x y hx hy => hin (i + 1) x y (by simpa using hx) (by simpa using hy)⟩ R1
      exact ⟨h2, τ2, .cons τ τ1 m' ms' _ h1 h3, R2⟩
  | consRet σ σ1 m ms v _ ih =>
    rintro hnr (_ | ns' | _) τ hi hR <;> try exact hi.elim
    obtain ⟨hl, hin⟩ := hi
    cases ns' with
    | nil => simp at hl
    | cons m' ms' =>
      obtain ⟨h1, -⟩ := ih (hnr m List.mem_cons_self) (c' := .stm m') (hin 0 m m' rfl rfl) hR
      cases h1
  | iteThen σ n c t es v o hn hc ht _ ih =>
    rintro hnr (n' | _ | _) τ hi hR <;> try exact hi.elim
    obtain ⟨rfl, ins', hg, hlen, hin⟩ := Inst.opNode hvar hn (by simp) (by simp) hi
    match ins', hlen with
    | c' :: t' :: es', _ =>
      obtain ⟨h1, τ', h2, h3⟩ := ih ⟨.step hnr.1 hn (by simp), hnr.2.sub hn (by simp)⟩ (c' := .stm t') (hin 1 t t' rfl rfl) hR
      exact ⟨h1, τ', .iteThen τ n' c' t' es' v _ hg (EvalE.inst hR hvar hc (hin 0 c c' rfl rfl)) ht h2, h3⟩
  | iteElse σ n c t e v o hn hc ht _ ih =>
    rintro hnr (n' | _ | _) τ hi hR <;> try exact hi.elim
    obtain ⟨rfl, ins', hg, hlen, hin⟩ := Inst.opNode hvar hn (by simp) (by simp) hi
    obtain ⟨c', t', e', rfl⟩ := List.length_eq_three.1 (show ins'.length = 3 from hlen)
    obtain ⟨h1, τ', h2, h3⟩ := ih ⟨.step hnr.1 hn (by simp), hnr.2.sub hn (by simp)⟩ (c' := .stm e') (hin 2 e e' rfl rfl) hR
    exact ⟨h1, τ', .iteElse τ n' c' t' e' v _ hg (EvalE.inst hR hvar hc (hin 0 c c' rfl rfl)) ht h2, h3⟩
  | iteSkip σ n c t v hn hc ht =>
    rintro hnr (n' | _ | _) τ hi hR <;> try exact hi.elim
    obtain ⟨rfl, ins', hg, hlen, hin⟩ := Inst.opNode hvar hn (by simp) (by simp) hi
    obtain ⟨c', t', rfl⟩ := List.length_eq_two.1 (show ins'.length = 2 from hlen)
    exact ⟨rfl, τ, .iteSkip τ n' c' t' v hg (EvalE.inst hR hvar hc (hin 0 c c' rfl rfl)) ht, hR⟩
  | loop σ σ1 n i c b o hn _ _ ih1 ih2 =>
    rintro hnr (n' | _ | _) τ hi hR <;> try exact hi.elim
    obtain ⟨rfl, ins', hg, hlen, hin⟩ := Inst.opNode hvar hn (by simp) (by simp) hi
    obtain ⟨i', c', b', rfl⟩ := List.length_eq_three.1 (show ins'.length = 3 from hlen)
    obtain ⟨-, τ1, h1, R1⟩ := ih1 ⟨.step hnr.1 hn (by simp), hnr.2.sub hn (by simp)⟩ (c' := .stm i') (hin 0 i i' rfl rfl) hR
    obtain ⟨h2, τ2, h3, R2⟩ := ih2 ⟨⟨.step hnr.1 hn (by simp), hnr.2.sub hn (by simp)⟩, .step hnr.1 hn (by simp),
      hnr.2.sub hn (by simp)⟩ (c' := .whl c' b') ⟨hin 1 c c' rfl rfl, hin 2 b b' rfl rfl⟩ R1
    exact ⟨h2, τ2, .loop τ τ1 n' i' c' b' _ hg h1 h3, R2⟩
  | whlDone σ c b v hc ht =>
    rintro hnr (_ | _ | ⟨c', b'⟩) τ hi hR <;> try exact hi.elim
    exact ⟨rfl, τ, .whlDone τ c' b' v (EvalE.inst hR hvar hc hi.1) ht, hR⟩
  | whlStep σ σ1 c b v o hc ht _ _ ih1 ih2 =>
    rintro hnr (_ | _ | ⟨c', b'⟩) τ hi hR <;> try exact hi.elim
    obtain ⟨-, τ1, h1, R1⟩ := ih1 hnr.2 (c' := .stm b') hi.2 hR
    obtain ⟨h2, τ2, h3, R2⟩ := ih2 hnr (c' := .whl c' b') hi R1
    exact ⟨h2, τ2, .whlStep τ τ1 c' b' v _ (EvalE.inst hR hvar hc hi.1) ht h1 h3, R2⟩
  | whlRet σ σ1 c b v w hc ht _ ih =>
    rintro hnr (_ | _ | ⟨c', b'⟩) τ hi hR <;> try exact hi.elim
    obtain ⟨h1, -⟩ := ih hnr.2 (c' := .stm b') hi.2 hR
    cases h1

/-- what is assigned: the destination gets the value, the other variables are as after the call -/
def Result (args : List (ℕ × ℕ)) (dst : ℕ) (σ' τ' : ℕ → V) (v : V) : Prop :=
  τ' dst = v ∧ ∀ x, x ≠ dst → args.lookup x = none → τ' x = σ' x

theorem exec_last (hvar : ∀ p a, args.lookup p = some a → ∃ ins, h[p]? = some ⟨.var, ins⟩) (hap : Apart h g args root)
    (hdst : ∃ ins, g[dst]? = some ⟨.var, ins⟩) {n : ℕ} (hl : ReturnsLast h n) : Below h root n → ∀ {n' : ℕ} {σ τ σ' : ℕ → V} {v : V},
    Exec S h σ (.stm n) (σ', some v) → Inst h g dst args Fz n n' → Rel S g args σ τ →
      ∃ τ', Exec S g τ (.stm n') (τ', none) ∧ Result args dst σ' τ' v := by
  obtain ⟨insd, hgd⟩ := hdst
  induction hl with
  | ret n a hn =>
    intro hb n' σ τ σ' v he hi hR
    cases he with
    | ret _ _ _ _ hn' hev =>
      rw [hn] at hn'
      cases hn'
      cases hi with
      | param _ _ hl => obtain ⟨_, h1⟩ := hvar _ _ hl; rw [hn] at h1; cases h1
      | var _ _ _ hn' => rw [hn] at hn'; cases hn'
      | op _ o _ _ _ hn' h1 => rw [hn] at hn'; cases hn'; exact absurd rfl h1
      | retNew _ _ a' _ _ hn' ha hg _ =>
        rw [hn] at hn'
        cases hn'
        refine ⟨Function.update τ dst v, .assign τ n' dst a' v insd hg hgd (EvalE.inst hR hvar hev ha), by simp, fun x hx hl => ?_⟩
        simp [hx, hR.same x hl]
      | retDst _ _ _ hn' ha =>
        rw [hn] at hn'
        cases hn'
        have h1 := EvalE.inst hR hvar hev ha
        have h2 : v = τ dst := h1.unique (.var dst insd hgd)
        exact ⟨τ, h1.stm, h2.symm, fun x _ hl => (hR.same x hl).symm⟩
    | _ => simp_all
  | seq n pre last hn hpre hl ih =>
    intro hb n' σ τ σ' v he hi hR
    obtain ⟨rfl, ins', hg, hlen, hin⟩ := Inst.opNode hvar hn (by simp) (by simp) hi
    have key : ∀ (q : List ℕ) (q' : List ℕ) (σ τ : ℕ → V), (∀ m ∈ q, Below h root m ∧ NoReturn h m) → Below h root last →
        q'.length = (q ++ [last]).length →
        (∀ i x y : ℕ, (q ++ [last])[i]? = some x → q'[i]? = some y → Inst h g dst args Fz x y) →
        Exec S h σ (.blk (q ++ [last])) (σ', some v) → Rel S g args σ τ →
        ∃ τ', Exec S g τ (.blk q') (τ', none) ∧ Result args dst σ' τ' v := by
      intro q
      induction q with
      | nil =>
        intro q' σ τ _ hbl hql hqi he hR
        obtain ⟨l', rfl⟩ := List.length_eq_one_iff.1 (show q'.length = 1 from hql)
        simp only [List.nil_append] at he hqi
        cases he with
        | cons _ σ1 _ _ _ e1 e2 => cases e2
        | consRet _ _ _ _ _ e1 =>
          obtain ⟨τ', h1, h2⟩ := ih hbl e1 (hqi 0 last l' rfl rfl) hR
          exact ⟨τ', .cons τ τ' l' [] _ h1 (.nil τ'), h2⟩
      | cons m q ihq =>
        intro q' σ τ hq hbl hql hqi he hR
        cases q' with
        | nil => simp at hql
        | cons m' q' =>
          have hm := hq m List.mem_cons_self
          simp only [List.cons_append] at he
          cases he with
          | consRet _ _ _ _ _ e1 =>
            obtain ⟨h1, -⟩ := exec_inst hvar hap e1 hm (c' := .stm m') (hqi 0 m m' rfl rfl) hR
            cases h1
          | cons _ σ1 _ _ _ e1 e2 =>
            obtain ⟨-, τ1, h1, R1⟩ := exec_inst hvar hap e1 hm (c' := .stm m') (hqi 0 m m' rfl rfl) hR
            obtain ⟨τ', h2, h3⟩ := ihq q' σ1 τ1 (fun x hx => hq x (List.mem_cons_of_mem _ hx)) hbl (by simpa using hql)
              (fun i x y hx hy => hqi (i + 1) x y (by simpa using hx) (by simpa using hy)) e2 R1
            exact ⟨τ', .cons τ τ1 m' q' _ h1 h2, h3⟩
    cases he with
    | seq _ _ _ _ hn' e1 =>
      rw [hn] at hn'
      cases hn'
      obtain ⟨τ', h1, h2⟩ := key pre ins' σ τ (fun m hm => ⟨.step hb hn (by simp [hm]), hpre m hm⟩) (.step hb hn (by simp)) hlen hin e1 hR
      exact ⟨τ', .seq τ n' ins' _ hg h1, h2⟩
    | _ => simp_all
  | ite n c t e hn _ _ iht ihe =>
    intro hb n' σ τ σ' v he hi hR
    obtain ⟨rfl, ins', hg, hlen, hin⟩ := Inst.opNode hvar hn (by simp) (by simp) hi
    obtain ⟨c', t', e', rfl⟩ := List.length_eq_three.1 (show ins'.length = 3 from hlen)
    cases he with
    | iteThen _ _ _ _ _ w _ hn' hc ht e1 =>
      rw [hn] at hn'
      cases hn'
      obtain ⟨τ', h1, h2⟩ := iht (.step hb hn (by simp)) e1 (hin 1 t t' rfl rfl) hR
      exact ⟨τ', .iteThen τ n' c' t' [e'] w _ hg (EvalE.inst hR hvar hc (hin 0 c c' rfl rfl)) ht h1, h2⟩
    | iteElse _ _ _ _ _ w _ hn' hc ht e1 =>
      rw [hn] at hn'
      cases hn'
      obtain ⟨τ', h1, h2⟩ := ihe (.step hb hn (by simp)) e1 (hin 2 e e' rfl rfl) hR
      exact ⟨τ', .iteElse τ n' c' t' e' w _ hg (EvalE.inst hR hvar hc (hin 0 c c' rfl rfl)) ht h1, h2⟩
    | _ => simp_all

/-! ## C57 -/

/-- **C57**: inlining a scheme in which every path ends with a return and there is no other return.  The parameters are variables
that the scheme does not assign, the scheme shares with the arguments no node other than variables, and assigns no variable the
arguments read.  Then the inlined scheme, run in the store of the caller, assigns to the destination the value that the function
returns when its parameters hold the values of the arguments, and leaves every other variable as the function leaves it.  Missing:
schemes with early returns (`C57_early_return_wrong`). -/
theorem C57_inline_partial {h : Heap (Op F)} (hs : Scheme h) {scheme dst : ℕ} {args : List (ℕ × ℕ)} (hn : scheme < h.length)
    (hdst : ∃ ins, h[dst]? = some ⟨.var, ins⟩) (hvar : ∀ p a, args.lookup p = some a → ∃ ins, h[p]? = some ⟨.var, ins⟩)
    (hshare : ∀ p a k nd, args.lookup p = some a → Below h a k → Below h scheme k → h[k]? = some nd → nd.op = .var)
    (hassign : ∀ k x a, Below h scheme k → h[k]? = some ⟨.assign, [x, a]⟩ →
      args.lookup x = none ∧ ∀ p b, args.lookup p = some b → ¬ Below h b x)
    (hlast : ReturnsLast h scheme) :
    ∃ N g n', (∀ fuel, N ≤ fuel → inlineFunction fuel h scheme dst args = some (g, n')) ∧
      ∀ (S : Sem F V) (σ τ σ' : ℕ → V) (v : V), (∀ p a, args.lookup p = some a → EvalE S h τ a (σ p)) →
        (∀ x, args.lookup x = none → σ x = τ x) → Exec S h σ (.stm scheme) (σ', some v) →
        ∃ τ', Exec S g τ (.stm n') (τ', none) ∧ τ' dst = v ∧ ∀ x, x ≠ dst → args.lookup x = none → τ' x = σ' x := by
  obtain ⟨rank, hr⟩ := hs
  obtain ⟨s, n', he, ok, P, hi⟩ := recursiveInline_done (dst := dst) (args := args) (root := scheme) hr (rank scheme + 1) ⟨h, []⟩
    (rank scheme + 1) scheme ⟨le_rfl, (fun a c hh => nomatch hh), fun _ _ _ _ => rfl, fun k hk hne => absurd rfl hne⟩ hn
    (Nat.lt_succ_self _) (Nat.lt_succ_self _) .refl
  refine ⟨rank scheme + 1, s.heap, n', fun fuel hf => ?_, ?_⟩
  · unfold inlineFunction
    rw [recursiveInline_mono hf he]; rfl
  · have hdl : ∀ {k : ℕ} {nd : Node (Op F)}, h[k]? = some nd → k < h.length := fun hk => (List.getElem?_eq_some_iff.1 hk).1
    have hkeep : ∀ {k : ℕ} {ins : List ℕ}, h[k]? = some ⟨.var, ins⟩ → s.heap[k]? = some ⟨.var, ins⟩ := by
      intro k ins hk
      by_contra hne
      exact (ok.changed k (hdl hk) (by rw [hk]; exact hne)).2 _ hk rfl
    have hargs : ∀ p a, args.lookup p = some a → ∀ k nd, Below h a k → h[k]? = some nd → s.heap[k]? = some nd := by
      intro p a hp k nd hk hg
      by_contra hne
      obtain ⟨h1, h2⟩ := ok.changed k (hdl hg) (by rw [hg]; exact hne)
      exact h2 nd hg (hshare p a k nd hp hk h1 hg)
    have heval : ∀ {S : Sem F V} {τ : ℕ → V} {p a : ℕ}, args.lookup p = some a → ∀ {m w}, Below h a m → EvalE S h τ m w →
        EvalE S s.heap τ m w := by
      intro S τ p a hp m w hm hw
      induction hw with
      | var n ins hn => exact .var n ins (hkeep hn)
      | fn n f ins vs hn hl _ ih =>
        exact .fn n f ins vs (hargs p a hp n _ hm hn) hl fun i x y hx hy => ih i x y hx hy (.step hm hn (List.mem_of_getElem? hx))
    have hbelow : ∀ {p a : ℕ}, args.lookup p = some a → (∃ nd, h[a]? = some nd) → ∀ {k}, Below s.heap a k → Below h a k ∧
        ∃ nd, h[k]? = some nd := by
      intro p a hp ha k hk
      induction hk with
      | refl => exact ⟨.refl, ha⟩
      | step _ hg hk ih =>
        obtain ⟨i1, nd, i2⟩ := ih
        have := hargs p a hp _ nd i1 i2
        rw [hg] at this
        cases this
        refine ⟨.step i1 i2 hk, ?_⟩
        have := ((hr _ _ i2).1 _ hk).1
        exact ⟨_, List.getElem?_eq_getElem this⟩
    intro S σ τ σ' v hσ hsame hex
    have hap : Apart h s.heap args scheme := by
      intro k x a hk hg
      obtain ⟨h1, h2⟩ := hassign k x a hk hg
      refine ⟨h1, fun p b hp hb => h2 p b hp (hbelow hp ?_ hb).1⟩
      have hb' := hσ p b hp
      generalize σ p = w at hb'
      cases hb' with
      | var _ ins hn => exact ⟨_, hn⟩
      | fn _ f ins vs hn => exact ⟨_, hn⟩
    obtain ⟨insd, hd⟩ := hdst
    exact exec_last hvar hap ⟨insd, hkeep hd⟩ hlast .refl hex hi ⟨hsame, fun p a hp => heval hp .refl (hσ p a hp)⟩

/-! ## A scheme that meets the hypotheses, and a scheme with an early return -/

/-- expression operations of the examples -/
inductive Ex where
  | lt | neg | one | two | add
deriving DecidableEq, Repr

/-- integers; a condition holds when it is not zero -/
def exSem : Sem Ex ℤ where
  den
    | .lt, [a, b] => if a < b then 1 else 0
    | .neg, [a] => -a
    | .one, _ => 1
    | .two, _ => 2
    | .add, [a, b] => a + b
    | _, _ => 0
  truth v := v ≠ 0

/-- `f(x) = { t = x + 1; if (t < 1) return -t; else return t; }`, called with the argument `y + 2`; nodes: 0 `x`, 1 `t`, 2 `1`,
3 `x + 1`, 4 `t = x + 1`, 5 `t < 1`, 6 `-t`, 7 and 8 the returns, 9 the condition, 10 the body; 11 `y`, 12 `2`, 13 `y + 2`, 14 the
destination -/
def lastScheme : Heap (Op Ex) :=
  [⟨.var, []⟩, ⟨.var, []⟩, ⟨.fn .one, []⟩, ⟨.fn .add, [0, 2]⟩, ⟨.assign, [1, 3]⟩, ⟨.fn .lt, [1, 2]⟩, ⟨.fn .neg, [1]⟩, ⟨.ret, [6]⟩,
    ⟨.ret, [1]⟩, ⟨.ite, [5, 7, 8]⟩, ⟨.seq, [4, 9]⟩, ⟨.var, []⟩, ⟨.fn .two, []⟩, ⟨.fn .add, [11, 12]⟩, ⟨.var, []⟩]

/-- the inlined scheme: node 3 is now `(y + 2) + 1`, and the returns are the assignments 15 and 16 to the destination -/
example : inlineFunction 20 lastScheme 10 14 [(0, 13)] = some
    ([⟨.var, []⟩, ⟨.var, []⟩, ⟨.fn .one, []⟩, ⟨.fn .add, [13, 2]⟩, ⟨.assign, [1, 3]⟩, ⟨.fn .lt, [1, 2]⟩, ⟨.fn .neg, [1]⟩, ⟨.ret, [6]⟩,
      ⟨.ret, [1]⟩, ⟨.ite, [5, 15, 16]⟩, ⟨.seq, [4, 9]⟩, ⟨.var, []⟩, ⟨.fn .two, []⟩, ⟨.fn .add, [11, 12]⟩, ⟨.var, []⟩,
      ⟨.assign, [14, 6]⟩, ⟨.assign, [14, 1]⟩], 10) := by decide +kernel

/-- nodes reachable from a node, when inputs come first -/
theorem below_subset {h : Heap (Op F)} {n : ℕ} (R : List ℕ) (hn : n ∈ R)
    (hc : ∀ k ∈ R, ∀ m ∈ ((h[k]?).map Node.ins).getD [], m ∈ R) {k : ℕ} (hk : Below h n k) : k ∈ R := by
  induction hk with
  | refl => exact hn
  | step _ hg hm ih => exact hc _ ih _ (by rw [hg]; exact hm)

theorem lastScheme_scheme : Scheme lastScheme := by
  refine ⟨id, fun n nd hn => ?_⟩
  have hlt : n < 15 := (List.getElem?_eq_some_iff.1 hn).1
  interval_cases n <;>
    (simp only [lastScheme, List.getElem?_cons_zero, List.getElem?_cons_succ, Option.some.injEq] at hn
     subst hn
     simp [lastScheme])

/-- the hypotheses of `C57_inline_partial` are met by this scheme and this call -/
theorem lastScheme_inline : ∃ N g n', (∀ fuel, N ≤ fuel → inlineFunction fuel lastScheme 10 14 [(0, 13)] = some (g, n')) ∧
    ∀ (S : Sem Ex ℤ) (σ τ σ' : ℕ → ℤ) (v : ℤ), (∀ p a, [(0, 13)].lookup p = some a → EvalE S lastScheme τ a (σ p)) →
      (∀ x, [(0, 13)].lookup x = none → σ x = τ x) → Exec S lastScheme σ (.stm 10) (σ', some v) →
      ∃ τ', Exec S g τ (.stm n') (τ', none) ∧ τ' 14 = v ∧ ∀ x, x ≠ 14 → [(0, 13)].lookup x = none → τ' x = σ' x :=
  C57_inline_partial (V := ℤ) (h := lastScheme) lastScheme_scheme (scheme := 10) (dst := 14)
  (args := [(0, 13)]) (by decide) ⟨[], rfl⟩
  (by
    intro p a hp
    by_cases hp0 : p = 0
    · subst hp0; exact ⟨[], rfl⟩
    · simp [List.lookup_cons, beq_eq_false_iff_ne.2 hp0] at hp)
  (by
    intro p a k nd hp hk hs hg
    have ha : a = 13 := by
      by_cases hp0 : p = 0
      · subst hp0; simpa using hp.symm
      · simp [List.lookup_cons, beq_eq_false_iff_ne.2 hp0] at hp
    subst ha
    have h1 := below_subset [13, 11, 12] (by simp) (by decide) hk
    have h2 := below_subset [10, 4, 9, 1, 3, 0, 2, 5, 7, 8, 6] (by simp) (by decide) hs
    simp at h1 h2
    omega)
  (by
    intro k x a hk hg
    have h2 := below_subset [10, 4, 9, 1, 3, 0, 2, 5, 7, 8, 6] (by simp) (by decide) hk
    have hx : x = 1 := by
      simp only [List.mem_cons, List.not_mem_nil, or_false] at h2
      rcases h2 with rfl | rfl | rfl | rfl | rfl | rfl | rfl | rfl | rfl | rfl | rfl <;> simp [lastScheme] at hg
      exact hg.1.symm
    subst hx
    refine ⟨rfl, fun p b hp hb => ?_⟩
    have hb' : b = 13 := by
      by_cases hp0 : p = 0
      · subst hp0; simpa using hp.symm
      · simp [List.lookup_cons, beq_eq_false_iff_ne.2 hp0] at hp
    subst hb'
    have h1 := below_subset [13, 11, 12] (by simp) (by decide) hb
    simp at h1)
  (.seq 10 [4] 9 rfl (by
    intro m hm k nd hk hg
    simp at hm
    subst hm
    have h1 := below_subset [4, 1, 3, 0, 2] (by simp) (by decide) hk
    simp only [List.mem_cons, List.not_mem_nil, or_false] at h1
    rcases h1 with rfl | rfl | rfl | rfl | rfl <;> simp [lastScheme] at hg <;> subst hg <;> simp)
    (.ite 9 5 7 8 rfl (.ret 7 6 rfl) (.ret 8 1 rfl)))

theorem ev0 {g : Heap (Op F)} {σ : ℕ → V} {n : ℕ} {f : F} (hn : g[n]? = some ⟨.fn f, []⟩) : EvalE S g σ n (S.den f []) :=
  .fn n f [] [] hn rfl (fun i m v h => by simp at h)

theorem ev1 {g : Heap (Op F)} {σ : ℕ → V} {n a : ℕ} {f : F} {v : V} (hn : g[n]? = some ⟨.fn f, [a]⟩) (ha : EvalE S g σ a v) :
    EvalE S g σ n (S.den f [v]) :=
  .fn n f [a] [v] hn rfl (fun i m w hm hw => by
    rcases i with _ | i <;> simp at hm hw
    subst hm hw; exact ha)

theorem ev2 {g : Heap (Op F)} {σ : ℕ → V} {n a b : ℕ} {f : F} {v w : V} (hn : g[n]? = some ⟨.fn f, [a, b]⟩) (ha : EvalE S g σ a v)
    (hb : EvalE S g σ b w) : EvalE S g σ n (S.den f [v, w]) :=
  .fn n f [a, b] [v, w] hn rfl (fun i m u hm hu => by
    rcases i with _ | _ | i <;> simp at hm hu
    · subst hm hu; exact ha
    · subst hm hu; exact hb)

/-- the function is defined there: with `x = -3` it returns `-(x + 1) = 2` -/
example (σ : ℕ → ℤ) (h0 : σ 0 = -3) : ∃ σ', Exec exSem lastScheme σ (.stm 10) (σ', some 2) := by
  have e3 : EvalE exSem lastScheme σ 3 (-2) := by
    have := ev2 (S := exSem) (g := lastScheme) (σ := σ) (n := 3) rfl (.var 0 [] rfl) (ev0 (n := 2) rfl)
    rw [h0] at this
    exact this
  have hv : EvalE exSem lastScheme (Function.update σ 1 (-2)) 1 (-2) := .var (σ := Function.update σ 1 (-2)) 1 [] rfl
  refine ⟨Function.update σ 1 (-2), .seq σ 10 [4, 9] _ rfl (.cons σ (Function.update σ 1 (-2)) 4 [9] _ ?_ (.consRet _ _ 9 [] 2 ?_))⟩
  · exact .assign σ 4 1 3 (-2) [] rfl rfl e3
  · refine .iteThen _ 9 5 7 [8] 1 _ rfl ?_ (show (1 : ℤ) ≠ 0 by decide) (.ret _ 7 6 2 rfl ?_)
    · exact ev2 (S := exSem) (n := 5) rfl hv (ev0 (n := 2) rfl)
    · exact ev1 (S := exSem) (n := 6) rfl hv

/-- `f(x) = { if (x < 1) return 2; return 1; }`, called with the argument `y`; 0 `x`, 1 `1`, 2 `2`, 3 `x < 1`, 4 `return 2`, 5 the
condition, 6 `return 1`, 7 the body, 8 `y`, 9 the destination -/
def earlyScheme : Heap (Op Ex) :=
  [⟨.var, []⟩, ⟨.fn .one, []⟩, ⟨.fn .two, []⟩, ⟨.fn .lt, [0, 1]⟩, ⟨.ret, [2]⟩, ⟨.ite, [3, 4]⟩, ⟨.ret, [1]⟩, ⟨.seq, [5, 6]⟩,
    ⟨.var, []⟩, ⟨.var, []⟩]

/-- the inlined scheme -/
def earlyInlined : Heap (Op Ex) :=
  [⟨.var, []⟩, ⟨.fn .one, []⟩, ⟨.fn .two, []⟩, ⟨.fn .lt, [8, 1]⟩, ⟨.ret, [2]⟩, ⟨.ite, [3, 10]⟩, ⟨.ret, [1]⟩, ⟨.seq, [5, 11]⟩,
    ⟨.var, []⟩, ⟨.var, []⟩, ⟨.assign, [9, 2]⟩, ⟨.assign, [9, 1]⟩]

theorem inlineFunction_mono {fuel fuel' : ℕ} (hle : fuel ≤ fuel') {h : Heap (Op F)} {n : ℕ} {r : Heap (Op F) × ℕ}
    (hs : inlineFunction fuel h n dst args = some r) : inlineFunction fuel' h n dst args = some r := by
  unfold inlineFunction at hs ⊢
  cases hc : recursiveInline dst args fuel ⟨h, []⟩ n with
  | none => rw [hc] at hs; cases hs
  | some q => rw [hc] at hs; rw [recursiveInline_mono hle hc]; exact hs

/-- **C57** fails for a scheme with an early return: a function that returns 2 on a negative argument, whose inlined scheme has one
outcome, in which the destination is 1, because the execution goes on after the assignment that replaces the first return. -/
theorem C57_early_return_wrong : ∃ (h g : Heap (Op Ex)) (scheme dst x y n' : ℕ), Scheme h ∧
    (∀ fuel, 20 ≤ fuel → inlineFunction fuel h scheme dst [(x, y)] = some (g, n')) ∧
    ∀ σ τ : ℕ → ℤ, EvalE exSem h τ y (σ x) → σ x < 0 →
      Exec exSem h σ (.stm scheme) (σ, some 2) ∧ (∃ τ', Exec exSem g τ (.stm n') (τ', none)) ∧
      ∀ τ' o, Exec exSem g τ (.stm n') (τ', o) → τ' dst = 1 := by
  refine ⟨earlyScheme, earlyInlined, 7, 9, 0, 8, 7, ?_, fun fuel hf => inlineFunction_mono hf (by decide +kernel), ?_⟩
  · refine ⟨id, fun n nd hn => ?_⟩
    have hlt : n < 10 := (List.getElem?_eq_some_iff.1 hn).1
    interval_cases n <;>
      (simp only [earlyScheme, List.getElem?_cons_zero, List.getElem?_cons_succ, Option.some.injEq] at hn
       subst hn
       simp [earlyScheme])
  · intro σ τ hy hneg
    have hy8 : σ 0 = τ 8 := hy.unique (.var 8 [] rfl)
    have hg : ∃ τ', Exec exSem earlyInlined τ (.stm 7) (τ', none) ∧ τ' 9 = 1 := by
      refine ⟨Function.update (Function.update τ 9 2) 9 1, .seq τ 7 [5, 11] _ rfl (.cons τ (Function.update τ 9 2) 5 [11] _ ?_
        (.cons _ _ 11 [] _ (.assign _ 11 9 1 1 [] rfl rfl (ev0 (S := exSem) (f := .one) rfl)) (.nil _))), by simp⟩
      refine .iteThen τ 5 3 10 [] _ _ rfl (ev2 (S := exSem) rfl (.var 8 [] rfl) (ev0 (S := exSem) (n := 1) rfl)) ?_
        (.assign τ 10 9 2 2 [] rfl rfl (ev0 (S := exSem) (f := .two) rfl))
      show (if τ 8 < 1 then (1 : ℤ) else 0) ≠ 0
      rw [if_pos (by omega)]; decide
    refine ⟨.seq σ 7 [5, 6] _ rfl (.consRet σ σ 5 [6] 2 ?_), ⟨hg.choose, hg.choose_spec.1⟩, fun τ' o ho => ?_⟩
    · refine .iteThen σ 5 3 4 [] _ _ rfl (ev2 (S := exSem) rfl (.var 0 [] rfl) (ev0 (S := exSem) (n := 1) rfl)) ?_
        (.ret σ 4 2 2 rfl (ev0 (S := exSem) (f := .two) rfl))
      show (if σ 0 < 1 then (1 : ℤ) else 0) ≠ 0
      rw [if_pos (by omega)]; decide
    · obtain ⟨τ1, h1, h2⟩ := hg
      have := h1.unique ho
      rw [← (Prod.mk.inj this).1]; exact h2

end Verif.Rewrite.Inline
