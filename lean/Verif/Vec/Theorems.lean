import Verif.Vec.Model
import Mathlib.Data.List.Range
import Mathlib.Tactic.Linarith
import Mathlib.Tactic.NormNum

namespace Verif.Vec

variable {V : Type} {truth : V → Bool}

def Expr.noLoc : Expr V → Prop
  | .const _ => True
  | .var (.loc _) => False
  | .var _ => True
  | .un _ a => a.noLoc
  | .bin _ a b => a.noLoc ∧ b.noLoc
  | .tern _ a b c => a.noLoc ∧ b.noLoc ∧ c.noLoc

/-- the mapping describes the current variables in terms of the initial ones -/
structure Agree (σ0 : Env V) (lm : Map V) (σ : Env V) : Prop where
  inp : ∀ n, σ (.input n) = σ0 (.input n)
  cpy : ∀ n, σ (.copyOf n) = σ0 (.copyOf n)
  loc : ∀ n, σ (.loc n) = ((lm n).getD (.var (.copyOf n))).eval σ0
  free : ∀ n e, lm n = some e → e.noLoc

theorem copy_eval {σ0 σ : Env V} {lm : Map V} (h : Agree σ0 lm σ) (e : Expr V) :
    (e.copy lm).eval σ0 = e.eval σ ∧ (e.copy lm).noLoc := by
  induction e with
  | const v => exact ⟨rfl, trivial⟩
  | var x =>
    cases x with
    | input n => exact ⟨(h.inp n).symm, trivial⟩
    | copyOf n => exact ⟨(h.cpy n).symm, trivial⟩
    | loc n =>
      refine ⟨(h.loc n).symm, ?_⟩
      show ((lm n).getD _).noLoc
      cases hl : lm n with
      | none => trivial
      | some e => exact h.free n e hl
  | un f a ih => exact ⟨by simp only [Expr.copy, Expr.eval, ih.1], ih.2⟩
  | bin f a b ia ib => exact ⟨by simp only [Expr.copy, Expr.eval, ia.1, ib.1], ia.2, ib.2⟩
  | tern f a b c ia ib ic =>
    exact ⟨by simp only [Expr.copy, Expr.eval, ia.1, ib.1, ic.1], ia.2, ib.2, ic.2⟩

theorem inputs_eval {σ0 σ : Env V} (h : ∀ n, σ (.input n) = σ0 (.input n)) (e : Expr V)
    (he : e.inputsOnly = true) : e.eval σ = e.eval σ0 := by
  induction e with
  | const v => rfl
  | var x =>
    cases x with
    | input n => exact h n
    | copyOf n => simp [Expr.inputsOnly] at he
    | loc n => simp [Expr.inputsOnly] at he
  | un f a ih => simp only [Expr.eval, ih he]
  | bin f a b ia ib =>
    simp only [Expr.inputsOnly, Bool.and_eq_true] at he
    simp only [Expr.eval, ia he.1, ib he.2]
  | tern f a b c ia ib ic =>
    simp only [Expr.inputsOnly, Bool.and_eq_true] at he
    simp only [Expr.eval, ia he.1.1, ib he.1.2, ic he.2]

theorem inputs_copy (e : Expr V) (he : e.inputsOnly = true) (m : Map V) : e.copy m = e := by
  induction e with
  | const v => rfl
  | var x =>
    cases x with
    | input n => rfl
    | copyOf n => simp [Expr.inputsOnly] at he
    | loc n => simp [Expr.inputsOnly] at he
  | un f a ih => simp only [Expr.copy, ih he]
  | bin f a b ia ib =>
    simp only [Expr.inputsOnly, Bool.and_eq_true] at he
    simp only [Expr.copy, ia he.1, ib he.2]
  | tern f a b c ia ib ic =>
    simp only [Expr.inputsOnly, Bool.and_eq_true] at he
    simp only [Expr.copy, ia he.1.1, ib he.1.2, ic he.2]

theorem instantiate_noLoc (e : Expr V) (m : Map V) (h : e.noLoc) : instantiate e m = e := by
  induction e with
  | const v => rfl
  | var x =>
    cases x with
    | input n => rfl
    | copyOf n => rfl
    | loc n => exact h.elim
  | un f a ih => simp only [instantiate, ih h]
  | bin f a b ia ib => simp only [instantiate, ia h.1, ib h.2]
  | tern f a b c ia ib ic => simp only [instantiate, ia h.1, ib h.2.1, ic h.2.2]

mutual
/-- Schemes the claim is proved for: every condition reads function inputs only, an unlikely
condition has an else branch, and statements other than assignments, returns, conditions and lists
have no effect. -/
def Good : Stmt V → Prop
  | .assign _ _ => True
  | .ret _ => True
  | .ifThen c l t => c.inputsOnly = true ∧ l ≠ some false ∧ Good t
  | .ifElse c _ t e => c.inputsOnly = true ∧ Good t ∧ Good e
  | .block b => GoodBlock b
  | .other f => ∀ σ, f σ = (σ, none)

def GoodBlock : Block V → Prop
  | .nil => True
  | .cons s b => Good s ∧ GoodBlock b
end

/-- what extraction guarantees -/
def Ok (σ0 : Env V) (r : Path V × Map V) (x : Env V × Option V) : Prop :=
  match r.1.tree with
  | some e => x.2 = some (e.eval σ0) ∧ e.noLoc
  | none => x.2 = none ∧ Agree σ0 r.2 x.1 ∧ r.1.final = false

theorem loop_some (b : Block V) (lm vars : Map V) (masks : List (Mask V)) (e : Expr V) :
    (extractLoop b lm vars masks (some e)).1.tree = some e := by
  match b with
  | .nil => rfl
  | .cons s b =>
    rw [extractLoop]
    split
    · rfl
    · exact loop_some b _ _ _ e

theorem loop_masks (b : Block V) (lm vars : Map V) (masks : List (Mask V)) (res : Option (Expr V)) :
    ∀ m ∈ masks, m ∈ (extractLoop b lm vars masks res).1.masks := by
  match b with
  | .nil => exact fun m h => h
  | .cons s b =>
    intro m hm
    rw [extractLoop]
    split
    · exact List.mem_append_left _ hm
    · exact loop_masks b _ _ _ _ m (List.mem_append_left _ hm)

theorem ok_drop {σ0 : Env V} {r : Path V × Map V} {x : Env V × Option V} {ms : List (Mask V)}
    (h : Ok σ0 r x) : Ok σ0 (⟨r.1.tree, ms, r.1.vars, false⟩, r.2) x := by
  unfold Ok at h ⊢
  dsimp only
  cases ht : r.1.tree with
  | some e => rw [ht] at h; exact h
  | none => rw [ht] at h; exact ⟨h.1, h.2.1, rfl⟩
mutual
theorem extract_ok {σ0 : Env V} (s : Stmt V) (lm : Map V) (σ : Env V) (hG : Good s)
    (hA : Agree σ0 lm σ) (hM : ∀ m ∈ (extract s lm).1.masks, m.eval truth σ0 = true) :
    Ok σ0 (extract s lm) (exec truth s σ) := by
  match s with
  | .assign n e =>
    have hc := copy_eval hA e
    refine ⟨rfl, ⟨hA.inp, hA.cpy, ?_, ?_⟩, rfl⟩
    · intro k
      show upd σ n (e.eval σ) (.loc k) = (Option.getD (if k = n then some (e.copy lm) else lm k) _).eval σ0
      by_cases h : k = n
      · subst h
        simp [upd, hc.1]
      · rw [if_neg h]
        simp only [upd, Var.loc.injEq, h, if_false]
        exact hA.loc k
    · intro k e' h
      change (if k = n then some (e.copy lm) else lm k) = some e' at h
      by_cases hk : k = n
      · rw [if_pos hk] at h
        cases h
        exact hc.2
      · rw [if_neg hk] at h
        exact hA.free k e' h
  | .ret e =>
    have hc := copy_eval hA e
    exact ⟨by show some _ = some _; rw [hc.1], hc.2⟩
  | .other f =>
    have : f σ = (σ, none) := hG σ
    show Ok σ0 (Path.none, lm) (f σ)
    rw [this]
    exact ⟨rfl, hA, rfl⟩
  | .ifThen c (some true) t =>
    obtain ⟨h1, h2, h3⟩ := hG
    have hc : truth (c.eval σ) = true := by
      rw [inputs_eval hA.inp c h1]
      exact hM (.cond c) (List.mem_append_right _ (List.mem_singleton.2 rfl))
    have ih := extract_ok t lm σ h3 hA fun m hm => hM m (List.mem_append_left _ hm)
    rw [exec, if_pos hc]
    exact ok_drop ih
  | .ifThen c (some false) t => exact absurd rfl hG.2.1
  | .ifThen c none t =>
    obtain ⟨h1, h2, h3⟩ := hG
    have hc : truth (c.eval σ) = true := by
      rw [inputs_eval hA.inp c h1]
      exact hM (.cond c) (List.mem_append_left _ (List.mem_singleton.2 rfl))
    have ih := extract_ok t lm σ h3 hA fun m hm => hM m (List.mem_append_right _ hm)
    rw [exec, if_pos hc]
    exact ok_drop ih
  | .ifElse c (some true) t e =>
    obtain ⟨h1, h2, h3⟩ := hG
    have hc : truth (c.eval σ) = true := by
      rw [inputs_eval hA.inp c h1]
      exact hM (.cond c) (List.mem_append_right _ (List.mem_singleton.2 rfl))
    have ih := extract_ok t lm σ h2 hA fun m hm => hM m (List.mem_append_left _ hm)
    rw [exec, if_pos hc]
    exact ok_drop ih
  | .ifElse c (some false) t e =>
    obtain ⟨h1, h2, h3⟩ := hG
    have hc : ¬ truth (c.eval σ) = true := by
      rw [inputs_eval hA.inp c h1]
      have := hM (.not c) (List.mem_append_right _ (List.mem_singleton.2 rfl))
      simpa [Mask.eval] using this
    have ih := extract_ok e lm σ h3 hA fun m hm => hM m (List.mem_append_left _ hm)
    rw [exec, if_neg hc]
    exact ok_drop ih
  | .ifElse c none t e =>
    obtain ⟨h1, h2, h3⟩ := hG
    have hc : truth (c.eval σ) = true := by
      rw [inputs_eval hA.inp c h1]
      exact hM (.cond c) (List.mem_append_left _ (List.mem_singleton.2 rfl))
    have ih := extract_ok t lm σ h2 hA fun m hm => hM m (List.mem_append_right _ hm)
    rw [exec, if_pos hc]
    exact ok_drop ih
  | .block b =>
    have := loop_ok b lm (fun _ => none) [] σ hG hA hM
    rw [exec]
    exact ok_drop this

theorem loop_ok {σ0 : Env V} (b : Block V) (lm vars : Map V) (masks : List (Mask V)) (σ : Env V)
    (hG : GoodBlock b) (hA : Agree σ0 lm σ)
    (hM : ∀ m ∈ (extractLoop b lm vars masks none).1.masks, m.eval truth σ0 = true) :
    Ok σ0 (extractLoop b lm vars masks none) (execBlock truth b σ) := by
  match b with
  | .nil => exact ⟨rfl, hA, rfl⟩
  | .cons s b =>
    obtain ⟨g1, g2⟩ := hG
    have key : ∀ m ∈ (extract s lm).1.masks, m.eval truth σ0 = true := by
      intro m hm
      refine hM m ?_
      rw [extractLoop]
      split
      · exact List.mem_append_right _ hm
      · exact loop_masks b _ _ _ _ m (List.mem_append_right _ hm)
    have ih := extract_ok s lm σ g1 hA key
    rw [extractLoop] at hM ⊢
    rw [execBlock]
    unfold Ok at ih
    cases ht : (extract s lm).1.tree with
    | some e =>
      rw [ht] at ih
      simp only at ih
      rcases hx : exec truth s σ with ⟨a, o⟩
      rw [hx] at ih
      obtain ⟨i1, i2⟩ := ih
      simp only at i1
      subst i1
      dsimp only
      by_cases hf : (extract s lm).1.final = true
      · rw [if_pos hf]; exact ⟨rfl, i2⟩
      · rw [if_neg hf, Option.none_or]
        unfold Ok
        rw [loop_some]
        exact ⟨rfl, i2⟩
    | none =>
      rw [ht] at ih
      simp only at ih
      rw [ht] at hM
      rcases hx : exec truth s σ with ⟨a, o⟩
      rw [hx] at ih
      obtain ⟨i1, i2, i3⟩ := ih
      simp only at i1 i2
      subst i1
      dsimp only
      rw [i3] at hM ⊢
      exact loop_ok b _ _ _ _ g2 i2 hM
end

theorem agree_start (junk inp : Nat → V) :
    Agree (start junk inp) (fun _ => none) (start junk inp) :=
  ⟨fun _ => rfl, fun _ => rfl, fun _ => rfl, fun _ _ h => by simp at h⟩

theorem andMerge_eval (l : List (Mask V)) (σ : Env V) :
    (andMerge l).eval truth σ = l.all fun m => m.eval truth σ := by
  match l with
  | [] => simp [andMerge, Mask.eval]
  | [m] => simp [andMerge]
  | a :: b :: l =>
    rw [andMerge]
    rw [Mask.eval, andMerge_eval (List.take _ _), andMerge_eval (List.drop _ _), ← List.all_append,
      List.take_append_drop]
  termination_by l.length
  decreasing_by
    all_goals simp
    all_goals omega

mutual
theorem masks_copy (s : Stmt V) (lm : Map V) (hG : Good s) :
    ∀ m ∈ (extract s lm).1.masks, m.copy = m := by
  match s with
  | .assign n e => intro m hm; exact absurd hm (List.not_mem_nil)
  | .ret e => intro m hm; exact absurd hm (List.not_mem_nil)
  | .other f => intro m hm; exact absurd hm (List.not_mem_nil)
  | .ifThen c (some true) t =>
    intro m hm
    rcases List.mem_append.1 hm with h | h
    · exact masks_copy t lm hG.2.2 m h
    · rw [List.mem_singleton.1 h, Mask.copy, inputs_copy c hG.1]
  | .ifThen c (some false) t => exact absurd rfl hG.2.1
  | .ifThen c none t =>
    intro m hm
    rcases List.mem_append.1 hm with h | h
    · rw [List.mem_singleton.1 h, Mask.copy, inputs_copy c hG.1]
    · exact masks_copy t lm hG.2.2 m h
  | .ifElse c (some true) t e =>
    intro m hm
    rcases List.mem_append.1 hm with h | h
    · exact masks_copy t lm hG.2.1 m h
    · rw [List.mem_singleton.1 h, Mask.copy, inputs_copy c hG.1]
  | .ifElse c (some false) t e =>
    intro m hm
    rcases List.mem_append.1 hm with h | h
    · exact masks_copy e lm hG.2.2 m h
    · rw [List.mem_singleton.1 h, Mask.copy, inputs_copy c hG.1]
  | .ifElse c none t e =>
    intro m hm
    rcases List.mem_append.1 hm with h | h
    · rw [List.mem_singleton.1 h, Mask.copy, inputs_copy c hG.1]
    · exact masks_copy t lm hG.2.1 m h
  | .block b =>
    exact loop_copy b lm _ [] none hG (fun m hm => absurd hm List.not_mem_nil)

theorem loop_copy (b : Block V) (lm vars : Map V) (masks : List (Mask V)) (res : Option (Expr V))
    (hG : GoodBlock b) (hm : ∀ m ∈ masks, m.copy = m) :
    ∀ m ∈ (extractLoop b lm vars masks res).1.masks, m.copy = m := by
  match b with
  | .nil => exact hm
  | .cons s b =>
    have h2 : ∀ m ∈ masks ++ (extract s lm).1.masks, m.copy = m := by
      intro m h
      rcases List.mem_append.1 h with h | h
      · exact hm m h
      · exact masks_copy s lm hG.1 m h
    rw [extractLoop]
    split
    · exact h2
    · exact loop_copy b _ _ _ _ hG.2 h2
end

theorem andMerge_copy (l : List (Mask V)) (h : ∀ m ∈ l, m.copy = m) :
    (andMerge l).copy = andMerge l := by
  match l with
  | [] => simp [andMerge, Mask.copy]
  | [m] => simp only [andMerge]; exact h m (List.mem_singleton.2 rfl)
  | a :: b :: l =>
    rw [andMerge, Mask.copy, andMerge_copy (List.take _ _) fun m hm => h m (List.mem_of_mem_take hm),
      andMerge_copy (List.drop _ _) fun m hm => h m (List.mem_of_mem_drop hm)]
  termination_by l.length
  decreasing_by
    all_goals simp
    all_goals omega

/-- **C50**, one lane: when the merged validity mask evaluates to true on the inputs of a lane, the
extracted linear path evaluates to the value the scalar scheme returns on these inputs. Partial:
conditions may only read inputs, an unlikely condition needs an else branch, and other statements
(`SwitchBlock`, loops) must have no effect; see the three `_wrong` theorems. -/
theorem C50_lane_partial (junk : Nat → V) (s : Stmt V) (hG : Good s) (inp : Nat → V) {t : Expr V}
    (ht : (extract s fun _ => none).1.tree = some t)
    (hm : ((andMerge (extract s fun _ => none).1.masks).copy).eval truth (start junk inp) = true) :
    scalar truth junk s inp =
      some ((instantiate t (extract s fun _ => none).1.vars).eval (start junk inp)) := by
  rw [andMerge_copy _ (masks_copy s _ hG), andMerge_eval, List.all_eq_true] at hm
  have h := extract_ok s _ _ hG (agree_start junk inp) hm
  unfold Ok at h
  rw [ht] at h
  rw [instantiate_noLoc _ _ h.2]
  exact h.1

/-! ### Lanes and sub-vectors -/

theorem argLane_eq {size sub i j : Nat} (hd : sub ∣ size) (hi : i < size / sub) (hj : j < sub) :
    argLane size sub i j = i * sub + j := by
  unfold argLane
  by_cases h1 : sub = size
  · rw [if_pos h1]
    subst h1
    rw [Nat.div_self (by omega)] at hi
    have : i = 0 := by omega
    subst this; omega
  · rw [if_neg h1]
    by_cases h2 : sub = 1
    · rw [if_pos h2]; subst h2; omega
    · rw [if_neg h2]

theorem flat_range {A : Type} (g : Nat → A) (n sub : Nat) :
    ((List.range n).flatMap fun i => (List.range sub).map fun j => g (i * sub + j)) =
      (List.range (n * sub)).map g := by
  induction n with
  | zero => simp
  | succ n ih =>
    rw [List.range_succ, List.flatMap_append, ih, Nat.succ_mul, List.range_add]
    simp

/-- assembling sub-vectors that divide the vector size evaluates every lane on its own inputs -/
theorem assemble_eq {A : Type} (f : (Nat → V) → A) {size sub : Nat} (hd : sub ∣ size)
    (inp : Nat → Nat → V) :
    assemble f size sub inp = (List.range size).map fun k => f fun n => inp n k := by
  unfold assemble
  obtain ⟨c, rfl⟩ := hd
  rcases Nat.eq_zero_or_pos sub with h0 | h0
  · subst h0; simp
  rw [Nat.mul_div_cancel_left _ h0]
  have : ∀ i ∈ List.range c, ((List.range sub).map fun j => f fun n => inp n (argLane (sub * c) sub i j)) =
      (List.range sub).map fun j => f fun n => inp n (i * sub + j) := by
    intro i hi
    refine List.map_congr_left fun j hj => ?_
    rw [argLane_eq ⟨c, rfl⟩ (by rw [Nat.mul_div_cancel_left _ h0]; exact List.mem_range.1 hi)
      (List.mem_range.1 hj)]
  rw [List.flatMap_congr this, flat_range (fun k => f fun n => inp n k), Nat.mul_comm]

theorem fixLanes_get (cb : Nat → Option V) (n i : Nat) (mask : List Bool) (res : List (Option V))
    (k : Nat) :
    (fixLanes cb n i mask res)[k]? =
      if i ≤ k ∧ k < i + n ∧ k < res.length ∧ mask.getD k true = false then some (cb k)
      else res[k]? := by
  induction n generalizing i res with
  | zero =>
    rw [fixLanes, if_neg]
    omega
  | succ n ih =>
    rw [fixLanes, ih]
    by_cases hm : mask.getD i true = true
    · rw [if_pos hm]
      by_cases hk : k = i
      · subst hk
        rw [if_neg (by omega), if_neg (by rw [hm]; simp)]
      · have : (i + 1 ≤ k ∧ k < i + 1 + n ∧ k < res.length ∧ mask.getD k true = false) ↔
            (i ≤ k ∧ k < i + (n + 1) ∧ k < res.length ∧ mask.getD k true = false) := by
          constructor
          · rintro ⟨a, b, c, d⟩; exact ⟨by omega, by omega, c, d⟩
          · rintro ⟨a, b, c, d⟩; exact ⟨by omega, by omega, c, d⟩
        simp only [this]
    · rw [if_neg hm, List.length_set]
      have hm' : mask.getD i true = false := by simpa using hm
      by_cases hk : k = i
      · subst hk
        rw [if_neg (by omega)]
        by_cases hl : k < res.length
        · rw [if_pos ⟨le_refl _, by omega, hl, hm'⟩, List.getElem?_set_self hl]
        · rw [if_neg (by omega), List.getElem?_eq_none (by simpa using hl),
            List.getElem?_eq_none (by simpa using hl)]
      · have : (i + 1 ≤ k ∧ k < i + 1 + n ∧ k < res.length ∧ mask.getD k true = false) ↔
            (i ≤ k ∧ k < i + (n + 1) ∧ k < res.length ∧ mask.getD k true = false) := by
          constructor
          · rintro ⟨a, b, c, d⟩; exact ⟨by omega, by omega, c, d⟩
          · rintro ⟨a, b, c, d⟩; exact ⟨by omega, by omega, c, d⟩
        simp only [this]
        rw [List.getElem?_set_ne (Ne.symm hk)]

/-- **C50**, the generated vector function: whenever the extracted path has a return, every lane of
the result is what the scalar function returns on the inputs of that lane, whatever the masks.
Partial as `C50_lane_partial`; the sub-vector size divides the vector size. -/
theorem C50_vector_function_partial (junk : Nat → V) (s : Stmt V) (hG : Good s) {size sub : Nat}
    (hd : sub ∣ size) (inp : Nat → Nat → V) {r : List (Option V)}
    (h : vectorFn truth junk s size sub inp = some r) :
    r = (List.range size).map fun k => scalar truth junk s fun n => inp n k := by
  unfold vectorFn at h
  simp only at h
  cases ht : (extract s fun _ => none).1.tree with
  | none => rw [ht] at h; simp at h
  | some t =>
    rw [ht] at h
    simp only at h
    rw [assemble_eq _ hd, assemble_eq _ hd] at h
    have lane := fun k => C50_lane_partial (truth := truth) junk s hG (fun n => inp n k) ht
    generalize hmask : (andMerge (extract s fun _ => none).1.masks).copy = mask at h lane
    generalize instantiate t (extract s fun _ => none).1.vars = path at h lane
    have allTrue : (∀ k < size, mask.eval truth (start junk fun n => inp n k) = true) →
        ((List.range size).map fun k => some (path.eval (start junk fun n => inp n k))) =
          (List.range size).map fun k => scalar truth junk s fun n => inp n k :=
      fun hall => List.map_congr_left fun k hk => (lane k (hall k (List.mem_range.1 hk))).symm
    split at h
    · rename_i hno
      rw [← Option.some.inj h]
      refine allTrue fun k _ => ?_
      cases mask with
      | const b => exact hno
      | cond e =>
        cases e with
        | const v => exact hno
        | _ => simp [noFallback] at hno
      | _ => simp [noFallback] at hno
    · split at h
      · rename_i hall
        rw [← Option.some.inj h]
        refine allTrue fun k hk => ?_
        rw [List.all_map, List.all_eq_true] at hall
        exact hall k (List.mem_range.2 hk)
      · rw [← Option.some.inj h]
        refine List.ext_getElem? fun k => ?_
        rw [fixLanes_get]
        simp only [List.length_map, List.length_range, List.getElem?_map, List.getD_eq_getElem?_getD]
        by_cases hk : k < size
        · rw [List.getElem?_range hk]
          simp only [Option.map_some, Option.getD_some]
          split
          · rfl
          · rename_i hc
            rw [lane k]
            by_contra hh
            exact hc ⟨by omega, by omega, hk, by simpa using hh⟩
        · rw [if_neg (by omega), List.getElem?_eq_none (by simpa using hk)]
          simp

/-! ### A scheme with nested conditions, and the three ways to leave the proved class -/

/-- truth of an integer, as in C -/
def nz (v : Int) : Bool := v != 0

def x0 : Expr Int := .var (.input 0)

/-- `y = x + 1; if (x < 0) [unlikely] {return 7} else {y = y * 2}; if (x < 100) {return y}; return 0` -/
def demo : Stmt Int :=
  .block (.cons (.assign 0 (.bin (· + ·) x0 (.const 1)))
    (.cons (.ifElse (.bin (fun a b => if a < b then 1 else 0) x0 (.const 0)) (some false)
        (.ret (.const 7)) (.assign 0 (.bin (· * ·) (.var (.loc 0)) (.const 2))))
    (.cons (.ifThen (.bin (fun a b => if a < b then 1 else 0) x0 (.const 100)) none
        (.ret (.var (.loc 0))))
    (.cons (.ret (.const 0)) .nil))))

example : Good demo := by
  refine ⟨trivial, ⟨rfl, trivial, trivial⟩, ⟨rfl, by simp, trivial⟩, trivial, trivial⟩

/-- four lanes: the second and the fourth one leave the fast path -/
example : vectorFn nz (fun _ => 0) demo 4 2 (fun _ k => [3, -5, 10, 200].getD k 0) =
    some [some 8, some 7, some 22, some 0] := by decide +kernel

/-- `if (x) [unlikely] {return 7}; return 0` -/
def bareUnlikely : Stmt Int :=
  .block (.cons (.ifThen x0 (some false) (.ret (.const 7))) (.cons (.ret (.const 0)) .nil))

/-- **C50 is violated** by an unlikely condition without else branch: its condition is not added to
the mask, so a lane that takes the branch is declared valid and gets the value of the other path. -/
theorem C50_bare_unlikely_wrong :
    scalar nz (fun _ => 0) bareUnlikely (fun _ => 1) = some 7 ∧
      vectorFn nz (fun _ => 0) bareUnlikely 1 1 (fun _ _ => 1) = some [some 0] := by
  decide +kernel

/-- `y = x; if (y) {return 7} else {return 8}` -/
def localCond : Stmt Int :=
  .block (.cons (.assign 0 x0)
    (.cons (.ifElse (.var (.loc 0)) none (.ret (.const 7)) (.ret (.const 8))) .nil))

/-- **C50 is violated** by a condition on a local variable: the mask reads an uninitialised copy of
the variable. -/
theorem C50_local_condition_wrong :
    scalar nz (fun _ => 1) localCond (fun _ => 0) = some 8 ∧
      vectorFn nz (fun _ => 1) localCond 1 1 (fun _ _ => 0) = some [some 7] := by
  decide +kernel

/-- `switch (x) {case 1: return 7}; return 0` -/
def switchRet : Stmt Int :=
  .block (.cons (.other fun σ => (σ, if σ (.input 0) = 1 then some 7 else none))
    (.cons (.ret (.const 0)) .nil))

/-- **C50 is violated** by any other statement with an effect, e.g. a switch that returns: the
extraction skips it without restricting the mask. -/
theorem C50_switch_wrong :
    scalar nz (fun _ => 0) switchRet (fun _ => 1) = some 7 ∧
      vectorFn nz (fun _ => 0) switchRet 1 1 (fun _ _ => 1) = some [some 0] := by
  decide +kernel

/-- Lanes are lost when the sub-vector size does not divide the vector size. -/
theorem C50_sub_vector_wrong :
    vectorFn nz (fun _ => 0) (.ret x0) 3 2 (fun _ k => (k : Int)) = some [some 0, some 1] := by
  decide +kernel

end Verif.Vec
