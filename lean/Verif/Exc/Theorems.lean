import Verif.Exc.Model
import Mathlib.Data.List.Basic

namespace Verif.Exc

variable {σ ν : Type}

/-- What stays of the operations on flags. -/
def kept (es : List ExcOp) : List ExcOp := es.filter fun e => !found e

theorem forward {s : Stmt σ ν} {m es m' r} (h : Exec s m es m' r) : Exec (lower s) m (kept es) m' r := by
  induction h with
  | skip => exact .skip
  | seq _ _ h1 h2 => unfold kept at *; rw [List.filter_append]; exact .seq h1 h2
  | stop _ h => exact .stop h
  | assign => exact .assign
  | yes hc _ h => exact .yes hc h
  | no hc _ h => exact .no hc h
  | done hc => exact .done hc
  | again hc _ _ h1 h2 => unfold kept at *; rw [List.filter_append]; exact .again hc h1 h2
  | leave hc _ h => exact .leave hc h
  | ret => exact .ret
  | @exc e m =>
    cases hf : found e with
    | true => simp only [lower, hf, if_true, kept, List.filter, Bool.not_true]; exact .skip
    | false =>
      simp only [lower, hf, kept, List.filter, Bool.not_false]
      exact .exc

theorem lower_exc {s : Stmt σ ν} {t : Stmt σ ν} (h : lower s = t) :
    (∃ e, s = .exc e) ∨
    match (motive := Stmt σ ν → Prop) t with
    | .skip => s = .skip
    | .seq a b => ∃ a' b', s = .seq a' b' ∧ a = lower a' ∧ b = lower b'
    | .assign f => s = .assign f
    | .ite c a b => ∃ a' b', s = .ite c a' b' ∧ a = lower a' ∧ b = lower b'
    | .loop c b => ∃ b', s = .loop c b' ∧ b = lower b'
    | .ret f => s = .ret f
    | .exc _ => False := by
  subst h
  cases s with
  | skip => exact Or.inr rfl
  | seq a b => exact Or.inr ⟨a, b, rfl, rfl, rfl⟩
  | assign f => exact Or.inr rfl
  | ite c a b => exact Or.inr ⟨a, b, rfl, rfl, rfl⟩
  | loop c b => exact Or.inr ⟨b, rfl, rfl⟩
  | ret f => exact Or.inr rfl
  | exc e => exact Or.inl ⟨e, rfl⟩

theorem exc_case {e : ExcOp} {m es m'} {r : Option ν} (h : Exec (lower (.exc e : Stmt σ ν)) m es m' r) :
    ∃ es0, Exec (.exc e : Stmt σ ν) m es0 m' r ∧ es = kept es0 := by
  cases hf : found e with
  | true =>
    simp only [lower, hf, if_true] at h
    cases h
    exact ⟨[e], .exc, by simp [kept, hf]⟩
  | false =>
    simp only [lower, hf, Bool.false_eq_true, if_false] at h
    cases h
    exact ⟨[e], .exc, by simp [kept, hf]⟩

theorem backward {t : Stmt σ ν} {m es m' r} (h : Exec t m es m' r) :
    ∀ s, lower s = t → ∃ es0, Exec s m es0 m' r ∧ es = kept es0 := by
  induction h with
  | skip =>
    intro s hs
    rcases lower_exc hs with ⟨e, rfl⟩ | hx
    · exact exc_case (hs ▸ .skip)
    · simp only [] at hx; subst hx; exact ⟨[], .skip, rfl⟩
  | seq h1 h2 i1 i2 =>
    intro s hs
    rcases lower_exc hs with ⟨e, rfl⟩ | ⟨a', b', rfl, ha, hb⟩
    · exact exc_case (hs ▸ .seq h1 h2)
    · obtain ⟨x, hx, rfl⟩ := i1 a' ha.symm
      obtain ⟨y, hy, rfl⟩ := i2 b' hb.symm
      exact ⟨x ++ y, .seq hx hy, by simp [kept]⟩
  | stop h1 i1 =>
    intro s hs
    rcases lower_exc hs with ⟨e, rfl⟩ | ⟨a', b', rfl, ha, hb⟩
    · exact exc_case (hs ▸ .stop h1)
    · obtain ⟨x, hx, rfl⟩ := i1 a' ha.symm
      exact ⟨x, .stop hx, rfl⟩
  | assign =>
    intro s hs
    rcases lower_exc hs with ⟨e, rfl⟩ | hx
    · exact exc_case (hs ▸ .assign)
    · simp only [] at hx; subst hx; exact ⟨[], .assign, rfl⟩
  | yes hc h1 i1 =>
    intro s hs
    rcases lower_exc hs with ⟨e, rfl⟩ | ⟨a', b', rfl, ha, hb⟩
    · exact exc_case (hs ▸ .yes hc h1)
    · obtain ⟨x, hx, rfl⟩ := i1 a' ha.symm
      exact ⟨x, .yes hc hx, rfl⟩
  | no hc h1 i1 =>
    intro s hs
    rcases lower_exc hs with ⟨e, rfl⟩ | ⟨a', b', rfl, ha, hb⟩
    · exact exc_case (hs ▸ .no hc h1)
    · obtain ⟨x, hx, rfl⟩ := i1 b' hb.symm
      exact ⟨x, .no hc hx, rfl⟩
  | done hc =>
    intro s hs
    rcases lower_exc hs with ⟨e, rfl⟩ | ⟨b', rfl, hb⟩
    · exact exc_case (hs ▸ .done hc)
    · exact ⟨[], .done hc, rfl⟩
  | @again c _ _ _ _ _ _ _ hc h1 h2 i1 i2 =>
    intro s hs
    rcases lower_exc hs with ⟨e, rfl⟩ | ⟨b', rfl, hb⟩
    · exact exc_case (hs ▸ .again hc h1 h2)
    · obtain ⟨x, hx, rfl⟩ := i1 b' hb.symm
      obtain ⟨y, hy, rfl⟩ := i2 (.loop c b') hs
      exact ⟨x ++ y, .again hc hx hy, by simp [kept]⟩
  | leave hc h1 i1 =>
    intro s hs
    rcases lower_exc hs with ⟨e, rfl⟩ | ⟨b', rfl, hb⟩
    · exact exc_case (hs ▸ .leave hc h1)
    · obtain ⟨x, hx, rfl⟩ := i1 b' hb.symm
      exact ⟨x, .leave hc hx, rfl⟩
  | ret =>
    intro s hs
    rcases lower_exc hs with ⟨e, rfl⟩ | hx
    · exact exc_case (hs ▸ .ret)
    · simp only [] at hx; subst hx; exact ⟨[], .ret, rfl⟩
  | exc =>
    intro s hs
    rcases lower_exc hs with ⟨e, rfl⟩ | hx
    · exact exc_case (hs ▸ .exc)
    · exact hx.elim

theorem typed_found {e : ExcOp} (h : Typed e) : found e = true := by
  obtain ⟨k, o, as⟩ := e
  obtain ⟨h1, ⟨h2, h3⟩ | ⟨h2, n, h3⟩⟩ := h <;> simp only [] at h1 h2 h3 <;> subst h1 <;> subst h2 <;> subst h3 <;> simp [found, table, interface]

theorem exec_ops {s : Stmt σ ν} {m es m' r} (h : Exec s m es m' r) : ∀ e ∈ es, e ∈ ops s := by
  induction h with
  | skip | assign | done | ret => intro e he; cases he
  | seq _ _ h1 h2 =>
    intro e he
    rcases List.mem_append.1 he with he | he
    · exact List.mem_append.2 (Or.inl (h1 e he))
    · exact List.mem_append.2 (Or.inr (h2 e he))
  | stop _ h | yes _ _ h => intro e he; exact List.mem_append.2 (Or.inl (h e he))
  | no _ _ h => intro e he; exact List.mem_append.2 (Or.inr (h e he))
  | again _ _ _ h1 h2 =>
    intro e he
    rcases List.mem_append.1 he with he | he
    · exact h1 e he
    · exact h2 e he
  | leave _ _ h => exact h
  | exc => intro e he; exact he

/-- **C140**: for every program, the lowered program ends exactly as the program does,
with the same memory and the same returned value, and does to the flags exactly what the
operations which were not removed do, in the same order. -/
theorem C140_same (s : Stmt σ ν) (m m' : σ) (es : List ExcOp) (r : Option ν) :
    Exec (lower s) m es m' r ↔ ∃ es0, Exec s m es0 m' r ∧ es = es0.filter fun e => !found e :=
  ⟨fun h => backward h s rfl, fun ⟨_, h, he⟩ => he ▸ forward h⟩

/-- **C140**: once types are instantiated, the lowered program computes what the program
computes and never touches the flags. -/
theorem C140_typed (s : Stmt σ ν) (ht : ∀ e ∈ ops s, Typed e) (m m' : σ) (es : List ExcOp) (r : Option ν) :
    Exec (lower s) m es m' r ↔ (∃ es0, Exec s m es0 m' r) ∧ es = [] := by
  have key : ∀ es0, Exec s m es0 m' r → es0.filter (fun e => !found e) = [] := by
    intro es0 h
    rw [List.filter_eq_nil_iff]
    intro e he
    simp [typed_found (ht e (exec_ops h e he))]
  rw [C140_same]
  constructor
  · rintro ⟨es0, h, rfl⟩
    exact ⟨⟨es0, h⟩, key es0 h⟩
  · rintro ⟨⟨es0, h⟩, rfl⟩
    exact ⟨es0, h, (key es0 h).symm⟩

/-- **C140**: the flags after the lowered program are the flags before. -/
theorem C140_flags (s : Stmt σ ν) (ht : ∀ e ∈ ops s, Typed e) (m m' : σ) (es : List ExcOp) (r : Option ν)
    (h : Exec (lower s) m es m' r) (F : ℕ → Bool) : es.foldl effect F = F := by
  rw [((C140_typed s ht m m' es r).1 h).2]; rfl

/-- **C140**: no operation on flags is left for the code generator. -/
theorem C140_removed (s : Stmt σ ν) (ht : ∀ e ∈ ops s, Typed e) : ops (lower s) = [] := by
  induction s with
  | skip | assign | ret => rfl
  | seq a b h1 h2 | ite c a b h1 h2 =>
    simp only [lower, ops]
    rw [h1 (fun e he => ht e (List.mem_append.2 (Or.inl he))), h2 (fun e he => ht e (List.mem_append.2 (Or.inr he)))]
    rfl
  | loop c b h => exact h ht
  | exc e => simp only [lower]; rw [if_pos (typed_found (ht e (by simp [ops])))]; rfl

/-- **C140**: for all programs, exactly the operations with an entry are removed. -/
theorem C140_left (s : Stmt σ ν) : ops (lower s) = (ops s).filter fun e => !found e := by
  induction s with
  | skip | assign | ret => rfl
  | seq a b h1 h2 | ite c a b h1 h2 => simp only [lower, ops, List.filter_append, h1, h2]
  | loop c b h => exact h
  | exc e =>
    cases hf : found e with
    | true => simp [lower, ops, hf]
    | false => simp [lower, ops, hf]

/-- An operation whose type was not instantiated stays, and the flag is raised. -/
theorem C140_untyped_wrong : ∃ (s : Stmt Unit ℕ) (es : List ExcOp) (r : Option ℕ), Exec (lower s) () es () r ∧
    ops (lower s) ≠ [] ∧ es.foldl effect (fun _ => false) 3 = true :=
  ⟨.seq (.exc ⟨.raise, .untyped, [(3, .fpe)]⟩) (.ret fun _ => 5), [⟨.raise, .untyped, [(3, .fpe)]⟩] ++ [], some 5,
    .seq (show Exec (.exc _) _ _ _ _ from .exc) .ret, by decide, by decide⟩

/-! ### A case -/

/-- `while x > 0 { x := x - 1; raise 2 }; clear; if x = 0 { raise 1; return 7 } else {}`. -/
def prog : Stmt ℕ ℕ :=
  .seq (.loop (fun x => decide (0 < x)) (.seq (.assign fun x => x - 1) (.exc ⟨.raise, .void, [(2, .fpe)]⟩)))
    (.seq (.exc ⟨.clear, .void, []⟩)
      (.ite (fun x => decide (x = 0)) (.seq (.exc ⟨.raise, .void, [(1, .fpe)]⟩) (.ret fun _ => 7)) .skip))

example : ∀ e ∈ ops prog, Typed e := by
  intro e he
  simp [prog, ops] at he
  rcases he with rfl | rfl | rfl <;> simp [Typed]

example : Exec prog 1 [⟨.raise, .void, [(2, .fpe)]⟩, ⟨.clear, .void, []⟩, ⟨.raise, .void, [(1, .fpe)]⟩] 0 (some 7) :=
  .seq (es := [⟨.raise, .void, [(2, .fpe)]⟩]) (.again (es := [⟨.raise, .void, [(2, .fpe)]⟩]) (es' := []) rfl
      (.seq (es := []) .assign .exc) (.done rfl))
    (.seq (es := [⟨.clear, .void, []⟩]) .exc (.yes rfl (.seq (es := [⟨.raise, .void, [(1, .fpe)]⟩]) (es' := []) .exc .ret)))

end Verif.Exc
