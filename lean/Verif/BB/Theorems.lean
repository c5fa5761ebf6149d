import Verif.BB.Accept

/-!
# C25: basic-block generation preserves execution
-/

namespace Verif.BB

variable {S V : Type}

/-- More fuel does not change a result. -/
theorem run_mono {B : List (Block S V)} : ∀ {m k : ℕ} {b i : ℕ} {s : S} {o : Res S V},
    m ≤ k → run B m b i s = some o → run B k b i s = some o
  | 0, _, _, _, _, _, _, h => by simp [run] at h
  | m + 1, 0, _, _, _, _, hk, _ => by omega
  | m + 1, k + 1, b, i, s, o, hk, h => by
    unfold run at h ⊢
    split at h
    · exact h
    · exact run_mono (by omega) h
    · exact run_mono (by omega) h
    · exact h
    · exact run_mono (by omega) h
    · exact run_mono (by omega) h

theorem run_det {B : List (Block S V)} {m k b i : ℕ} {s : S} {o o' : Res S V}
    (h : run B m b i s = some o) (h' : run B k b i s = some o') : o = o' := by
  rcases Nat.le_total m k with hk | hk
  · have := run_mono hk h; rw [h'] at this; cases this; rfl
  · have := run_mono hk h'; rw [h] at this; cases this; rfl

/-- **C25.**  Every acceptable structured program (`Acceptable`, Spec.lean) is translated, and the
basic blocks, run from the first one, terminate exactly when the program does, with the same final
state and the same returned value.

Partial: programs that are not acceptable are refused (`C25_rejects`). -/
theorem C25_preserves_partial (p : Stmt S V) (hp : Acceptable false p) :
    ∃ B, translate p = some B ∧
      ∀ s r, Terminates p s r ↔ ∃ m, run B m 0 0 s = some r := by
  have hn : ¬ LastCF (⟨[⟨[], false⟩], [0]⟩ : Tr S V) 0 := by
    rintro ⟨bb, x, h1, h2, -⟩
    cases h1
    cases h2
  obtain ⟨st', h⟩ := accept p ⟨[⟨[], false⟩], [0]⟩ 0 rfl (by simp) hn hp
  refine ⟨st'.blocks, by simp [translate, h], ?_⟩
  obtain ⟨b1, hc1, -, hl1, -⟩ := (frame p _ st' 0 h rfl (by simp)).cur
  have L := layout p _ st' 0 b1 st'.blocks h rfl (by simp) hc1 (Ext.refl _)
  have h0 : blen (⟨[⟨[], false⟩], [0]⟩ : Tr S V).blocks 0 = 0 := rfl
  rw [h0] at L
  have fwd : ∀ s r, Terminates p s r → ∃ m, run st'.blocks m 0 0 s = some r := by
    rintro s r ⟨n, hx⟩
    have G := L.sim n s r hx
    cases r with
    | normal s' =>
      refine Steps.run G (m := 1) ?_
      have : (st'.blocks[b1]?).bind (fun bb => bb.insts[blen st'.blocks b1]?) = none := by
        unfold blen
        cases st'.blocks[b1]? <;> simp
      unfold run
      rw [this]
    | ret s' v =>
      obtain ⟨b2, i2, e, hs, hi, rfl⟩ := G
      refine Steps.run hs (m := 1) ?_
      unfold instr at hi
      unfold run
      rw [hi]
  intro s r
  refine ⟨fwd s r, ?_⟩
  rintro ⟨m, hm⟩
  cases hx : exec m p s with
  | none => exact absurd (L.div m s hx m r hm) (Nat.lt_irrefl _)
  | some r' =>
    obtain ⟨k, hk⟩ := fwd s r' ⟨m, hx⟩
    rw [run_det hm hk]
    exact ⟨m, hx⟩

/-- Every other program is refused (`NotImplementedError`): no wrong code is produced. -/
theorem C25_rejects (p : Stmt S V) (hp : ¬ Acceptable false p) : translate p = none := by
  cases h : trans p (⟨[⟨[], false⟩], [0]⟩ : Tr S V) with
  | none => simp [translate, h]
  | some st' =>
    refine absurd ?_ hp
    refine accept_only p _ st' 0 h rfl (by simp) ?_
    rintro ⟨bb, x, h1, h2, -⟩
    cases h1
    cases h2

/-- Refusals reach ordinary programs: a loop whose body ends with a `return`,
a loop initialised under a condition, and a conditional written after a `return`. -/
theorem C25_raises (f : S → S) (c : S → Bool) (e : S → V) (t : Stmt S V) :
    translate (.loop (.act f) c (.ret e)) = none ∧
    translate (.loop (.ite c (.act f) none) c (.act f) : Stmt S V) = none ∧
    translate (.seq (.ret e) (.ite c t none)) = none := by
  refine ⟨C25_rejects _ ?_, C25_rejects _ ?_, C25_rejects _ ?_⟩ <;>
    simp [Acceptable, fin, Straight]

/-! A summing loop with an early exit: `acc = 0; for (i = 0; i < n; i++) { if (acc > 10) return 99;
else acc += i; } return acc`, on states (n, i, acc). -/
def sumProg : Stmt (ℕ × ℕ × ℕ) ℕ :=
  .seq (.loop (.act fun s => (s.1, 0, 0)) (fun s => s.2.1 < s.1)
      (.seq (.ite (fun s => s.2.2 > 10) (.ret fun _ => 99)
        (some (.act fun s => (s.1, s.2.1, s.2.2 + s.2.1))))
        (.act fun s => (s.1, s.2.1 + 1, s.2.2))))
    (.ret fun s => s.2.2)

example : Acceptable false sumProg := by simp [sumProg, Acceptable, AcceptableElse, fin, Straight]
example : Terminates sumProg (5, 7, 7) (.ret (5, 5, 10) 10) := ⟨6, rfl⟩
example : Terminates sumProg (9, 7, 7) (.ret (9, 6, 15) 99) := ⟨9, rfl⟩
example : ((translate sumProg).bind fun B => run B 100 0 0 (5, 7, 7)) =
  some (.ret (5, 5, 10) 10) := rfl
example : ((translate sumProg).bind fun B => run B 100 0 0 (9, 7, 7)) =
  some (.ret (9, 6, 15) 99) := rfl

end Verif.BB
