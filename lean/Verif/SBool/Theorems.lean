import Verif.SBool.Model
import Mathlib.Data.List.Basic

namespace Verif.SBool

theorem legalFmt_some {f g : BFmt} {w : ℕ} (h : legalFmt f w = some g) :
    (f = .virtual ∧ g = .bits w ∧ Standard w) ∨ (f ≠ .virtual ∧ g = f) := by
  unfold legalFmt at h
  by_cases hf : f = .virtual
  · rw [if_pos hf] at h
    unfold typeMap at h
    by_cases hw : w = 8 ∨ w = 16 ∨ w = 32 ∨ w = 64
    · rw [if_pos hw] at h; cases h; exact Or.inl ⟨hf, rfl, hw⟩
    · rw [if_neg hw] at h; cases h
  · rw [if_neg hf] at h; cases h; exact Or.inr ⟨hf, rfl⟩

theorem inv_op {w a b e'} (h : legalize (.op w a b) = some e') :
    ∃ a' b', legalize a = some a' ∧ legalize b = some b' ∧ e' = .op w a' b' := by
  unfold legalize at h
  cases ha : legalize a <;> cases hb : legalize b <;> simp [ha, hb] at h
  exact ⟨_, _, rfl, rfl, h.symm⟩

theorem inv_sel {w c a b e'} (h : legalize (.sel w c a b) = some e') :
    ∃ c' a' b', legalize c = some c' ∧ legalize a = some a' ∧ legalize b = some b' ∧ e' = .sel w c' a' b' := by
  unfold legalize at h
  cases hc : legalize c <;> cases ha : legalize a <;> cases hb : legalize b <;> simp [hc, ha, hb] at h
  exact ⟨_, _, _, rfl, rfl, rfl, h.symm⟩

theorem inv_cmp {f a b e'} (h : legalize (.cmp f a b) = some e') :
    ∃ a' b' g, legalize a = some a' ∧ legalize b = some b' ∧ legalFmt f (max a'.width b'.width) = some g ∧
      e' = .cmp g a' b' := by
  unfold legalize at h
  cases ha : legalize a <;> cases hb : legalize b <;> simp [ha, hb] at h
  obtain ⟨g, hg, he⟩ := h
  exact ⟨_, _, g, rfl, rfl, hg, he.symm⟩

theorem inv_conn {f a b e'} (h : legalize (.conn f a b) = some e') :
    ∃ a' b' g, legalize a = some a' ∧ legalize b = some b' ∧ legalFmt f (max a'.width b'.width) = some g ∧
      e' = .conn g a' b' := by
  unfold legalize at h
  cases ha : legalize a <;> cases hb : legalize b <;> simp [ha, hb] at h
  obtain ⟨g, hg, he⟩ := h
  exact ⟨_, _, g, rfl, rfl, hg, he.symm⟩

theorem inv_lnot {f a e'} (h : legalize (.lnot f a) = some e') :
    ∃ a' g, legalize a = some a' ∧ legalFmt f a'.width = some g ∧ e' = .lnot g a' := by
  unfold legalize at h
  cases ha : legalize a <;> simp [ha] at h
  obtain ⟨g, hg, he⟩ := h
  exact ⟨_, g, rfl, hg, he.symm⟩

theorem inv_test {f a e'} (h : legalize (.test f a) = some e') :
    ∃ a' g, legalize a = some a' ∧ legalFmt f a'.width = some g ∧ e' = .test g a' := by
  unfold legalize at h
  cases ha : legalize a <;> simp [ha] at h
  obtain ⟨g, hg, he⟩ := h
  exact ⟨_, g, rfl, hg, he.symm⟩

theorem inv_other {f a e'} (h : legalize (.other f a) = some e') :
    ∃ a', legalize a = some a' ∧ e' = .other f a' := by
  unfold legalize at h
  cases ha : legalize a <;> simp [ha] at h
  exact ⟨_, rfl, h.symm⟩

/-- **C141**: the pass only changes formats of booleans: operations, operands and the
widths of numbers are those of the expression. -/
theorem C141_same (e e' : Expr) (h : legalize e = some e') : erase e' = erase e := by
  induction e generalizing e' with
  | num w | bvar f => unfold legalize at h; cases h; rfl
  | op w a b ia ib => obtain ⟨a', b', ha, hb, rfl⟩ := inv_op h; simp [erase, ia _ ha, ib _ hb]
  | sel w c a b ic ia ib =>
    obtain ⟨c', a', b', hc, ha, hb, rfl⟩ := inv_sel h; simp [erase, ic _ hc, ia _ ha, ib _ hb]
  | cmp f a b ia ib => obtain ⟨a', b', g, ha, hb, _, rfl⟩ := inv_cmp h; simp [erase, ia _ ha, ib _ hb]
  | conn f a b ia ib => obtain ⟨a', b', g, ha, hb, _, rfl⟩ := inv_conn h; simp [erase, ia _ ha, ib _ hb]
  | lnot f a ia => obtain ⟨a', g, ha, _, rfl⟩ := inv_lnot h; simp [erase, ia _ ha]
  | test f a ia => obtain ⟨a', g, ha, _, rfl⟩ := inv_test h; simp [erase, ia _ ha]
  | other f a ia => obtain ⟨a', ha, rfl⟩ := inv_other h; simp [erase, ia _ ha]

/-- The greatest element of a list. -/
def IsMax (w : ℕ) (l : List ℕ) : Prop := w ∈ l ∧ ∀ x ∈ l, x ≤ w

theorem isMax_append {a b : ℕ} {l l' : List ℕ} (h : IsMax a l) (h' : IsMax b l') : IsMax (max a b) (l ++ l') := by
  refine ⟨?_, ?_⟩
  · rcases Nat.le_total a b with hab | hab
    · rw [Nat.max_eq_right hab]; exact List.mem_append.2 (Or.inr h'.1)
    · rw [Nat.max_eq_left hab]; exact List.mem_append.2 (Or.inl h.1)
  · intro x hx
    rcases List.mem_append.1 hx with hx | hx
    · exact Nat.le_trans (h.2 x hx) (Nat.le_max_left _ _)
    · exact Nat.le_trans (h'.2 x hx) (Nat.le_max_right _ _)

theorem isMax_single (w : ℕ) : IsMax w [w] := ⟨by simp, by simp⟩

/-- **C141**: the width of the result is the greatest of the widths it depends on. -/
theorem C141_width (e e' : Expr) (h : legalize e = some e') : IsMax e'.width (sources e) := by
  induction e generalizing e' with
  | num w | bvar f => unfold legalize at h; cases h; exact isMax_single _
  | op w a b => obtain ⟨_, _, _, _, rfl⟩ := inv_op h; exact isMax_single _
  | sel w c a b => obtain ⟨_, _, _, _, _, _, rfl⟩ := inv_sel h; exact isMax_single _
  | other f a => obtain ⟨_, _, rfl⟩ := inv_other h; exact isMax_single _
  | cmp f a b ia ib =>
    obtain ⟨a', b', g, ha, hb, hg, rfl⟩ := inv_cmp h
    rcases legalFmt_some hg with ⟨rfl, rfl, _⟩ | ⟨hf, rfl⟩
    · exact isMax_append (ia _ ha) (ib _ hb)
    · cases g with
      | virtual => exact absurd rfl hf
      | bits w => exact isMax_single _
  | conn f a b ia ib =>
    obtain ⟨a', b', g, ha, hb, hg, rfl⟩ := inv_conn h
    rcases legalFmt_some hg with ⟨rfl, rfl, _⟩ | ⟨hf, rfl⟩
    · exact isMax_append (ia _ ha) (ib _ hb)
    · cases g with
      | virtual => exact absurd rfl hf
      | bits w => exact isMax_single _
  | lnot f a ia =>
    obtain ⟨a', g, ha, hg, rfl⟩ := inv_lnot h
    rcases legalFmt_some hg with ⟨rfl, rfl, _⟩ | ⟨hf, rfl⟩
    · exact (show IsMax a'.width (sources a) from ia _ ha)
    · cases g with
      | virtual => exact absurd rfl hf
      | bits w => exact isMax_single _
  | test f a ia =>
    obtain ⟨a', g, ha, hg, rfl⟩ := inv_test h
    rcases legalFmt_some hg with ⟨rfl, rfl, _⟩ | ⟨hf, rfl⟩
    · exact (show IsMax a'.width (sources a) from ia _ ha)
    · cases g with
      | virtual => exact absurd rfl hf
      | bits w => exact isMax_single _

theorem fmt_chosen {f g : BFmt} {w : ℕ} (h : legalFmt f w = some g) : g ≠ .virtual := by
  rcases legalFmt_some h with ⟨_, rfl, _⟩ | ⟨hf, rfl⟩
  · simp
  · exact hf

/-- **C141**: no boolean operation which the pass knows is left without a width. -/
theorem C141_chosen (e e' : Expr) (h : legalize e = some e') : ∀ x, Sub x e' → ¬ Pending x := by
  induction e generalizing e' with
  | num w | bvar f => unfold legalize at h; cases h; intro x hx; cases hx; simp [Pending]
  | op w a b ia ib =>
    obtain ⟨a', b', ha, hb, rfl⟩ := inv_op h
    intro x hx
    cases hx with
    | refl => simp [Pending]
    | op1 hx => exact ia _ ha x hx
    | op2 hx => exact ib _ hb x hx
  | sel w c a b ic ia ib =>
    obtain ⟨c', a', b', hc, ha, hb, rfl⟩ := inv_sel h
    intro x hx
    cases hx with
    | refl => simp [Pending]
    | sel1 hx => exact ic _ hc x hx
    | sel2 hx => exact ia _ ha x hx
    | sel3 hx => exact ib _ hb x hx
  | cmp f a b ia ib =>
    obtain ⟨a', b', g, ha, hb, hg, rfl⟩ := inv_cmp h
    intro x hx
    cases hx with
    | refl => exact fmt_chosen hg
    | cmp1 hx => exact ia _ ha x hx
    | cmp2 hx => exact ib _ hb x hx
  | conn f a b ia ib =>
    obtain ⟨a', b', g, ha, hb, hg, rfl⟩ := inv_conn h
    intro x hx
    cases hx with
    | refl => exact fmt_chosen hg
    | conn1 hx => exact ia _ ha x hx
    | conn2 hx => exact ib _ hb x hx
  | lnot f a ia =>
    obtain ⟨a', g, ha, hg, rfl⟩ := inv_lnot h
    intro x hx
    cases hx with
    | refl => exact fmt_chosen hg
    | lnot hx => exact ia _ ha x hx
  | test f a ia =>
    obtain ⟨a', g, ha, hg, rfl⟩ := inv_test h
    intro x hx
    cases hx with
    | refl => exact fmt_chosen hg
    | test hx => exact ia _ ha x hx
  | other f a ia =>
    obtain ⟨a', ha, rfl⟩ := inv_other h
    intro x hx
    cases hx with
    | refl => simp [Pending]
    | other hx => exact ia _ ha x hx

theorem Sub.trans {x y z : Expr} (h : Sub x y) (h' : Sub y z) : Sub x z := by
  induction h' with
  | refl => exact h
  | op1 _ ih => exact .op1 ih
  | op2 _ ih => exact .op2 ih
  | sel1 _ ih => exact .sel1 ih
  | sel2 _ ih => exact .sel2 ih
  | sel3 _ ih => exact .sel3 ih
  | cmp1 _ ih => exact .cmp1 ih
  | cmp2 _ ih => exact .cmp2 ih
  | conn1 _ ih => exact .conn1 ih
  | conn2 _ ih => exact .conn2 ih
  | lnot _ ih => exact .lnot ih
  | test _ ih => exact .test ih
  | other _ ih => exact .other ih

theorem legalFmt_ok {f : BFmt} {w : ℕ} (h : f = .virtual → Standard w) : ∃ g, legalFmt f w = some g := by
  unfold legalFmt typeMap
  by_cases hf : f = .virtual
  · have hs : w = 8 ∨ w = 16 ∨ w = 32 ∨ w = 64 := h hf
    rw [if_pos hf, if_pos hs]; exact ⟨_, rfl⟩
  · rw [if_neg hf]; exact ⟨_, rfl⟩

theorem standard_of_max {w : ℕ} {l : List ℕ} (h : IsMax w l) (hl : ∀ x ∈ l, Standard x) : Standard w := hl w h.1

/-- **C141**: the pass succeeds on every expression whose virtual booleans depend on widths
for which there is a boolean format.  What is missing: C141_width_wrong. -/
theorem C141_succeeds_partial (e : Expr) (h : ∀ x, Sub x e → Pending x → ∀ w ∈ sources x, Standard w) :
    ∃ e', legalize e = some e' := by
  induction e with
  | num w | bvar f => unfold legalize; exact ⟨_, rfl⟩
  | op w a b ia ib =>
    obtain ⟨a', ha⟩ := ia (fun x hx => h x (.op1 hx))
    obtain ⟨b', hb⟩ := ib (fun x hx => h x (.op2 hx))
    unfold legalize; rw [ha, hb]; exact ⟨_, rfl⟩
  | sel w c a b ic ia ib =>
    obtain ⟨c', hc⟩ := ic (fun x hx => h x (.sel1 hx))
    obtain ⟨a', ha⟩ := ia (fun x hx => h x (.sel2 hx))
    obtain ⟨b', hb⟩ := ib (fun x hx => h x (.sel3 hx))
    unfold legalize; rw [hc, ha, hb]; exact ⟨_, rfl⟩
  | cmp f a b ia ib =>
    obtain ⟨a', ha⟩ := ia (fun x hx => h x (.cmp1 hx))
    obtain ⟨b', hb⟩ := ib (fun x hx => h x (.cmp2 hx))
    obtain ⟨g, hg⟩ := legalFmt_ok (f := f) (w := max a'.width b'.width) (by
      rintro rfl
      exact standard_of_max (isMax_append (C141_width a a' ha) (C141_width b b' hb))
        (h _ .refl (by simp [Pending])))
    unfold legalize; rw [ha, hb]; simp only [hg]; exact ⟨_, rfl⟩
  | conn f a b ia ib =>
    obtain ⟨a', ha⟩ := ia (fun x hx => h x (.conn1 hx))
    obtain ⟨b', hb⟩ := ib (fun x hx => h x (.conn2 hx))
    obtain ⟨g, hg⟩ := legalFmt_ok (f := f) (w := max a'.width b'.width) (by
      rintro rfl
      exact standard_of_max (isMax_append (C141_width a a' ha) (C141_width b b' hb))
        (h _ .refl (by simp [Pending])))
    unfold legalize; rw [ha, hb]; simp only [hg]; exact ⟨_, rfl⟩
  | lnot f a ia =>
    obtain ⟨a', ha⟩ := ia (fun x hx => h x (.lnot hx))
    obtain ⟨g, hg⟩ := legalFmt_ok (f := f) (w := a'.width) (by
      rintro rfl
      exact standard_of_max (C141_width a a' ha) (h (.lnot .virtual a) .refl (by simp [Pending])))
    unfold legalize; rw [ha]; simp only [hg]; exact ⟨_, rfl⟩
  | test f a ia =>
    obtain ⟨a', ha⟩ := ia (fun x hx => h x (.test hx))
    obtain ⟨g, hg⟩ := legalFmt_ok (f := f) (w := a'.width) (by
      rintro rfl
      exact standard_of_max (C141_width a a' ha) (h (.test .virtual a) .refl (by simp [Pending])))
    unfold legalize; rw [ha]; simp only [hg]; exact ⟨_, rfl⟩
  | other f a ia =>
    obtain ⟨a', ha⟩ := ia (fun x hx => h x (.other hx))
    unfold legalize; rw [ha]; exact ⟨_, rfl⟩

/-- **C141**: run by the pass scheduler, the pass returns the new expression when the root
is a number, a variable, a boolean operation whose width is chosen by the pass or a
connective, negation or known test of given width.
What is missing: C141_root_wrong. -/
theorem C141_root_partial (e e' : Expr) (h : legalize e = some e')
    (hr : ∀ w a b, e ≠ .cmp (.bits w) a b) (ho : ∀ a, e ≠ .other .virtual a) :
    executeOnOptree e = some (some e') := by
  unfold executeOnOptree
  rw [h]
  cases e with
  | cmp f a b =>
    cases f with
    | virtual => simp [legalizable, changed]
    | bits w => exact absurd rfl (hr w a b)
  | other f a =>
    cases f with
    | virtual => exact absurd rfl (ho a)
    | bits w => simp [legalizable]
  | conn f a b | lnot f a | test f a => cases f <;> simp [legalizable, changed]
  | num | op | sel | bvar => simp [legalizable]

/-- Roots for which the pass returns `None`: a typed comparison, a test which it does not know. -/
theorem C141_root_wrong : executeOnOptree (.cmp (.bits 32) (.num 32) (.num 32)) = some none ∧
    executeOnOptree (.other .virtual (.num 32)) = some none := by decide

/-- `execute` returns an expression exactly when the root is a boolean operation whose
width is chosen. -/
theorem C141_execute_partial (e e' : Expr) (h : legalize e = some e') :
    execute e = some (some e') ↔ Pending e := by
  unfold execute
  rw [h]
  cases e <;> simp [changed, Pending]

/-- `execute` on a number gives `None`. -/
theorem C141_execute_wrong : ∃ e e', executeOnOptree e = some (some e') ∧ execute e = some none :=
  ⟨.sel 32 (.cmp .virtual (.num 32) (.num 32)) (.num 32) (.num 32), _, rfl, rfl⟩

/-- A comparison of numbers of 80 or 128 bits stops the pass with a `KeyError`. -/
theorem C141_width_wrong : ∀ w ∈ [80, 128], legalize (.cmp .virtual (.num w) (.num w)) = none := by decide

/-- A connective of booleans of different widths keeps operands of different widths. -/
theorem C141_mixed_wrong : ∃ a b e', legalize (.conn .virtual a b) = some e' ∧
    ∃ g a' b', e' = .conn g a' b' ∧ a'.width ≠ g.width :=
  ⟨.cmp .virtual (.num 32) (.num 32), .cmp .virtual (.num 64) (.num 64), _, rfl, _, _, _, rfl, by decide⟩

example : legalize (.conn .virtual (.lnot .virtual (.cmp .virtual (.num 16) (.num 64))) (.test .virtual (.num 32))) =
    some (.conn (.bits 64) (.lnot (.bits 64) (.cmp (.bits 64) (.num 16) (.num 64))) (.test (.bits 32) (.num 32))) := by decide
example : sources (.conn .virtual (.lnot .virtual (.cmp .virtual (.num 16) (.num 64))) (.test .virtual (.num 32))) = [16, 64, 32] := by
  decide
example : ∀ x, Sub x (.cmp .virtual (.num 16) (.num 64)) → Pending x → ∀ w ∈ sources x, Standard w := by
  intro x hx hp
  cases hx with
  | refl => simp [sources, Expr.width, Standard]
  | cmp1 h => cases h; exact hp.elim
  | cmp2 h => cases h; exact hp.elim

end Verif.SBool
