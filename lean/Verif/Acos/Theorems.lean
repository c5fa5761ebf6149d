import Verif.Acos.Model

namespace Verif.Acos

/-- **C143**: out of the domain the generated function returns a NaN.
What is missing: C143_domain_wrong. -/
theorem C143_outside_partial (ε : ℝ) (v : Val) (h : ∀ x, v = .fin x → x < -1 ∨ 1 < x) :
    IsAcos ε v (scheme.run v) := by
  cases v with
  | nan => rfl
  | inf s => rfl
  | fin x =>
    unfold IsAcos
    simp only []
    rw [if_neg]
    · rfl
    · rintro ⟨h1, h2⟩
      rcases h x rfl with h | h
      · exact absurd h (not_lt.2 h1)
      · exact absurd h (not_lt.2 h2)

/-- For every number of the domain the generated function is wrong, whatever the
accuracy. -/
theorem C143_domain_wrong (ε x : ℝ) (h1 : -1 ≤ x) (h2 : x ≤ 1) : ¬ IsAcos ε (.fin x) (scheme.run (.fin x)) := by
  unfold IsAcos
  simp only []
  rw [if_pos ⟨h1, h2⟩]
  rintro ⟨y, hy, _⟩
  simp [scheme, Scheme.run] at hy

/-- **C143**: the block which is built and dropped is an arc cosine up to `ε` wherever the
polynomial is: with the interval of the approximation, on `[-1/2, 1/2]` and out of the domain.
What is missing: C143_block_wrong. -/
theorem C143_block_partial (p : ℝ → ℝ) (ε : ℝ) (hp : ∀ x, -(1 / 2) ≤ x → x ≤ 1 / 2 → |p x - Real.arccos x| ≤ ε)
    (v : Val) (hv : ∀ x, v = .fin x → (-(1 / 2) ≤ x ∧ x ≤ 1 / 2) ∨ x < -1 ∨ 1 < x) :
    IsAcos ε v ((mainBlock p).run v) := by
  cases v with
  | nan => simp [IsAcos, mainBlock, Scheme.run, outside]
  | inf s => simp [IsAcos, mainBlock, Scheme.run, outside]
  | fin x =>
    rcases hv x rfl with ⟨h1, h2⟩ | h
    · have hin : -1 ≤ x ∧ x ≤ 1 := ⟨by linarith, by linarith⟩
      have hout : ¬ (1 < x ∨ x < -1) := by rintro (h | h) <;> linarith
      unfold IsAcos
      simp only []
      rw [if_pos hin]
      exact ⟨p x, by simp [mainBlock, Scheme.run, outside, hout], hp x h1 h2⟩
    · have hin : ¬ (-1 ≤ x ∧ x ≤ 1) := by rintro ⟨h1, h2⟩; rcases h with h | h <;> linarith
      have hout : 1 < x ∨ x < -1 := h.symm
      unfold IsAcos
      simp only []
      rw [if_neg hin]
      simp [mainBlock, Scheme.run, outside, hout]

/-- The hypothesis on the polynomial says nothing about the rest of the domain: there are
functions which are exact on `[-1/2, 1/2]` with which the block is wrong at 1. -/
theorem C143_block_wrong : ∃ p : ℝ → ℝ, (∀ x, -(1 / 2) ≤ x → x ≤ 1 / 2 → p x = Real.arccos x) ∧
    ¬ IsAcos 1 (.fin 1) ((mainBlock p).run (.fin 1)) := by
  refine ⟨fun x => if x ≤ 1 / 2 then Real.arccos x else 2, ?_, ?_⟩
  · intro x _ h
    simp only []
    rw [if_pos h]
  · unfold IsAcos
    simp only []
    rw [if_pos ⟨by norm_num, le_refl _⟩]
    rintro ⟨y, hy, hb⟩
    have hout : ¬ ((1 : ℝ) < 1 ∨ (1 : ℝ) < -1) := by norm_num
    have h2 : ¬ ((1 : ℝ) ≤ 1 / 2) := by norm_num
    simp only [mainBlock, Scheme.run, outside, if_neg hout, if_neg h2, Val.fin.injEq] at hy
    subst hy
    rw [Real.arccos_one] at hb
    norm_num at hb

/-- A number out of the domain and one inside. -/
example : ∀ x, Val.fin 2 = .fin x → x < -1 ∨ 1 < x := by
  intro x hx; cases hx; right; norm_num
example : ∃ p : ℝ → ℝ, ∀ x, -(1 / 2) ≤ x → x ≤ 1 / 2 → |p x - Real.arccos x| ≤ 1 / 2 ^ 24 :=
  ⟨Real.arccos, fun x _ _ => by simp⟩

end Verif.Acos
