import Verif.VBool.Model
import Mathlib.Data.List.Basic

namespace Verif.VBool

theorem boolVector_ok {w n : ℕ} (hw : w = 32 ∨ w = 64) (hn : n = 2 ∨ n = 3 ∨ n = 4 ∨ n = 8) : boolVector w n = .ok (.vec (boolOf w) n) := by
  unfold boolVector boolOf
  rw [if_pos hn]
  rcases hw with rfl | rfl <;> simp

theorem boolOf_bits {w n : ℕ} (hw : w = 32 ∨ w = 64) : (Fmt.vec (boolOf w) n).bits = w := by
  unfold boolOf
  rcases hw with rfl | rfl <;> simp [Fmt.bits]

theorem legalFmt_mask {c : Cls} {w n : ℕ} (hc : c.Mask) (hw : w = 32 ∨ w = 64) (hn : n = 2 ∨ n = 3 ∨ n = 4 ∨ n = 8) (l : List Fmt)
    (hl : l.length = c.arity) (hb : ∀ a ∈ l, a.bits = w) : legalFmt c (.vec .virtual n) l = .ok (.vec (boolOf w) n) := by
  rw [← boolVector_ok hw hn]
  rcases l with _ | ⟨a, _ | ⟨b, t⟩⟩
  · rcases hc with rfl | rfl | rfl | rfl | rfl <;> simp [Cls.arity] at hl
  · have ha := hb a (by simp)
    rcases hc with rfl | rfl | rfl | rfl | rfl <;> simp [Cls.arity] at hl <;> simp [legalFmt, isVirtual, lanes, ha]
  · have ha := hb a (by simp)
    have hb' := hb b (by simp)
    rcases hc with rfl | rfl | rfl | rfl | rfl <;> simp [Cls.arity] at hl <;> simp [legalFmt, isVirtual, lanes, ha, hb']

theorem legalFmt_other (f : Fmt) (l : List Fmt) : legalFmt .other f l = .ok f := by simp [legalFmt, isVirtual]

theorem args_ok {w n : ℕ} (l : List Node) (h : ∀ a ∈ l, ∃ a', legalize a = .ok a' ∧ Legal w n a a' ∧ a'.fmt.bits = w) :
    ∃ l', legalizeArgs l = .ok l' ∧ l.length = l'.length ∧ (∀ p ∈ l.zip l', Legal w n p.1 p.2) ∧ ∀ a ∈ l', a.fmt.bits = w := by
  induction l with
  | nil => exact ⟨[], by rw [legalizeArgs], rfl, by simp, by simp⟩
  | cons a l ih =>
    obtain ⟨a', h1, h2, h3⟩ := h a (by simp)
    obtain ⟨l', h4, h5, h6, h7⟩ := ih (fun b hb => h b (by simp [hb]))
    refine ⟨a' :: l', by rw [legalizeArgs, h1, h4]; rfl, by simp [h5], ?_, ?_⟩
    · intro p hp
      rw [List.zip_cons_cons, List.mem_cons] at hp
      rcases hp with rfl | hp
      · exact h2
      · exact h6 p hp
    · intro b hb
      rcases List.mem_cons.1 hb with rfl | hb
      · exact h3
      · exact h7 b hb

/-- **C128** (one width). For every graph whose numbers have lanes of the same width, 32 or 64 bits, the pass ends without error; nothing but the formats of the masks changes, and each mask gets boolean lanes of the width of the lanes of its operands. Missing from the English claim: graphs with several widths, other widths, other tests (see the `_wrong` theorems). -/
theorem C128_uniform_partial (w n : ℕ) (hw : w = 32 ∨ w = 64) (hn : n = 2 ∨ n = 3 ∨ n = 4 ∨ n = 8) (t : Node) (h : Uniform w n t) :
    ∃ t', legalize t = .ok t' ∧ Legal w n t t' ∧ t'.fmt.bits = w := by
  induction h with
  | @mask c args hc hl _ ih =>
    obtain ⟨l', h1, h2, h3, h4⟩ := args_ok args ih
    refine ⟨.mk c (.vec (boolOf w) n) l', ?_, .mask hc h2 h3 h4, boolOf_bits hw⟩
    have := legalFmt_mask hc hw hn (l'.map Node.fmt) (by rw [List.length_map, ← h2, hl]) (by simpa using h4)
    rw [legalize, h1]
    show (do let g ← legalFmt c (.vec .virtual n) (l'.map Node.fmt); return Node.mk c g l') = _
    rw [this]; rfl
  | @num args _ ih =>
    obtain ⟨l', h1, h2, h3, _⟩ := args_ok args ih
    refine ⟨.mk .other (.vec (.num w) n) l', ?_, .other h2 h3, rfl⟩
    rw [legalize, h1]; rfl
  | @scalar args _ ih =>
    obtain ⟨l', h1, h2, h3, _⟩ := args_ok args ih
    refine ⟨.mk .other (.scalar w) l', ?_, .other h2 h3, rfl⟩
    rw [legalize, h1]; rfl

theorem boolVector_form {w n : ℕ} {f : Fmt} (h : boolVector w n = .ok f) : (w = 32 ∨ w = 64) ∧ (n = 2 ∨ n = 3 ∨ n = 4 ∨ n = 8) ∧ f = .vec (boolOf w) n := by
  unfold boolVector at h
  split at h
  · rename_i hn
    split at h
    · rename_i hw; cases h; exact ⟨Or.inl hw, hn, by simp [boolOf, hw]⟩
    · split at h
      · rename_i hw; cases h; exact ⟨Or.inr hw, hn, by simp [boolOf, hw]⟩
      · cases h
  · cases h

theorem legalFmt_again {c : Cls} {f g : Fmt} {l : List Fmt} (h : legalFmt c f l = .ok g) : legalFmt c g l = .ok g := by
  have key : ∀ w, boolVector w (lanes f) = .ok g → w = 64 ∨ boolVector w (lanes g) = .ok g := by
    intro w hw
    obtain ⟨h1, h2, h3⟩ := boolVector_form hw
    rcases h1 with rfl | rfl
    · right; rw [h3] at hw ⊢; exact hw
    · left; rfl
  have big : ∀ w, boolVector w (lanes f) = .ok g → w = 64 → isVirtual c g = false := by
    intro w hw h64
    obtain ⟨-, -, h3⟩ := boolVector_form hw
    subst h64
    rw [h3]
    cases c <;> simp [isVirtual, boolOf]
  by_cases hv : isVirtual c f
  · unfold legalFmt at h
    rw [if_neg (by simp [hv])] at h
    by_cases hg : isVirtual c g
    · unfold legalFmt
      rw [if_neg (by simp [hg])]
      split at h
      all_goals first
        | (rcases key _ h with h64 | hk
           · rw [big _ h h64] at hg; cases hg
           · exact hk)
        | (cases h; rfl)
        | cases h
    · unfold legalFmt; rw [if_pos (by simpa using hg)]
  · unfold legalFmt at h
    rw [if_pos (by simpa using hv)] at h
    cases h
    unfold legalFmt; rw [if_pos (by simpa using hv)]

mutual
theorem again : ∀ (t t' : Node), legalize t = .ok t' → legalize t' = .ok t'
  | .mk c f args, t', h => by
    rw [legalize] at h
    rcases h1 : legalizeArgs args with e | l
    · rw [h1] at h; cases h
    · rw [h1] at h
      change (do let g ← legalFmt c f (l.map Node.fmt); return Node.mk c g l) = _ at h
      rcases h2 : legalFmt c f (l.map Node.fmt) with e | g
      · rw [h2] at h; cases h
      · rw [h2] at h
        cases h
        rw [legalize, againL args l h1]
        change (do let g ← legalFmt c g (l.map Node.fmt); return Node.mk c g l) = _
        rw [legalFmt_again h2]; rfl

theorem againL : ∀ (l l' : List Node), legalizeArgs l = .ok l' → legalizeArgs l' = .ok l'
  | [], l', h => by rw [legalizeArgs] at h; cases h; rw [legalizeArgs]
  | a :: l, l', h => by
    rw [legalizeArgs] at h
    rcases h1 : legalize a with e | a'
    · rw [h1] at h; cases h
    · rw [h1] at h
      change (do let l' ← legalizeArgs l; return a' :: l') = _ at h
      rcases h2 : legalizeArgs l with e | l''
      · rw [h2] at h; cases h
      · rw [h2] at h
        cases h
        rw [legalizeArgs, again a a' h1, againL l l'' h2]; rfl
end

/-- **C128** (idempotence). The pass changes nothing when it is run again. -/
theorem C128_idempotent (t t' : Node) (h : legalize t = .ok t') : legalize t' = .ok t' := again t t' h

/-- **C128** (wrong: two widths). A connective of a mask of 32-bit lanes and of one of 64-bit lanes gets 64-bit lanes, and its first operand keeps its 32-bit lanes. -/
theorem C128_mixed_wrong (c : Cls) (hc : c = .land ∨ c = .lor) (n : ℕ) (hn : n = 2 ∨ n = 3 ∨ n = 4 ∨ n = 8) (s t : Node) (hs : Uniform 32 n s) (ht : Uniform 64 n t) :
    ∃ s' t', legalize (.mk c (.vec .virtual n) [s, t]) = .ok (.mk c (.vec .bool64 n) [s', t']) ∧ s'.fmt.bits = 32 ∧ t'.fmt.bits = 64 := by
  obtain ⟨s', h1, -, h2⟩ := C128_uniform_partial 32 n (Or.inl rfl) hn s hs
  obtain ⟨t', h3, -, h4⟩ := C128_uniform_partial 64 n (Or.inr rfl) hn t ht
  refine ⟨s', t', ?_, h2, h4⟩
  have : legalFmt c (.vec .virtual n) [s'.fmt, t'.fmt] = .ok (.vec .bool64 n) := by
    have hb := boolVector_ok (w := 64) (Or.inr rfl) hn
    rcases hc with rfl | rfl <;> simp [legalFmt, isVirtual, lanes, h2, h4, hb, boolOf]
  rw [legalize, legalizeArgs, legalizeArgs, legalizeArgs, h1, h3]
  change (do let g ← legalFmt c (.vec .virtual n) [s'.fmt, t'.fmt]; return Node.mk c g [s', t']) = _
  rw [this]; rfl

/-- **C128** (wrong: other tests). A test that is not in the list of the pass keeps its boolean lanes without a width, for which there is no C type. -/
theorem C128_test_wrong (n : ℕ) (args args' : List Node) (h : legalizeArgs args = .ok args') :
    legalize (.mk .otherTest (.vec .virtual n) args) = .ok (.mk .otherTest (.vec .virtual n) args') := by
  rw [legalize, h]
  change (do let g ← legalFmt .otherTest (.vec .virtual n) (args'.map Node.fmt); return Node.mk .otherTest g args') = _
  have : legalFmt .otherTest (.vec .virtual n) (args'.map Node.fmt) = .ok (.vec .virtual n) := by simp [legalFmt, isVirtual]
  rw [this]; rfl

/-- **C128** (wrong: other widths). A comparison of lanes that do not have 32 or 64 bits stops the pass. -/
theorem C128_width_wrong (w n : ℕ) (hw : w ≠ 32 ∧ w ≠ 64) (s t : Node) (hs : s.args = [] ∧ s.cls = .other ∧ s.fmt = .vec (.num w) n) (ht : t.args = [] ∧ t.cls = .other ∧ t.fmt = .vec (.num w) n) :
    legalize (.mk .comparison (.vec .virtual n) [s, t]) = .error .key := by
  obtain ⟨c, f, a⟩ := s
  obtain ⟨c', f', a'⟩ := t
  obtain ⟨rfl, rfl, rfl⟩ := hs
  obtain ⟨rfl, rfl, rfl⟩ := ht
  have hl : ∀ f, legalize (.mk .other f []) = .ok (.mk .other f []) := fun f => by rw [legalize, legalizeArgs]; rfl
  have hb : boolVector w n = .error .key := by
    unfold boolVector
    rw [if_neg hw.1, if_neg hw.2]; split <;> rfl
  simp only [Node.args, Node.cls, Node.fmt, legalize, legalizeArgs, bind, Except.bind, pure, Except.pure, legalFmt_other, List.map]
  simp [legalFmt, isVirtual, lanes, Fmt.bits, hb]

/-- **C128** (wrong: assembling). Only the first two operands of an assembling decide: a third operand with wider lanes is ignored. -/
theorem C128_assembling_wrong (n : ℕ) (hn : n = 2 ∨ n = 3 ∨ n = 4 ∨ n = 8) (f : Fmt) :
    legalize (.mk .assembling (.vec .virtual n) [.mk .other (.scalar 32) [], .mk .other (.scalar 32) [], .mk .other f []]) =
      .ok (.mk .assembling (.vec .bool32 n) [.mk .other (.scalar 32) [], .mk .other (.scalar 32) [], .mk .other f []]) := by
  have hb := boolVector_ok (w := 32) (Or.inl rfl) hn
  simp only [legalize, legalizeArgs, bind, Except.bind, pure, Except.pure, legalFmt_other, List.map]
  simp [legalFmt, isVirtual, lanes, Fmt.bits, hb, boolOf, Node.fmt]

/-- `not (x < 1.0)` on four lanes of 64 bits -/
def sample : Node := .mk .lnot (.vec .virtual 4) [.mk .comparison (.vec .virtual 4) [.mk .other (.vec (.num 64) 4) [], .mk .other (.scalar 64) []]]

example : Uniform 64 4 sample := by
  refine .mask (by simp [Cls.Mask]) rfl ?_
  intro a ha
  simp at ha; subst ha
  refine .mask (by simp [Cls.Mask]) rfl ?_
  intro a ha
  simp at ha
  rcases ha with rfl | rfl
  · exact .num (by simp)
  · exact .scalar (by simp)

example : legalize sample = .ok (.mk .lnot (.vec .bool64 4) [.mk .comparison (.vec .bool64 4) [.mk .other (.vec (.num 64) 4) [], .mk .other (.scalar 64) []]]) := by
  simp [legalize, legalizeArgs, sample, bind, Except.bind, pure, Except.pure, legalFmt, isVirtual, lanes, Fmt.bits, boolVector, Node.fmt]

end Verif.VBool
