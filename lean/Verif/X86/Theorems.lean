import Verif.X86.Model

/-! # C85: vector comparisons and selections on x86 -/

namespace Verif.X86

open Verif.Float (Fmt Val)
open Verif.Special

theorem ext_tri (a b : Val) : (ext a < ext b ∧ ext a ≠ ext b ∧ ¬ ext b < ext a) ∨ (¬ ext a < ext b ∧ ext a = ext b ∧ ¬ ext b < ext a) ∨
    (¬ ext a < ext b ∧ ext a ≠ ext b ∧ ext b < ext a) := by
  rcases lt_trichotomy (ext a) (ext b) with h | h | h
  · exact Or.inl ⟨h, h.ne, h.not_gt⟩
  · exact Or.inr (Or.inl ⟨h ▸ lt_irrefl _, h, h ▸ lt_irrefl _⟩)
  · exact Or.inr (Or.inr ⟨h.not_gt, h.ne', h⟩)

/-- the relations of floating-point data, from the three basic ones -/
theorem flt_cases (c : Cmp) (a b : Val) : c.flt a b =
    match c with
    | .eq => decide (eqSpec a b = .yes)
    | .ne => !decide (eqSpec a b = .yes)
    | .lt => decide (ltSpec a b = .yes)
    | .le => decide (ltSpec a b = .yes) || decide (eqSpec a b = .yes)
    | .gt => decide (ltSpec b a = .yes)
    | .ge => decide (ltSpec b a = .yes) || decide (eqSpec a b = .yes) := by
  by_cases hn : IsNaN a ∨ IsNaN b
  · have hn' : IsNaN b ∨ IsNaN a := hn.symm
    cases c <;> simp [Cmp.flt, eqSpec, neSpec, ltSpec, leSpec, hn, hn']
  · have hn' : ¬ (IsNaN b ∨ IsNaN a) := fun h => hn h.symm
    rcases ext_tri a b with ⟨h1, h2, h3⟩ | ⟨h1, h2, h3⟩ | ⟨h1, h2, h3⟩
    · have h4 : ext a ≤ ext b := h1.le
      have h5 : ¬ ext b ≤ ext a := h1.not_ge
      cases c <;> simp [Cmp.flt, eqSpec, neSpec, ltSpec, leSpec, hn, hn', h1, h2, h3, h4, h5]
    · cases c <;> simp [Cmp.flt, eqSpec, neSpec, ltSpec, leSpec, hn, hn', h2]
    · have h4 : ext b ≤ ext a := h3.le
      have h5 : ¬ ext a ≤ ext b := h3.not_ge
      cases c <;> simp [Cmp.flt, eqSpec, neSpec, ltSpec, leSpec, hn, hn', h1, h2, h3, h4, h5]

/-- the immediates of `_mm256_cmp_ps` -/
theorem imm_ok (F : Fmt) {w : ℕ} (c : Cmp) (x y : BitVec w) : (Prim.imm (immCode c)).holds F x y = c.flt (F.decode x.toNat) (F.decode y.toNat) := by
  rw [flt_cases]
  simp only [Prim.holds]
  generalize F.decode x.toNat = a
  generalize F.decode y.toNat = b
  by_cases hn : IsNaN a ∨ IsNaN b
  · have hn' : IsNaN b ∨ IsNaN a := hn.symm
    cases c <;> simp [immCode, hwPred, eqSpec, ltSpec, hn, hn']
  · have hn' : ¬ (IsNaN b ∨ IsNaN a) := fun h => hn h.symm
    rcases ext_tri a b with ⟨h1, h2, h3⟩ | ⟨h1, h2, h3⟩ | ⟨h1, h2, h3⟩ <;> cases c <;> simp [immCode, hwPred, eqSpec, ltSpec, hn, hn', h1, h2, h3]

theorem mask_not (w : ℕ) (b : Bool) : ~~~ (mask w b) &&& BitVec.allOnes w = mask w (!b) := by cases b <;> simp [mask]
theorem mask_or (w : ℕ) (a b : Bool) : mask w a ||| mask w b = mask w (a || b) := by cases a <;> cases b <;> simp [mask]
theorem mask_and (w : ℕ) (a b : Bool) : mask w a &&& mask w b = mask w (a && b) := by cases a <;> cases b <;> simp [mask]

/-- the comparisons that do not depend on the sign of unsigned integers -/
def Signed (k : Kind) (c : Cmp) : Prop := k = .i32 ∨ k = .i64 ∨ k = .f32 ∨ c = .eq ∨ c = .ne

theorem int_prims (F : Fmt) {w : ℕ} (x y : BitVec w) : Prim.eqI.holds F x y = decide (x.toInt = y.toInt) ∧ Prim.gtI.holds F x y = decide (y.toInt < x.toInt) ∧
    Prim.ltI.holds F x y = decide (x.toInt < y.toInt) ∧ (x.toInt = y.toInt ↔ (x.toNat : ℤ) = y.toNat) := by
  refine ⟨?_, ?_, ?_, ?_⟩
  · simp only [Prim.holds, BitVec.toInt_inj]
  · simp only [Prim.holds, BitVec.slt_eq_decide]
  · simp only [Prim.holds, BitVec.slt_eq_decide]
  · simp only [BitVec.toInt_inj, Nat.cast_inj, BitVec.toNat_inj]

theorem cmp_ok (F : Fmt) {w : ℕ} (env : ℕ → BitVec w) (t : Target) (k : Kind) (c : Cmp) (a b v : V) (hs : Signed k c) (h : cmpV t k c a b = .ok v) :
    v.eval F env = mask w (k.cmp F c (a.eval F env) (b.eval F env)) := by
  obtain ⟨e1, e2, e3, e4⟩ := int_prims F (a.eval F env) (b.eval F env)
  obtain ⟨-, e2', -, -⟩ := int_prims F (b.eval F env) (a.eval F env)
  have e5 := imm_ok F (w := w)
  cases t <;> cases k <;> cases c <;> simp [cmpV, direct, sseCmp, avxCmp, Signed, bind, Except.bind, pure, Except.pure] at h hs <;> subst h <;>
    simp only [V.eval, mask_not, mask_or, e1, e2, e2', e3, e5, Kind.cmp, Cmp.int] <;>
    first
      | rfl
      | (congr 1; rw [Bool.eq_iff_iff]; simp only [Bool.or_eq_true, Bool.not_eq_true', decide_eq_true_eq, decide_eq_false_iff_not, ne_eq] <;> omega)
      | (simp only [flt_cases]; done)

/-- the format has instructions for the comparisons of its elements -/
def Has (t : Target) (k : Kind) : Prop := k = .i32 ∨ k = .u32 ∨ k = .f32 ∨ (k = .i64 ∧ t = .avx2)

/-- C85 (partial): a comparison of vectors of signed integers or of floating-point numbers, or an equality or inequality of unsigned integers, is lowered to code that computes
the mask of its truth in every lane, including for NaN; the other comparisons of unsigned integers are missing: `C85_unsigned_wrong` -/
theorem C85_comparison_partial (F : Fmt) {w : ℕ} (env : ℕ → BitVec w) (t : Target) (k : Kind) (c : Cmp) (a b : ℕ) (ht : Has t k) (hs : Signed k c) :
    ∃ v, cmpV t k c (.arg a) (.arg b) = .ok v ∧ v.eval F env = mask w (k.cmp F c (env a) (env b)) := by
  have : ∃ v, cmpV t k c (.arg a) (.arg b) = .ok v := by
    cases t <;> cases k <;> cases c <;> simp [Has] at ht <;> exact ⟨_, rfl⟩
  obtain ⟨v, hv⟩ := this
  exact ⟨v, hv, cmp_ok F env t k c _ _ v hs hv⟩

example : Has .avx2 .i64 ∧ Signed .i64 .le := ⟨by simp [Has], by simp [Signed]⟩

/-- C85: the ordered comparisons of unsigned integers are signed: half of the range is less than zero -/
theorem C85_unsigned_wrong (F : Fmt) (w : ℕ) (t : Target) (x : BitVec (w + 1)) (hx : 2 ^ w ≤ x.toNat) :
    ∃ v, cmpV t .u32 .lt (.arg 0) (.arg 1) = .ok v ∧ v.eval F (fun n => if n = 0 then x else 0) = BitVec.allOnes (w + 1) ∧ Kind.cmp F .u32 .lt x 0 = false := by
  have hlt : x.toInt < (0 : BitVec (w + 1)).toInt := by
    have h1 := x.isLt
    rw [BitVec.toInt_eq_toNat_cond, if_neg (by rw [pow_succ]; omega)]
    have h2 : ((2 : ℕ) ^ (w + 1) : ℕ) > x.toNat := h1
    simp only [BitVec.ofNat_eq_ofNat, BitVec.toInt_zero]
    omega
  cases t
  · refine ⟨_, rfl, ?_, ?_⟩
    · simp only [V.eval, (int_prims F _ _).2.2.1, if_true, if_neg (show ¬ (1 = 0) by decide)]
      rw [decide_eq_true hlt]; rfl
    · simp [Kind.cmp, Cmp.int]
  · refine ⟨_, rfl, ?_, ?_⟩
    · simp only [V.eval, (int_prims F _ _).2.1, if_true, if_neg (show ¬ (1 = 0) by decide)]
      rw [decide_eq_true hlt]; rfl
    · simp [Kind.cmp, Cmp.int]

example : 2 ^ 31 ≤ (0x80000000#32).toNat := by decide

/-! ## Selections -/

/-- the comparisons of a condition do not depend on the sign of unsigned integers, and it has no vector of booleans -/
def CondOk : Cond → Prop
  | .cmp k c _ _ => Signed k c
  | .not a => CondOk a
  | .and a b => CondOk a ∧ CondOk b
  | .or a b => CondOk a ∧ CondOk b
  | .var _ => False

theorem bind_ok {α β : Type} {x : Except Err α} {f : α → Except Err β} {v : β} (h : (x >>= f) = .ok v) : ∃ a, x = .ok a ∧ f a = .ok v := by
  cases x with
  | error e => cases h
  | ok a => exact ⟨a, rfl, h⟩

theorem cond_ok (F : Fmt) {w : ℕ} (env : ℕ → BitVec w) (t : Target) (cond : Cond) (hc : CondOk cond) : ∀ v, condV t cond = .ok v → v.eval F env = mask w (cond.holds F env) := by
  induction cond with
  | cmp k c a b =>
    intro v h
    have h' : cmpV t k c (.arg a) (.arg b) = .ok v := by
      cases t <;> cases k <;> cases c <;> first | exact h | (simp [condV, boolCmp] at h)
    exact cmp_ok F env t k c _ _ v hc h'
  | not a ih =>
    intro v h
    obtain ⟨x, h1, h2⟩ := bind_ok h
    cases h2
    simp only [V.eval, ih hc x h1, mask_not, Cond.holds]
  | and a b iha ihb =>
    intro v h
    obtain ⟨x, h1, h2⟩ := bind_ok h
    obtain ⟨y, h3, h4⟩ := bind_ok h2
    cases h4
    simp only [V.eval, iha hc.1 x h1, ihb hc.2 y h3, mask_and, Cond.holds]
  | or a b iha ihb =>
    intro v h
    obtain ⟨x, h1, h2⟩ := bind_ok h
    obtain ⟨y, h3, h4⟩ := bind_ok h2
    cases h4
    simp only [V.eval, iha hc.1 x h1, ihb hc.2 y h3, mask_or, Cond.holds]
  | var n => exact hc.elim

/-- the condition is not one comparison of floating-point numbers by `<`, `<=`, `>` or `>=` with a NaN -/
def NotUnordered (F : Fmt) {w : ℕ} (env : ℕ → BitVec w) : Cond → Prop
  | .cmp .f32 c a b => c = .eq ∨ c = .ne ∨ ¬ (IsNaN (F.decode (env a).toNat) ∨ IsNaN (F.decode (env b).toNat))
  | _ => True

theorem invert_flt (c : Cmp) (a b : Val) (h : c = .eq ∨ c = .ne ∨ ¬ (IsNaN a ∨ IsNaN b)) : (invert c).flt a b = !c.flt a b := by
  rcases h with h | h | h
  · subst h; simp [invert, flt_cases]
  · subst h; simp [invert, flt_cases]
  · have h' : ¬ (IsNaN b ∨ IsNaN a) := fun hh => h hh.symm
    rcases ext_tri a b with ⟨h1, h2, h3⟩ | ⟨h1, h2, h3⟩ | ⟨h1, h2, h3⟩ <;> cases c <;> simp [invert, flt_cases, eqSpec, ltSpec, h, h', h1, h2, h3]

theorem invert_cmp (F : Fmt) {w : ℕ} (k : Kind) (c : Cmp) (x y : BitVec w) (h : k = .f32 → c = .eq ∨ c = .ne ∨ ¬ (IsNaN (F.decode x.toNat) ∨ IsNaN (F.decode y.toNat))) :
    k.cmp F (invert c) x y = !k.cmp F c x y := by
  cases k
  case f32 => exact invert_flt c _ _ (h rfl)
  all_goals cases c <;> simp [Kind.cmp, invert, Cmp.int] <;> (rw [Bool.eq_iff_iff]; simp)

theorem signed_invert {k : Kind} {c : Cmp} (h : Signed k c) : Signed k (invert c) := by
  cases k <;> cases c <;> simp [Signed, invert] at h ⊢

theorem squash_ok (F : Fmt) {w : ℕ} (env : ℕ → BitVec w) (t : Target) (cond : Cond) (neg : Bool) (hc : CondOk cond) (hn : NotUnordered F env cond) (v : V)
    (h : squash t cond neg = .ok v) : v.eval F env = mask w (xor neg (cond.holds F env)) := by
  cases cond with
  | cmp k c a b =>
    cases neg
    · simpa [V.eval, Cond.holds] using cmp_ok F env t k c _ _ v hc h
    · have := cmp_ok F env t k (invert c) _ _ v (signed_invert hc) h
      rw [this]
      simp only [V.eval]
      rw [invert_cmp F k c _ _ (by rintro rfl; exact hn)]
      simp [Cond.holds]
  | not a => cases h
  | and a b =>
    cases neg
    · simpa using cond_ok F env t _ hc v h
    · obtain ⟨x, h1, h2⟩ := bind_ok h
      cases h2
      simp only [V.eval, cond_ok F env t _ hc x h1, mask_not, Bool.true_xor]
  | or a b =>
    cases neg
    · simpa using cond_ok F env t _ hc v h
    · obtain ⟨x, h1, h2⟩ := bind_ok h
      cases h2
      simp only [V.eval, cond_ok F env t _ hc x h1, mask_not, Bool.true_xor]
  | var n => exact hc.elim

theorem tree_of_ok {cond : Cond} (h : CondOk cond) : isTree cond = true := by
  induction cond with
  | cmp k c a b => rfl
  | not a ih => exact ih h
  | and a b iha ihb => simp [isTree, iha h.1, ihb h.2]
  | or a b iha ihb => simp [isTree, iha h.1, ihb h.2]
  | var n => exact h.elim

theorem maskSel_tree {t : Target} {cond : Cond} (h : isTree cond = true) (fuel : ℕ) (neg : Bool) : select.maskSel t fuel cond neg = squash t cond neg := by
  unfold select.maskSel; rw [if_pos h]

/-- C85 (partial): where a selection is lowered, every lane of the result is, bit for bit, that of the first operand if the condition holds in the lane and that of the second one
otherwise, provided the condition is not an ordered comparison with a NaN and has no ordered comparison of unsigned integers: see `C85_select_nan_wrong`, `C85_unsigned_wrong` -/
theorem C85_select_partial (F : Fmt) {w : ℕ} (env : ℕ → BitVec w) (t : Target) (fuel : ℕ) (cond : Cond) (a b : V) (hc : CondOk cond) (hn : NotUnordered F env cond) (v : V)
    (h : select t fuel cond a b = .ok v) : v.eval F env = if cond.holds F env then a.eval F env else b.eval F env := by
  cases fuel with
  | zero => cases h
  | succ fuel =>
    obtain ⟨m1, h1, h2⟩ := bind_ok h
    obtain ⟨m2, h3, h4⟩ := bind_ok h2
    cases h4
    rw [maskSel_tree (tree_of_ok hc)] at h1 h3
    simp only [V.eval, squash_ok F env t cond false hc hn m1 h1, squash_ok F env t cond true hc hn m2 h3]
    cases cond.holds F env <;> simp [mask]

/-- comparisons of elements of 32 bits -/
def Small : Cond → Prop
  | .cmp k _ _ _ => k = .i32 ∨ k = .u32 ∨ k = .f32
  | .not a => Small a
  | .and a b => Small a ∧ Small b
  | .or a b => Small a ∧ Small b
  | .var _ => True

theorem cond_sse {cond : Cond} (h : Small cond) : ∃ v, condV .sse cond = .ok v := by
  induction cond with
  | cmp k c a b => rcases h with h | h | h <;> subst h <;> cases c <;> exact ⟨_, rfl⟩
  | not a ih => obtain ⟨v, e⟩ := ih h; exact ⟨.not v, by simp [condV, e, bind, Except.bind, pure, Except.pure]⟩
  | and a b iha ihb =>
    obtain ⟨v, e⟩ := iha h.1
    obtain ⟨u, e'⟩ := ihb h.2
    exact ⟨.and v u, by simp [condV, e, e', bind, Except.bind, pure, Except.pure]⟩
  | or a b iha ihb =>
    obtain ⟨v, e⟩ := iha h.1
    obtain ⟨u, e'⟩ := ihb h.2
    exact ⟨.or v u, by simp [condV, e, e', bind, Except.bind, pure, Except.pure]⟩
  | var n => exact ⟨_, rfl⟩

/-- C85: on SSE2 every selection whose condition is made of comparisons of 32-bit elements and is not a negation is lowered -/
theorem C85_select_lowered (fuel : ℕ) (cond : Cond) (a b : V) (hs : Small cond) (ht : isTree cond = true) (hneg : ∀ c, cond ≠ .not c) : ∃ v, select .sse (fuel + 1) cond a b = .ok v := by
  have hm : ∀ neg, ∃ v, squash .sse cond neg = .ok v := by
    intro neg
    cases cond with
    | cmp k c a b =>
      rcases hs with h | h | h <;> subst h <;> cases neg <;> cases c <;> exact ⟨_, rfl⟩
    | not a => exact absurd rfl (hneg a)
    | and a b =>
      obtain ⟨v, e⟩ := cond_sse (cond := .and a b) hs
      cases neg
      · exact ⟨v, e⟩
      · exact ⟨.not v, by simp [squash, e, bind, Except.bind, pure, Except.pure]⟩
    | or a b =>
      obtain ⟨v, e⟩ := cond_sse (cond := .or a b) hs
      cases neg
      · exact ⟨v, e⟩
      · exact ⟨.not v, by simp [squash, e, bind, Except.bind, pure, Except.pure]⟩
    | var n => cases ht
  obtain ⟨v, e⟩ := hm false
  obtain ⟨u, e'⟩ := hm true
  exact ⟨.or (.and v a) (.and u b), by simp [select, maskSel_tree ht, e, e', bind, Except.bind, pure, Except.pure]⟩

example : CondOk (.and (.cmp .f32 .lt 0 1) (.not (.cmp .i32 .eq 2 3))) ∧ isTree (.and (.cmp .f32 .lt 0 1) (.not (.cmp .i32 .eq 2 3))) = true := ⟨by simp [CondOk, Signed], rfl⟩

/-- C85: a selection on an ordered comparison of floating-point numbers returns zero, and not its second operand, when an operand of the comparison is a NaN -/
theorem C85_select_nan_wrong (F : Fmt) {w : ℕ} (env : ℕ → BitVec w) (t : Target) (fuel : ℕ) (c : Cmp) (x y : ℕ) (a b : V) (hc : c ≠ .eq ∧ c ≠ .ne)
    (hn : IsNaN (F.decode (env x).toNat) ∨ IsNaN (F.decode (env y).toNat)) :
    ∃ v, select t (fuel + 1) (.cmp .f32 c x y) a b = .ok v ∧ v.eval F env = 0 ∧ (Cond.cmp .f32 c x y).holds F env = false := by
  have hn' : IsNaN (F.decode (env y).toNat) ∨ IsNaN (F.decode (env x).toNat) := hn.symm
  have hf : ∀ c : Cmp, c ≠ .ne → Kind.cmp F .f32 c (env x) (env y) = false := by
    intro c hc
    cases c <;> simp [Kind.cmp, flt_cases, eqSpec, ltSpec, hn, hn'] at hc ⊢
  have hm : ∀ c : Cmp, c ≠ .ne → ∃ v, cmpV t .f32 c (.arg x) (.arg y) = .ok v ∧ v.eval F env = 0 := by
    intro c hc
    have h1 : ∃ v, cmpV t .f32 c (.arg x) (.arg y) = .ok v := by cases t <;> cases c <;> exact ⟨_, rfl⟩
    obtain ⟨v, hv⟩ := h1
    refine ⟨v, hv, ?_⟩
    rw [cmp_ok F env t .f32 c _ _ v (by simp [Signed]) hv]
    simp only [V.eval]
    rw [hf c hc]; rfl
  obtain ⟨v1, e1, z1⟩ := hm c hc.2
  obtain ⟨v2, e2, z2⟩ := hm (invert c) (by cases c <;> simp [invert] at hc ⊢)
  refine ⟨.or (.and v1 a) (.and v2 b), ?_, ?_, hf c hc.2⟩
  · simp [select, maskSel_tree (cond := .cmp .f32 c x y) rfl, squash, e1, e2, bind, Except.bind, pure, Except.pure]
  · simp [V.eval, z1, z2]

/-- the encoding of a binary32 NaN -/
example : IsNaN ((⟨8, 23⟩ : Fmt).decode (0x7fc00000#32).toNat) := by
  have : (⟨8, 23⟩ : Fmt).decode (0x7fc00000#32).toNat = .qNaN := by decide
  rw [this]; trivial

/-- C85: a selection whose condition is a negation raises an exception -/
theorem C85_select_not_wrong (t : Target) (fuel : ℕ) (cond : Cond) (a b : V) (h : isTree cond = true) : select t (fuel + 1) (.not cond) a b = .error .noIndex := by
  simp [select, maskSel_tree (cond := .not cond) h, squash, bind, Except.bind]

example : isTree (.cmp .f32 .lt 0 1) = true := rfl

/-- C85: the lowering of a selection whose condition is not made of comparisons, like a vector of booleans, never ends -/
theorem C85_select_mask_wrong (t : Target) (fuel : ℕ) (cond : Cond) (a b : V) (h : isTree cond = false) : select t fuel cond a b = .error .recursion := by
  have hm : ∀ (fuel : ℕ) (neg : Bool), select.maskSel t fuel cond neg = .error .recursion := by
    intro fuel
    induction fuel with
    | zero => intro neg; unfold select.maskSel; simp [h]
    | succ n ih => intro neg; unfold select.maskSel; simp [h, ih, bind, Except.bind]
  cases fuel with
  | zero => rfl
  | succ n => simp [select, hm, bind, Except.bind]

example : isTree (.and (.cmp .i32 .lt 0 1) (.var 3)) = false := rfl

/-! ## Tests of masks -/

/-- C85: the test of a mask with all lanes zero is right; that of a mask without zero lane is right for what a comparison computes -/
theorem C85_mask_test (w : ℕ) (hw : 0 < w) (l : List (BitVec w)) (bs : List Bool) :
    (allZero l = true ↔ ∀ x ∈ l, x = 0) ∧ (notAnyZero (bs.map (mask w)) = true ↔ ∀ x ∈ bs.map (mask w), x ≠ 0) := by
  have hne : (BitVec.allOnes w) ≠ 0 := by
    intro h
    have := congrArg BitVec.toNat h
    rw [BitVec.toNat_allOnes] at this
    have h2 : 2 ^ 1 ≤ 2 ^ w := Nat.pow_le_pow_right (by norm_num) hw
    simp at this
    omega
  constructor
  · simp [allZero]
  · simp only [notAnyZero, allZero, List.map_map, List.all_map, List.all_eq_true, List.mem_map, Function.comp_apply, BitVec.and_self, forall_exists_index, and_imp,
      forall_apply_eq_imp_iff₂, mask_not]
    refine forall₂_congr fun b _ => ?_
    cases b <;> simp [mask, hne] <;> omega

/-- C85: a vector of nonzero lanes which are not all ones is reported to have a zero -/
theorem C85_mask_test_wrong (w : ℕ) (x : BitVec w) (h0 : x ≠ 0) (h1 : x ≠ BitVec.allOnes w) : notAnyZero [x] = false ∧ ∀ y ∈ [x], y ≠ 0 := by
  refine ⟨?_, by simpa using h0⟩
  rw [Bool.eq_false_iff]
  intro h
  simp only [notAnyZero, allZero, List.map_cons, List.map_nil, List.all_cons, List.all_nil, Bool.and_true, BitVec.and_self, beq_iff_eq] at h
  apply h1
  have := congrArg (fun v => ~~~v) h
  simpa using this

example : (1#32) ≠ 0 ∧ (1#32) ≠ BitVec.allOnes 32 := by decide

end Verif.X86
