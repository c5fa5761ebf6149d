import Verif.VecTable.Model
import Mathlib.Tactic.Common

/-!
# The operations on vectors (property C121)
-/

namespace Verif.VecTable

/-- a sufficient condition for the code of an entry to be right, which can be computed -/
def good (e : Entry) : Bool :=
  (typeExists e.out && e.ins.all typeExists) &&
  match e.impl with
  | .sym s => symFn s (e.ins.head?.map (·.sc) |>.getD e.out.sc) == e.op.fn e.out.sc
  | .loop c count => cFn c (e.ins.head?.map (·.sc) |>.getD e.out.sc) e.out.sc == some (e.op.fn e.out.sc) && count == e.out.n
  | .call f => f.res == e.out && f.args == e.ins && f.fn == e.op.fn e.out.sc && f.count == e.out.n
  | .memcpy bytes => bytes == e.out.n * e.out.sc.bytes && e.op.fn e.out.sc == .copy

theorem runLoop_right {V : Type} (sem : Sem V) (old : ℕ → V) (e : Entry) (args : List (ℕ → V)) :
    ∃ r, runLoop sem old (e.op.fn e.out.sc) e.out.n e.out e.ins args = some r ∧ Right sem e.op e.out e.ins args r := by
  refine ⟨_, by rw [runLoop, if_pos (Nat.le_refl _)], ?_⟩
  intro i hi
  simp only [if_pos hi]

theorem bytes_pos (s : Sc) : 0 < s.bytes := by cases s <;> decide

theorem good_right {V : Type} (sem : Sem V) (old : ℕ → V) (e : Entry) (args : List (ℕ → V)) (h : good e = true) :
    ∃ r, run sem old e args = some r ∧ Right sem e.op e.out e.ins args r := by
  obtain ⟨op, out, ins, impl⟩ := e
  unfold good at h
  rw [Bool.and_eq_true] at h
  obtain ⟨ht, h⟩ := h
  unfold run
  rw [if_pos ht]
  cases impl with
  | sym s =>
    simp only [beq_iff_eq] at h
    refine ⟨_, rfl, ?_⟩
    intro i _
    simp only [h]
  | loop c count =>
    simp only [Bool.and_eq_true, beq_iff_eq] at h
    obtain ⟨h1, h2⟩ := h
    subst h2
    simp only [h1]
    exact runLoop_right sem old ⟨op, out, ins, .loop c out.n⟩ args
  | call f =>
    simp only [Bool.and_eq_true, beq_iff_eq] at h
    obtain ⟨⟨⟨h1, h2⟩, h3⟩, h4⟩ := h
    simp only [h1, h2, h3, h4, and_self, if_true]
    exact runLoop_right sem old ⟨op, out, ins, .call f⟩ args
  | memcpy bytes =>
    simp only [Bool.and_eq_true, beq_iff_eq] at h
    obtain ⟨h1, h2⟩ := h
    subst h1
    simp only [Nat.mul_mod_left, if_true, Nat.mul_div_cancel _ (bytes_pos out.sc)]
    rw [← h2]
    exact runLoop_right sem old ⟨op, out, ins, .memcpy (out.n * out.sc.bytes)⟩ args

/-- The operations for which the code is wrong: vectors of three lanes; shifts to the right of the other kind than the format; casts between integer vectors of
eight lanes; the conversion of eight 64-bit unsigned integers to 32 bits; the exponents of double precision numbers as 32-bit integers. -/
def Excepted (op : VOp) (out : VFmt) (ins : List VFmt) : Bool :=
  out.n = 3 ∨ (op = .shiftRightLogic ∧ out.sc.signed) ∨ (op = .shiftRightArith ∧ out.sc.unsigned) ∨
  (op = .typeCast ∧ out.n = 8 ∧ (out.sc.signed || out.sc.unsigned) ∧ ins.all (fun f => f.sc.signed || f.sc.unsigned)) ∨
  (op = .conversion ∧ out = ⟨.u32, 8⟩ ∧ ins = [⟨.u64, 8⟩]) ∨ (op = .exponentExtraction ∧ out.sc = .i32 ∧ ins = [⟨.f64, out.n⟩])

theorem lookup_mem {op : VOp} {out : VFmt} {ins : List VFmt} {e : Entry} (h : lookup op out ins = some e) :
    e ∈ table ∧ e.op = op ∧ e.out = out ∧ e.ins = ins := by
  unfold lookup at h
  refine ⟨List.mem_of_find?_eq_some h, ?_⟩
  have := List.find?_some h
  simpa using this

/-- the second entry for the conversion of eight 32-bit integers to 64 bits is never used -/
def shadowed (e : Entry) : Bool := e == vconv .i64 .i32 8 4

theorem table_good : table.all (fun e => Excepted e.op e.out e.ins || good e || shadowed e) = true := by decide +kernel

theorem shadow_lookup : lookup .conversion ⟨.i64, 8⟩ [⟨.i32, 8⟩] = some (vconv .i64 .i32 8 8) := by decide +kernel

/-- C121: for every operation on vectors that the table supports, except those of `Excepted`, the generated code is valid and each lane of its result is the
scalar function of the lanes of the operands, for all operands, all scalar functions and whatever the result variable held before.  Missing: the operations of
`Excepted`, for which it is wrong (`C121_three_wrong`, `C121_shift_wrong`, `C121_cast_wrong`, `C121_convert_wrong`, `C121_exponent_wrong`). -/
theorem C121_lanes_partial {V : Type} (sem : Sem V) (old : ℕ → V) (op : VOp) (out : VFmt) (ins : List VFmt) (e : Entry) (args : List (ℕ → V))
    (h : lookup op out ins = some e) (hx : Excepted op out ins = false) : ∃ r, run sem old e args = some r ∧ Right sem op out ins args r := by
  obtain ⟨hm, rfl, rfl, rfl⟩ := lookup_mem h
  have := List.all_eq_true.1 table_good e hm
  rw [hx, Bool.false_or, Bool.or_eq_true] at this
  rcases this with hg | hs
  · exact good_right sem old e args hg
  · simp only [shadowed, beq_iff_eq] at hs
    subst hs
    have h' : some (vconv .i64 .i32 8 4) = some (vconv .i64 .i32 8 8) := h.symm.trans shadow_lookup
    exact absurd h' (by decide)

example : lookup .fmaSubtract ⟨.f32, 4⟩ [⟨.f32, 4⟩, ⟨.f32, 4⟩, ⟨.f32, 4⟩] = some (fmaEntry .fmaSubtract .fms .f32 4 4) ∧
    Excepted .fmaSubtract ⟨.f32, 4⟩ [⟨.f32, 4⟩, ⟨.f32, 4⟩, ⟨.f32, 4⟩] = false := by decide +kernel

example : lookup .shiftRightLogic ⟨.u64, 8⟩ [⟨.u64, 8⟩, ⟨.u64, 8⟩] = some ⟨.shiftRightLogic, ⟨.u64, 8⟩, [⟨.u64, 8⟩, ⟨.u64, 8⟩], .sym .shr⟩ ∧
    Excepted .shiftRightLogic ⟨.u64, 8⟩ [⟨.u64, 8⟩, ⟨.u64, 8⟩] = false := by decide +kernel

/-- C121: no code for vectors of three lanes is valid, although the table has it: the types do not exist in the support library -/
theorem C121_three_wrong {V : Type} (sem : Sem V) (old : ℕ → V) (op : VOp) (s : Sc) (ins : List VFmt) (e : Entry) (args : List (ℕ → V))
    (h : lookup op ⟨s, 3⟩ ins = some e) : run sem old e args = none := by
  obtain ⟨_, _, hout, _⟩ := lookup_mem h
  unfold run
  rw [if_neg]
  rw [hout]
  simp [typeExists]

example : (lookup .addition ⟨.f32, 3⟩ [⟨.f32, 3⟩, ⟨.f32, 3⟩]).isSome = true := by decide +kernel

/-- C121: the logic shift to the right of signed vectors fills with the sign bit, and the arithmetic one of unsigned vectors fills with zeros -/
theorem C121_shift_wrong {V : Type} (sem : Sem V) (old : ℕ → V) (s : Sc) (n : ℕ) (hn : n = 2 ∨ n = 4 ∨ n = 8) (args : List (ℕ → V)) :
    (s.signed = true → ∃ e r, lookup .shiftRightLogic ⟨s, n⟩ [⟨s, n⟩, ⟨s, n⟩] = some e ∧ run sem old e args = some r ∧
      ∀ i, r i = sem .sra [s, s] s (args.map fun a => a i)) ∧
    (s.unsigned = true → ∃ e r, lookup .shiftRightArith ⟨s, n⟩ [⟨s, n⟩, ⟨s, n⟩] = some e ∧ run sem old e args = some r ∧
      ∀ i, r i = sem .srl [s, s] s (args.map fun a => a i)) := by
  constructor
  · intro hs
    have hl : lookup .shiftRightLogic ⟨s, n⟩ [⟨s, n⟩, ⟨s, n⟩] = some ⟨.shiftRightLogic, ⟨s, n⟩, [⟨s, n⟩, ⟨s, n⟩], .sym .shr⟩ := by
      rcases hn with rfl | rfl | rfl <;> cases s <;> first | exact absurd hs (by decide) | decide +kernel
    refine ⟨_, _, hl, ?_, fun i => rfl⟩
    rcases hn with rfl | rfl | rfl <;> simp [run, typeExists, symFn, hs]
  · intro hs
    have hl : lookup .shiftRightArith ⟨s, n⟩ [⟨s, n⟩, ⟨s, n⟩] = some ⟨.shiftRightArith, ⟨s, n⟩, [⟨s, n⟩, ⟨s, n⟩], .sym .shr⟩ := by
      rcases hn with rfl | rfl | rfl <;> cases s <;> first | exact absurd hs (by decide) | decide +kernel
    refine ⟨_, _, hl, ?_, fun i => rfl⟩
    have hs' : s.signed = false := by cases s <;> simp_all [Sc.signed, Sc.unsigned]
    rcases hn with rfl | rfl | rfl <;> simp [run, typeExists, symFn, hs']

/-- the two shifts of a negative number are different -/
example : ((0x80000000#32 : BitVec 32).sshiftRight 4) ≠ (0x80000000#32).ushiftRight 4 := by decide

/-- C121: a cast between signed and unsigned vectors of eight lanes leaves the last four lanes as they were before -/
theorem C121_cast_wrong {V : Type} (sem : Sem V) (old : ℕ → V) (args : List (ℕ → V)) (a b : Sc)
    (hab : (a, b) ∈ [(Sc.u64, Sc.i64), (.i64, .u64), (.u32, .i32), (.i32, .u32)]) :
    ∃ e r, lookup .typeCast ⟨a, 8⟩ [⟨b, 8⟩] = some e ∧ run sem old e args = some r ∧ ∀ i, 4 ≤ i → r i = old i := by
  simp only [List.mem_cons, List.not_mem_nil, or_false, Prod.mk.injEq] at hab
  have hl : lookup .typeCast ⟨a, 8⟩ [⟨b, 8⟩] = some (vcast a b 8 (.cast a) 4) := by
    rcases hab with ⟨rfl, rfl⟩ | ⟨rfl, rfl⟩ | ⟨rfl, rfl⟩ | ⟨rfl, rfl⟩ <;> decide +kernel
  refine ⟨_, fun i => if i < 4 then sem .bits [b] a (args.map fun x => x i) else old i, hl, ?_, ?_⟩
  · rcases hab with ⟨rfl, rfl⟩ | ⟨rfl, rfl⟩ | ⟨rfl, rfl⟩ | ⟨rfl, rfl⟩ <;>
      simp [run, vcast, e1, typeExists, cFn, runLoop, Sc.bytes, Sc.signed, Sc.unsigned]
  · intro i hi
    simp [Nat.not_lt.2 hi]

/-- C121: so does the conversion of eight 64-bit unsigned integers to 32 bits -/
theorem C121_convert_wrong {V : Type} (sem : Sem V) (old : ℕ → V) (args : List (ℕ → V)) :
    ∃ e r, lookup .conversion ⟨.u32, 8⟩ [⟨.u64, 8⟩] = some e ∧ run sem old e args = some r ∧ ∀ i, 4 ≤ i → r i = old i := by
  have hl : lookup .conversion ⟨.u32, 8⟩ [⟨.u64, 8⟩] = some (vconv .u32 .u64 8 4) := by decide +kernel
  refine ⟨_, fun i => if i < 4 then sem .conv [.u64] .u32 (args.map fun x => x i) else old i, hl, ?_, ?_⟩
  · simp [run, vconv, e1, typeExists, cFn, runLoop]
  · intro i hi
    simp [Nat.not_lt.2 hi]

/-- hence the result is wrong for a scalar function and an old value that differ -/
example : ∃ (sem : Sem ℕ) (old : ℕ → ℕ) (args : List (ℕ → ℕ)) (r : ℕ → ℕ), run sem old (vconv .u32 .u64 8 4) args = some r ∧
    ¬ Right sem .conversion ⟨.u32, 8⟩ [⟨.u64, 8⟩] args r := by
  refine ⟨fun _ _ _ _ => 1, fun _ => 0, [], _, by simp [run, vconv, e1, typeExists, cFn, runLoop]; rfl, ?_⟩
  intro h
  have := h 5 (by decide)
  simp at this

/-- C121: the function called for the exponents of double precision numbers as 32-bit integers writes a vector of 64-bit integers -/
theorem C121_exponent_wrong {V : Type} (sem : Sem V) (old : ℕ → V) (args : List (ℕ → V)) (n : ℕ) (hn : n = 4 ∨ n = 8) :
    ∃ f, lookup .exponentExtraction ⟨.i32, n⟩ [⟨.f64, n⟩] = some ⟨.exponentExtraction, ⟨.i32, n⟩, [⟨.f64, n⟩], .call f⟩ ∧ f.res = ⟨.i64, n⟩ ∧
      run sem old ⟨.exponentExtraction, ⟨.i32, n⟩, [⟨.f64, n⟩], .call f⟩ args = none := by
  refine ⟨lib1 .expExt .i64 .f64 n, ?_, rfl, ?_⟩
  · rcases hn with rfl | rfl <;> decide +kernel
  · rcases hn with rfl | rfl <;> simp [run, typeExists, lib1]

end Verif.VecTable
