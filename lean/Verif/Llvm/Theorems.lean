import Verif.Llvm.Model
import Verif.Check.Error
import Verif.Elem.ExpLemmas
import Mathlib.Tactic.IntervalCases

/-! # C113: the instructions of the LLVM-IR backend -/

namespace Verif.Llvm

open Verif.Float (Fmt Val)
open Verif.Check (cLe cEq numOf value)
open Verif.Elem

theorem mapM_some {α β : Type} {f : α → Option β} {R : α → β → Prop} : ∀ {l : List α}, (∀ p ∈ l, ∃ c, f p = some c ∧ R p c) →
    ∃ r : List β, l.mapM f = some r ∧ r.length = l.length ∧ ∀ (j : ℕ) p, l[j]? = some p → ∃ c, r[j]? = some c ∧ R p c := by
  intro l
  induction l with
  | nil => intro _; exact ⟨[], rfl, rfl, by intro j p h; simp at h⟩
  | cons a l ih =>
    intro h
    obtain ⟨c, h1, h2⟩ := h a (by simp)
    obtain ⟨r, h3, h4, h5⟩ := ih fun p hp => h p (by simp [hp])
    refine ⟨c :: r, by simp [List.mapM_cons, h1, h3], by simp [h4], ?_⟩
    intro j p hj
    cases j with
    | zero =>
      simp only [List.getElem?_cons_zero, Option.some.injEq] at hj
      subst hj
      exact ⟨c, rfl, h2⟩
    | succ j =>
      simp only [List.getElem?_cons_succ] at hj ⊢
      exact h5 j p hj

/-- a binary operation, lane by lane -/
theorem lanes2 {f : Sc → Sc → Option Sc} {op : Op} {out t : Ty} {x y : List Sc} (hx : Has x t) (hy : Has y t) (hl : out.lanes = t.lanes)
    (hf : ∀ a ∈ x, ∀ b ∈ y, a.Has t.elt → b.Has t.elt → ∃ c, f a b = some c ∧ Lane out.elt op [a, b] c) :
    ∃ r, (x.zip y).mapM (fun p => f p.1 p.2) = some r ∧ Computes op out [x, y] r := by
  obtain ⟨r, h1, h2, h3⟩ := mapM_some (f := fun p : Sc × Sc => f p.1 p.2) (R := fun p c => Lane out.elt op [p.1, p.2] c) (l := x.zip y) (by
    intro p hp
    have hm := List.of_mem_zip (a := p.1) (b := p.2) hp
    exact hf p.1 hm.1 p.2 hm.2 (hx.2 _ hm.1) (hy.2 _ hm.2))
  have hlen : (x.zip y).length = out.lanes.getD 1 := by rw [List.length_zip, hx.1, hy.1, hl, min_self]
  refine ⟨r, h1, by rw [h2, hlen], ?_⟩
  intro j hj
  have hjx : j < x.length := by rw [hx.1, ← hl]; exact hj
  have hjy : j < y.length := by rw [hy.1, ← hl]; exact hj
  obtain ⟨c, h4, h5⟩ := h3 j (x[j], y[j]) (by rw [List.getElem?_eq_getElem (by rw [hlen]; exact hj), List.getElem_zip])
  exact ⟨[x[j], y[j]], c, by simp [List.getElem?_eq_getElem hjx, List.getElem?_eq_getElem hjy], h4, h5⟩

/-- a unary operation, lane by lane -/
theorem lanes1 {f : Sc → Option Sc} {op : Op} {out t : Ty} {x : List Sc} (hx : Has x t) (hl : out.lanes = t.lanes)
    (hf : ∀ a ∈ x, a.Has t.elt → ∃ c, f a = some c ∧ Lane out.elt op [a] c) :
    ∃ r, x.mapM f = some r ∧ Computes op out [x] r := by
  obtain ⟨r, h1, h2, h3⟩ := mapM_some (f := f) (R := fun p c => Lane out.elt op [p] c) (l := x) (fun p hp => hf p hp (hx.2 p hp))
  refine ⟨r, h1, by rw [h2, hx.1, hl], ?_⟩
  intro j hj
  have hjx : j < x.length := by rw [hx.1, ← hl]; exact hj
  obtain ⟨c, h4, h5⟩ := h3 j x[j] (List.getElem?_eq_getElem hjx)
  exact ⟨[x[j]], c, by simp [List.getElem?_eq_getElem hjx], h4, h5⟩

theorem run_bin {name : String} {t : Ty} {x y r : List Sc} (h : (x.zip y).mapM (fun p => bop name p.1 p.2) = some r) :
    run [.bin name t (.reg 0) (.reg 1)] ([t, t].zip [x, y]) = some (t, r) := by
  simp [run, exec, opd, h]

theorem run_cmp {op pred : String} {t : Ty} {x y r : List Sc} (h : (x.zip y).mapM (fun p => cop op pred p.1 p.2) = some r) :
    run [.cmp op pred t (.reg 0) (.reg 1)] ([t, t].zip [x, y]) = some (⟨t.lanes, .i 1⟩, r) := by
  simp [run, exec, opd, h]

theorem low_mod (w n : ℕ) : Low w n (.i w (n % 2 ^ w)) := by
  refine ⟨rfl, Nat.mod_lt _ (by positivity), ?_⟩
  push_cast
  exact Int.mod_modEq _ _

theorem low_sub {w x y : ℕ} (hy : y < 2 ^ w) : Low w (x - y) (.i w ((x + (2 ^ w - y)) % 2 ^ w)) := by
  refine ⟨rfl, Nat.mod_lt _ (by positivity), ?_⟩
  rw [Int.natCast_mod, Nat.cast_add, Nat.cast_sub hy.le]
  push_cast
  refine (Int.mod_modEq _ _).trans ?_
  rw [show (x : ℤ) + (2 ^ w - y) = (x - y) + 2 ^ w by ring]
  exact Int.add_modEq_right

theorem low_int (w : ℕ) (n : ℤ) : Low w n (.i w (n % 2 ^ w).toNat) := by
  have h0 : (0 : ℤ) < 2 ^ w := by positivity
  have h1 := Int.emod_nonneg n h0.ne'
  have h2 := Int.emod_lt_of_pos n h0
  refine ⟨rfl, ?_, ?_⟩
  · zify; rw [Int.toNat_of_nonneg h1]; exact h2
  · rw [Int.toNat_of_nonneg h1]; exact Int.mod_modEq _ _

theorem truth_bool {p : Prop} {b : Bool} (h : b = true ↔ p) : Truth p (.i 1 b.toNat) := by
  refine ⟨rfl, ?_⟩
  cases b
  · right; exact ⟨rfl, fun hp => by have := h.2 hp; cases this⟩
  · left; exact ⟨rfl, h.1 rfl⟩

theorem le_iff (a b : Val) : cLe a b = true ↔ Cmp (· ≤ ·) a b := by
  unfold Cmp
  have h0 : (0 : EReal) = (((0 : ℚ) : ℝ) : EReal) := by norm_num
  have k : ∀ v w : ℚ, ((v : ℝ) : EReal) ≤ ((w : ℝ) : EReal) ↔ v ≤ w := by
    intro v w; rw [EReal.coe_le_coe_iff]; exact_mod_cast Iff.rfl
  have kb : ∀ v : ℝ, ¬ (v : EReal) ≤ ⊥ := by intro v h; exact EReal.coe_ne_bot v (le_bot_iff.1 h)
  have kt : ∀ v : ℝ, ¬ (⊤ : EReal) ≤ (v : EReal) := by intro v h; exact EReal.coe_ne_top v (top_le_iff.1 h)
  have z1 : ¬ (0 : EReal) ≤ ⊥ := by rw [h0]; exact kb _
  have z2 : ¬ (⊤ : EReal) ≤ 0 := by rw [h0]; exact kt _
  cases a <;> cases b <;> simp only [cLe, value, Option.some.injEq, reduceCtorEq, false_and, and_false, exists_false, Bool.false_eq_true, exists_eq_left',
    le_top, bot_le, le_refl, kb, kt, z1, z2, k]
  all_goals first
    | done
    | (simp; done)
    | (simp; exact Iff.rfl)
    | (simp; exact le_refl (0 : ℚ))

theorem eq_iff (a b : Val) : cEq a b = true ↔ Cmp (· = ·) a b := by
  rw [Check.cEq_iff]
  unfold Cmp
  constructor
  · rintro ⟨p, h1, h2⟩; exact ⟨p, p, h1, h2, rfl⟩
  · rintro ⟨p, q, h1, h2, rfl⟩; exact ⟨p, h1, h2⟩

theorem lt_iff (a b : Val) : flt a b = true ↔ Cmp (· < ·) a b := Check.cLt_iff a b

theorem gt_iff (a b : Val) : flt b a = true ↔ Cmp (· > ·) a b := by
  rw [lt_iff]; unfold Cmp
  exact ⟨fun ⟨p, q, h1, h2, h3⟩ => ⟨q, p, h2, h1, h3⟩, fun ⟨p, q, h1, h2, h3⟩ => ⟨q, p, h2, h1, h3⟩⟩

theorem ge_iff (a b : Val) : cLe b a = true ↔ Cmp (· ≥ ·) a b := by
  rw [le_iff]; unfold Cmp
  exact ⟨fun ⟨p, q, h1, h2, h3⟩ => ⟨q, p, h2, h1, h3⟩, fun ⟨p, q, h1, h2, h3⟩ => ⟨q, p, h2, h1, h3⟩⟩

theorem ints_elt {t : Ty} (h : t ∈ ints) : ∃ w, t.elt = .i w := by
  simp only [ints, List.mem_cons, List.not_mem_nil, or_false] at h
  rcases h with rfl | rfl | rfl | rfl | rfl | rfl | rfl | rfl <;> exact ⟨_, rfl⟩

theorem floats_elt {t : Ty} (h : t ∈ floats) : ∃ k, t.elt = .f k := by
  simp only [floats, List.mem_cons, List.not_mem_nil, or_false] at h
  rcases h with rfl | rfl | rfl | rfl | rfl | rfl | rfl | rfl <;> exact ⟨_, rfl⟩

theorem bools_elt {t : Ty} (h : t ∈ bools) : t.elt = .i 1 := by
  simp only [bools, List.mem_cons, List.not_mem_nil, or_false] at h
  rcases h with rfl | rfl | rfl | rfl <;> rfl

theorem has_i {s : Sc} {w : ℕ} (h : s.Has (.i w)) : ∃ x, s = .i w x ∧ x < 2 ^ w := by
  cases s with
  | i w' x => obtain ⟨rfl, h⟩ := h; exact ⟨x, rfl, h⟩
  | f k a => exact h.elim

theorem has_f {s : Sc} {k : FK} (h : s.Has (.f k)) : ∃ x, s = .f k x ∧ k.fmt.Datum x := by
  cases s with
  | f k' x => obtain ⟨rfl, h⟩ := h; exact ⟨x, rfl, h⟩
  | i k a => exact h.elim

/-- binary integer operations -/
theorem int2 {name : String} {op : Op} {t : Ty} {w : ℕ} (he : t.elt = .i w) {x y : List Sc} (hx : Has x t) (hy : Has y t)
    (hf : ∀ a b, a < 2 ^ w → b < 2 ^ w → Sc.i w b ∈ y → ∃ c, bop name (.i w a) (.i w b) = some c ∧ Lane t.elt op [.i w a, .i w b] c) :
    ∃ r, run (line2 name t) ([t, t].zip [x, y]) = some (t, r) ∧ Computes op t [x, y] r := by
  obtain ⟨r, h1, h2⟩ := lanes2 (f := bop name) (op := op) (out := t) hx hy rfl (by
    intro a _ b hb ha' hb'
    rw [he] at ha' hb'
    obtain ⟨a, rfl, ha2⟩ := has_i ha'
    obtain ⟨b, rfl, hb2⟩ := has_i hb'
    exact hf a b ha2 hb2 hb)
  exact ⟨r, run_bin h1, h2⟩

/-- binary floating-point operations -/
theorem flt2 {name : String} {op : Op} {t : Ty} {k : FK} (he : t.elt = .f k) {x y : List Sc} (hx : Has x t) (hy : Has y t)
    (hf : ∀ a b, ∃ c, bop name (.f k a) (.f k b) = some c ∧ Lane t.elt op [.f k a, .f k b] c) :
    ∃ r, run (line2 name t) ([t, t].zip [x, y]) = some (t, r) ∧ Computes op t [x, y] r := by
  obtain ⟨r, h1, h2⟩ := lanes2 (f := bop name) (op := op) (out := t) hx hy rfl (by
    intro a _ b hb ha' hb'
    rw [he] at ha' hb'
    obtain ⟨a, rfl, ha'⟩ := has_f ha'
    obtain ⟨b, rfl, hb'⟩ := has_f hb'
    exact hf a b)
  exact ⟨r, run_bin h1, h2⟩

theorem two {t u : Ty} {args : List (List Sc)} (h : List.Forall₂ Has args [t, u]) : ∃ x y, args = [x, y] ∧ Has x t ∧ Has y u := by
  cases h with
  | cons h1 h2 =>
    cases h2 with
    | cons h3 h4 => cases h4; exact ⟨_, _, rfl, h1, h3⟩

theorem one {t : Ty} {args : List (List Sc)} (h : List.Forall₂ Has args [t]) : ∃ x, args = [x] ∧ Has x t := by
  cases h with
  | cons h1 h2 => cases h2; exact ⟨_, rfl, h1⟩

theorem three {t u v : Ty} {args : List (List Sc)} (h : List.Forall₂ Has args [t, u, v]) : ∃ x y z, args = [x, y, z] ∧ Has x t ∧ Has y u ∧ Has z v := by
  cases h with
  | cons h1 h2 =>
    obtain ⟨y, z, rfl, h3, h4⟩ := two h2
    exact ⟨_, y, z, rfl, h1, h3, h4⟩

/-- a scalar -/
theorem has_one {d : List Sc} {e : Elt} (h : Has d ⟨none, e⟩) : ∃ s, d = [s] ∧ s.Has e := by
  obtain ⟨h1, h2⟩ := h
  match d, h1, h2 with
  | [s], _, h2 => exact ⟨s, rfl, h2 s (by simp)⟩

theorem arith_run {iname fname : String} {op : Op} {out : Ty} {ins : List Ty} {ls : List Line} (h : arith iname fname out ins = .ok ls) {args : List (List Sc)} (ht : List.Forall₂ Has args ins)
    (hi : ∀ w a b, a < 2 ^ w → b < 2 ^ w → ∃ c, bop iname (.i w a) (.i w b) = some c ∧ Lane (.i w) op [.i w a, .i w b] c)
    (hf : ∀ k a b, ∃ c, bop fname (.f k a) (.f k b) = some c ∧ Lane (.f k) op [.f k a, .f k b] c) :
    ∃ r, run ls (ins.zip args) = some (out, r) ∧ Computes op out args r := by
  unfold arith at h
  split_ifs at h with h1 h2 h3
  · subst h1; cases h
    obtain ⟨w, hw⟩ := ints_elt h2
    obtain ⟨x, y, rfl, hx, hy⟩ := two ht
    exact int2 hw hx hy fun a b ha hb _ => by rw [hw]; exact hi w a b ha hb
  · subst h1; cases h
    obtain ⟨k, hk⟩ := floats_elt h3
    obtain ⟨x, y, rfl, hx, hy⟩ := two ht
    exact flt2 hk hx hy fun a b => by rw [hk]; exact hf k a b

theorem comp_run {fd id : String} {op : Op} {out : Ty} {ins : List Ty} {ls : List Line} (h : comp fd id out ins = .ok ls) (ho : out.elt = .i 1) {args : List (List Sc)}
    (ht : List.Forall₂ Has args ins)
    (hi : (∃ t ∈ ins, t.isInt = true) → ∀ w a b, a < 2 ^ w → b < 2 ^ w → ∃ c, cop "icmp" id (.i w a) (.i w b) = some c ∧ Lane (.i 1) op [.i w a, .i w b] c)
    (hf : (∃ t ∈ ins, t.isInt = false) → ∀ k a b, ∃ c, cop "fcmp" fd (.f k a) (.f k b) = some c ∧ Lane (.i 1) op [.f k a, .f k b] c) :
    ∃ r, run ls (ins.zip args) = some (out, r) ∧ Computes op out args r := by
  match ins, h, ht, hi, hf with
  | [a, b], h, ht, hi, hf =>
    simp only [comp] at h
    have fcase : ∀ k, a.elt = .f k → a = b → out.lanes = a.lanes → ls = [.cmp "fcmp" fd a (.reg 0) (.reg 1)] → ∃ r, run ls ([a, b].zip args) = some (out, r) ∧ Computes op out args r := by
      intro k hk hab hl hls
      subst hab; subst hls
      obtain ⟨x, y, rfl, hx, hy⟩ := two ht
      obtain ⟨r, h1, h2⟩ := lanes2 (f := cop "fcmp" fd) (op := op) (out := out) hx hy hl (by
        intro p _ q _ hp hq
        rw [hk] at hp hq
        obtain ⟨p, rfl, _⟩ := has_f hp
        obtain ⟨q, rfl, _⟩ := has_f hq
        rw [ho]
        exact hf ⟨a, by simp, by simp [Ty.isInt, hk]⟩ k p q)
      refine ⟨r, ?_, h2⟩
      rw [run_cmp h1]
      congr 2
      cases out; simp_all
    have icase : ∀ w, a.elt = .i w → a = b → out.lanes = a.lanes → ls = [.cmp "icmp" id a (.reg 0) (.reg 1)] → ∃ r, run ls ([a, b].zip args) = some (out, r) ∧ Computes op out args r := by
      intro w hw hab hl hls
      subst hab; subst hls
      obtain ⟨x, y, rfl, hx, hy⟩ := two ht
      obtain ⟨r, h1, h2⟩ := lanes2 (f := cop "icmp" id) (op := op) (out := out) hx hy hl (by
        intro p _ q _ hp hq
        rw [hw] at hp hq
        obtain ⟨p, rfl, hp2⟩ := has_i hp
        obtain ⟨q, rfl, hq2⟩ := has_i hq
        rw [ho]
        exact hi ⟨a, by simp, by simp [Ty.isInt, hw]⟩ w p q hp2 hq2)
      refine ⟨r, ?_, h2⟩
      rw [run_cmp h1]
      congr 2
      cases out; simp_all
    have hol : out ∈ [bool, i32] → out.lanes = none := by
      intro h
      simp only [List.mem_cons, List.not_mem_nil, or_false] at h
      rcases h with rfl | rfl <;> rfl
    split_ifs at h with h1 h2 h3 h4 h5
    · have h1 := not_not.1 h1
      obtain ⟨h2a, h2b⟩ := h2
      cases h
      simp only [List.mem_cons, List.not_mem_nil, or_false] at h2b
      rcases h2b with h2b | h2b
      · exact fcase .single (by rw [h2b]; rfl) h1 (by rw [hol h2a, h2b]; rfl) rfl
      · exact fcase .double (by rw [h2b]; rfl) h1 (by rw [hol h2a, h2b]; rfl) rfl
    · have h1 := not_not.1 h1
      obtain ⟨h2a, h2b⟩ := h3
      cases h
      simp only [List.mem_cons, List.not_mem_nil, or_false] at h2b
      rcases h2b with h2b | h2b
      · exact fcase .single (by rw [h2b]; rfl) h1 (by rw [h2a, h2b]; rfl) rfl
      · exact fcase .double (by rw [h2b]; rfl) h1 (by rw [h2a, h2b]; rfl) rfl
    · have h1 := not_not.1 h1
      obtain ⟨h2a, h2b⟩ := h4
      cases h
      simp only [List.mem_cons, List.not_mem_nil, or_false] at h2b
      rcases h2b with h2b | h2b | h2b | h2b
      · exact icase 32 (by rw [h2b]; rfl) h1 (by rw [hol h2a, h2b]; rfl) rfl
      · exact icase 64 (by rw [h2b]; rfl) h1 (by rw [hol h2a, h2b]; rfl) rfl
      · exact icase 128 (by rw [h2b]; rfl) h1 (by rw [hol h2a, h2b]; rfl) rfl
      · exact icase 256 (by rw [h2b]; rfl) h1 (by rw [hol h2a, h2b]; rfl) rfl
    · have h1 := not_not.1 h1
      obtain ⟨h2a, h2b⟩ := h5
      cases h
      simp only [List.mem_cons, List.not_mem_nil, or_false] at h2b
      exact icase 32 (by rw [h2b]; rfl) h1 (by rw [h2a, h2b]; rfl) rfl

theorem scalar_fma {k : FK} (a b c : Val) (env : List (Ty × List Sc)) (p q r : ℕ) (hp : env[p]? = some (⟨none, .f k⟩, [.f k a])) (hq : env[q]? = some (⟨none, .f k⟩, [.f k b]))
    (hr : env[r]? = some (⟨none, .f k⟩, [.f k c])) : exec env (fmaLine ⟨none, .f k⟩ p q r) = some (⟨none, .f k⟩, [.f k (ffma k.fmt a b c)]) := by
  cases k <;> simp [fmaLine, exec, opd, hp, hq, hr, intrinsic, f32]

/-- **C113**: every instruction selected for a covered operation computes the operation, for all the operands of its formats, a shift being by less than the width. -/
theorem C113_instructions_partial {op : Op} {out : Ty} {ins : List Ty} {ls : List Line} (hg : gen op out ins = .ok ls) (hc : Covered op out ins = true)
    {args : List (List Sc)} (ht : List.Forall₂ Has args ins) (hs : ShiftOk op args) : ∃ r, run ls (ins.zip args) = some (out, r) ∧ Computes op out args r := by
  have obit : ∀ {l : List Ty} {name : String}, only l name out ins = .ok ls → ins = [out, out] ∧ out ∈ l ∧ ls = line2 name out := by
    intro l name h
    unfold only at h
    split_ifs at h with h1
    cases h; exact ⟨h1.1, h1.2, rfl⟩
  have bit : ∀ {w x : ℕ}, w = 1 → x < 2 ^ w → x = 0 ∨ x = 1 := by intro w x h1 h2; subst h1; omega
  cases op with
  | add =>
    refine arith_run hg ht ?_ ?_
    · intro w a b _ _; exact ⟨_, rfl, by simpa [Lane] using low_mod w (a + b)⟩
    · intro k a b; exact ⟨_, rfl, rfl⟩
  | sub =>
    refine arith_run hg ht ?_ ?_
    · intro w a b _ hb; exact ⟨_, rfl, low_sub hb⟩
    · intro k a b; exact ⟨_, rfl, rfl⟩
  | mul =>
    refine arith_run hg ht ?_ ?_
    · intro w a b _ _; exact ⟨_, rfl, by simpa [Lane] using low_mod w (a * b)⟩
    · intro k a b; exact ⟨_, rfl, rfl⟩
  | neg =>
    simp only [gen] at hg
    split_ifs at hg with h1
    obtain ⟨h1, h2⟩ := h1
    subst h1; cases hg
    simp only [Covered, Bool.and_eq_true, decide_eq_true_eq] at hc
    obtain ⟨lanes, elt⟩ := out
    obtain ⟨hc1, rfl⟩ := hc
    cases elt with
    | f k => cases hc1
    | i w =>
      obtain ⟨x, rfl, hx⟩ := one ht
      obtain ⟨s, rfl, hs2⟩ := has_one hx
      obtain ⟨x, rfl, hs3⟩ := has_i hs2
      refine ⟨[.i w ((0 + (2 ^ w - x)) % 2 ^ w)], ?_, rfl, ?_⟩
      · simp [run, exec, opd, negation, litVal, bop]
      · intro j hj
        have : j = 0 := by simpa using hj
        subst this
        refine ⟨[.i w x], _, rfl, rfl, ?_⟩
        have := low_sub (x := 0) hs3
        simpa [Lane] using this
  | band =>
    obtain ⟨rfl, h2, rfl⟩ := obit hg
    obtain ⟨w, hw⟩ := ints_elt h2
    obtain ⟨x, y, rfl, hx, hy⟩ := two ht
    exact int2 hw hx hy fun a b _ _ _ => ⟨_, rfl, rfl⟩
  | shl =>
    obtain ⟨rfl, h2, rfl⟩ := obit hg
    obtain ⟨w, hw⟩ := ints_elt h2
    obtain ⟨x, y, rfl, hx, hy⟩ := two ht
    refine int2 hw hx hy fun a b _ _ hb => ?_
    refine ⟨.i w ((a * 2 ^ b) % 2 ^ w), by simp only [bop]; rw [if_pos (hs w b hb)], ?_⟩
    have := low_mod w (a * 2 ^ b)
    simpa [Lane] using this
  | shr =>
    obtain ⟨rfl, h2, rfl⟩ := obit hg
    obtain ⟨w, hw⟩ := ints_elt h2
    obtain ⟨x, y, rfl, hx, hy⟩ := two ht
    refine int2 hw hx hy fun a b _ _ hb => ?_
    exact ⟨.i w (a / 2 ^ b), by simp only [bop]; rw [if_pos (hs w b hb)], rfl⟩
  | land =>
    obtain ⟨rfl, h2, rfl⟩ := obit hg
    have hw := bools_elt h2
    obtain ⟨x, y, rfl, hx, hy⟩ := two ht
    refine int2 hw hx hy fun a b ha hb _ => ⟨_, rfl, rfl, ?_⟩
    rcases bit rfl ha with rfl | rfl <;> rcases bit rfl hb with rfl | rfl <;> simp
  | lor =>
    obtain ⟨rfl, h2, rfl⟩ := obit hg
    have hw := bools_elt h2
    obtain ⟨x, y, rfl, hx, hy⟩ := two ht
    refine int2 hw hx hy fun a b ha hb _ => ⟨_, rfl, rfl, ?_⟩
    rcases bit rfl ha with rfl | rfl <;> rcases bit rfl hb with rfl | rfl <;> simp
  | lnot =>
    simp only [gen] at hg
    split_ifs at hg with h1
    obtain ⟨h1, h2⟩ := h1
    subst h1; cases hg
    simp only [Covered, Bool.and_eq_true, decide_eq_true_eq] at hc
    have hw := bools_elt h2
    obtain ⟨lanes, elt⟩ := out
    obtain ⟨_, rfl⟩ := hc
    simp only at hw
    subst hw
    obtain ⟨x, rfl, hx⟩ := one ht
    obtain ⟨s, rfl, hs2⟩ := has_one hx
    obtain ⟨x, rfl, hs3⟩ := has_i hs2
    refine ⟨[.i 1 (1 ^^^ x)], ?_, rfl, ?_⟩
    · simp [run, exec, opd, litVal, bop]
    · intro j hj
      have : j = 0 := by simpa using hj
      subst this
      refine ⟨[.i 1 x], _, rfl, rfl, rfl, ?_⟩
      rcases bit rfl hs3 with rfl | rfl <;> simp
  | eq =>
    refine comp_run hg (by simpa [Covered] using hc) ht ?_ ?_
    · intro _ w a b _ _; exact ⟨_, rfl, truth_bool (by simp)⟩
    · intro _ k a b; exact ⟨_, rfl, truth_bool (eq_iff a b)⟩
  | ne =>
    simp only [Covered, Bool.and_eq_true, decide_eq_true_eq, List.all_eq_true] at hc
    refine comp_run hg hc.1 ht ?_ ?_
    · intro _ w a b _ _; exact ⟨_, rfl, truth_bool (by simp)⟩
    · rintro ⟨t, h1, h2⟩; rw [hc.2 t h1] at h2; cases h2
  | lt =>
    refine comp_run hg (by simpa [Covered] using hc) ht ?_ ?_
    · intro _ w a b _ _; exact ⟨_, rfl, truth_bool (by simp)⟩
    · intro _ k a b; exact ⟨_, rfl, truth_bool (lt_iff a b)⟩
  | le =>
    refine comp_run hg (by simpa [Covered] using hc) ht ?_ ?_
    · intro _ w a b _ _; exact ⟨_, rfl, truth_bool (by simp)⟩
    · intro _ k a b; exact ⟨_, rfl, truth_bool (le_iff a b)⟩
  | gt =>
    refine comp_run hg (by simpa [Covered] using hc) ht ?_ ?_
    · intro _ w a b _ _; exact ⟨_, rfl, truth_bool (by simp)⟩
    · intro _ k a b; exact ⟨_, rfl, truth_bool (gt_iff a b)⟩
  | ge =>
    simp only [Covered, Bool.and_eq_true, decide_eq_true_eq, List.all_eq_true] at hc
    refine comp_run hg hc.1 ht ?_ ?_
    · rintro ⟨t, h1, h2⟩
      have := hc.2 t h1
      simp [h2] at this
    · intro _ k a b; exact ⟨_, rfl, truth_bool (ge_iff a b)⟩
  | nearest =>
    have fin : ∀ k : FK, ∀ ls, ls = [Line.call (if k = .single then "llvm.nearbyint.f32" else "llvm.nearbyint.f64") ⟨none, .f k⟩ [(⟨none, .f k⟩, .reg 0)]] →
        List.Forall₂ Has args [⟨none, .f k⟩] → ∃ r, run ls ([(⟨none, .f k⟩ : Ty)].zip args) = some (⟨none, .f k⟩, r) ∧ Computes .nearest ⟨none, .f k⟩ args r := by
      intro k ls hls ht
      subst hls
      obtain ⟨x, rfl, hx⟩ := one ht
      obtain ⟨s, rfl, hs2⟩ := has_one hx
      obtain ⟨x, rfl, hs3⟩ := has_f hs2
      refine ⟨[.f k (fnearest x)], ?_, rfl, ?_⟩
      · cases k <;> simp [run, exec, opd, intrinsic]
      · intro j hj
        have : j = 0 := by simpa using hj
        subst this
        exact ⟨[.f k x], _, rfl, rfl, rfl, rfl⟩
    simp only [gen] at hg
    split_ifs at hg with h1 h2 h3 h4 h5 h6
    · rw [h1.1] at hc; cases hc
    · obtain ⟨rfl, rfl⟩ := h2; cases hg; exact fin .single _ rfl ht
    · rw [h3.1] at hc; cases hc
    · obtain ⟨rfl, rfl⟩ := h4; cases hg; exact fin .double _ rfl ht
    · rw [h5.1] at hc; cases hc
    · rw [h6.1] at hc; cases hc
  | convert =>
    have cv : ∀ (l : Option ℕ) (w w' : ℕ), w < w' → out = ⟨l, .i w'⟩ → ins = [⟨l, .i w⟩] → ls = [.cast "sext" ⟨l, .i w⟩ (.reg 0) ⟨l, .i w'⟩] →
        ∃ r, run ls (ins.zip args) = some (out, r) ∧ Computes .convert out args r := by
      intro l w w' hww h1 h2 h3
      subst h1; subst h2; subst h3
      obtain ⟨x, rfl, hx⟩ := one ht
      obtain ⟨r, k1, k2⟩ := lanes1 (f := castop "sext" (.i w')) (op := .convert) (out := ⟨l, .i w'⟩) hx rfl (by
        intro a _ ha
        obtain ⟨a, rfl, _⟩ := has_i ha
        exact ⟨.i w' (sval w a % 2 ^ w').toNat, by simp only [castop]; rw [if_pos hww], low_int w' (sval w a)⟩)
      exact ⟨r, by simp [run, exec, opd, k1], k2⟩
    simp only [gen] at hg
    split_ifs at hg with h1 h2
    · obtain ⟨rfl, rfl⟩ := h1; cases hg; exact cv none 32 64 (by norm_num) rfl rfl rfl
    · cases hg
      rcases h2 with ⟨rfl, rfl⟩ | ⟨rfl, rfl⟩ | ⟨rfl, rfl⟩
      · exact cv (some 2) 1 32 (by norm_num) rfl rfl rfl
      · exact cv (some 4) 1 32 (by norm_num) rfl rfl rfl
      · exact cv (some 8) 1 32 (by norm_num) rfl rfl rfl
  | fma =>
    simp only [gen] at hg
    split_ifs at hg with h1
    obtain ⟨h1, h2⟩ := h1
    subst h2; cases hg
    have : ∃ k, out = ⟨none, .f k⟩ := by rcases h1 with rfl | rfl <;> exact ⟨_, rfl⟩
    obtain ⟨k, rfl⟩ := this
    obtain ⟨x, y, z, rfl, hx, hy, hz⟩ := three ht
    obtain ⟨s, rfl, hx2⟩ := has_one hx
    obtain ⟨x, rfl, hx3⟩ := has_f hx2
    obtain ⟨s, rfl, hy2⟩ := has_one hy
    obtain ⟨y, rfl, hy3⟩ := has_f hy2
    obtain ⟨s, rfl, hz2⟩ := has_one hz
    obtain ⟨z, rfl, hz3⟩ := has_f hz2
    refine ⟨[.f k (ffma k.fmt x y z)], ?_, rfl, ?_⟩
    · unfold run
      rw [scalar_fma x y z _ 0 1 2 rfl rfl rfl]
      rfl
    · intro j hj
      have : j = 0 := by simpa using hj
      subst this
      exact ⟨[.f k x, .f k y, .f k z], _, rfl, rfl, rfl⟩
  | fmaSub => cases hc
  | fmaNeg => cases hc
  | fmaSubNeg => cases hc

/-- non-vacuity: the four lanes of a comparison -/
example : gen .lt (vec 4 bool) [vec 4 f32, vec 4 f32] = .ok [.cmp "fcmp" "olt" (vec 4 f32) (.reg 0) (.reg 1)] ∧ Covered .lt (vec 4 bool) [vec 4 f32, vec 4 f32] = true ∧
    List.Forall₂ Has [[.f .single .qNaN, .f .single (.num 1), .f .single .plusInf, .f .single .minusZero], [.f .single .qNaN, .f .single .plusInf, .f .single .minusInf, .f .single .plusZero]]
      [vec 4 f32, vec 4 f32] := by
  refine ⟨by decide, by decide, ?_⟩
  refine .cons ⟨rfl, ?_⟩ (.cons ⟨rfl, ?_⟩ .nil)
  · intro s hs
    simp only [List.mem_cons, List.not_mem_nil, or_false] at hs
    rcases hs with rfl | rfl | rfl | rfl
    · exact ⟨rfl, trivial⟩
    · exact ⟨rfl, ⟨2 ^ 23, 0, by norm_num [FK.fmt], by decide, by decide, by norm_num [FK.fmt]⟩, by norm_num⟩
    · exact ⟨rfl, trivial⟩
    · exact ⟨rfl, trivial⟩
  · intro s hs
    simp only [List.mem_cons, List.not_mem_nil, or_false] at hs
    rcases hs with rfl | rfl | rfl | rfl <;> exact ⟨rfl, trivial⟩

/-- **C113**, the operations that have instructions: the arithmetic, bitwise and shift operations on 32-bit and 64-bit integers, the arithmetic
operations on both floating-point formats, the logic operations on booleans, for scalars and vectors of 2, 4 and 8 lanes; the comparisons
of scalars and the fused operations. -/
theorem C113_supported : (∀ l ∈ [none, some 2, some 4, some 8],
      (∀ w ∈ [32, 64], (∀ op ∈ [Op.add, .sub, .mul, .band, .shl, .shr], (gen op ⟨l, .i w⟩ [⟨l, .i w⟩, ⟨l, .i w⟩]).toOption.isSome) ∧
        (gen .neg ⟨l, .i w⟩ [⟨l, .i w⟩]).toOption.isSome) ∧
      (∀ k ∈ [FK.single, .double], (∀ op ∈ [Op.add, .sub, .mul], (gen op ⟨l, .f k⟩ [⟨l, .f k⟩, ⟨l, .f k⟩]).toOption.isSome) ∧
        (gen .neg ⟨l, .f k⟩ [⟨l, .f k⟩]).toOption.isSome) ∧
      (∀ op ∈ [Op.land, .lor], (gen op ⟨l, .i 1⟩ [⟨l, .i 1⟩, ⟨l, .i 1⟩]).toOption.isSome) ∧ (gen .lnot ⟨l, .i 1⟩ [⟨l, .i 1⟩]).toOption.isSome) ∧
    (∀ op ∈ [Op.eq, .ne, .lt, .le, .gt, .ge], ∀ e ∈ [Elt.i 32, .i 64, .f .single, .f .double], (gen op ⟨none, .i 1⟩ [⟨none, e⟩, ⟨none, e⟩]).toOption.isSome) ∧
    (∀ op ∈ [Op.fma, .fmaSub, .fmaNeg, .fmaSubNeg], ∀ k ∈ [FK.single, .double],
      (gen op ⟨none, .f k⟩ [⟨none, .f k⟩, ⟨none, .f k⟩, ⟨none, .f k⟩]).toOption.isSome) := by decide +kernel

/-- non-vacuity: shifts -/
example : gen .shl i32 [i32, i32] = .ok [.bin "shl" i32 (.reg 0) (.reg 1)] ∧ ShiftOk .shl [[.i 32 5], [.i 32 31]] ∧ List.Forall₂ Has [[.i 32 5], [.i 32 31]] [i32, i32] := by
  refine ⟨by decide, ?_, ?_⟩
  · intro w y h; simp at h; omega
  · refine .cons ⟨rfl, ?_⟩ (.cons ⟨rfl, ?_⟩ .nil) <;> (intro s hs; rw [List.mem_singleton.1 hs]; exact ⟨rfl, by norm_num⟩)

/-! ## Where the backend is wrong -/

theorem fk_e (k : FK) : 2 ≤ k.fmt.e := by cases k <;> decide

/-- the subtraction from zero -/
theorem zero_sub {k : FK} {x : Val} (hx : k.fmt.Datum x) : fsub k.fmt .plusZero x = match x with | .plusZero => .plusZero | .sNaN => .qNaN | x => fneg x := by
  have z : ∀ s, rnd k.fmt s ((0 + 0 : ℚ) : ℝ) = zeroS s := by intro s; rw [show ((0 + 0 : ℚ) : ℝ) = 0 by norm_num, rnd_zero]
  cases x with
  | plusInf => simp [fsub, fneg, fadd, isNaN, isInf]
  | minusInf => simp [fsub, fneg, fadd, isNaN, isInf]
  | qNaN => simp [fsub, fneg, fadd, isNaN]
  | sNaN => simp [fsub, fneg, fadd, isNaN]
  | plusZero =>
    simp only [fsub, fneg, fadd, isNaN, isInf, Bool.or_self, Bool.false_eq_true, if_false]
    exact z _
  | minusZero =>
    simp only [fsub, fneg, fadd, isNaN, isInf, Bool.or_self, Bool.false_eq_true, if_false]
    exact z _
  | num v =>
    simp only [fsub, fneg, fadd, isNaN, isInf, Bool.or_self, Bool.false_eq_true, if_false]
    have h : ((numOf Val.plusZero + numOf (Val.num (-v)) : ℚ) : ℝ) = ((-v : ℚ) : ℝ) := by norm_num [numOf]
    rw [h]
    exact rnd_exact (fk_e k) _ (finite_neg hx.1) (neg_ne_zero.2 hx.2)

/-- **C113**, wrong: the negation of a floating-point number is a subtraction from zero.  It gives the opposite of every number and infinity but `+0`, whose opposite is `+0`. -/
theorem C113_negation_wrong (k : FK) (x : Val) (hx : k.fmt.Datum x) : gen .neg ⟨none, .f k⟩ [⟨none, .f k⟩] = .ok [negation ⟨none, .f k⟩ 0] ∧
    (∃ r, run [negation ⟨none, .f k⟩ 0] [(⟨none, .f k⟩, [.f k x])] = some (⟨none, .f k⟩, [.f k r]) ∧ (r = fneg x ↔ x ≠ .plusZero ∧ x ≠ .sNaN) ∧ (x = .plusZero → r = .plusZero)) := by
  refine ⟨by cases k <;> decide, fsub k.fmt .plusZero x, by simp [run, exec, opd, negation, litVal, bop], ?_, ?_⟩
  · rw [zero_sub hx]
    cases x <;> simp [fneg]
  · rintro rfl; rw [zero_sub hx]

/-- **C113**, wrong: the negations and the complements of vectors have a scalar literal, which LLVM refuses. -/
theorem C113_vector_negation_wrong {op : Op} (ho : op = .neg ∨ op = .lnot) {out : Ty} (hl : out.lanes ≠ none) {ins : List Ty} {ls : List Line} (hg : gen op out ins = .ok ls)
    (env : List (Ty × List Sc)) : run ls env = none := by
  have hlit : ∀ s, litVal out s = none := by
    intro s
    obtain ⟨l, e⟩ := out
    cases l with
    | none => exact (hl rfl).elim
    | some n => simp [litVal]
  rcases ho with rfl | rfl
  · simp only [gen] at hg
    split_ifs at hg
    cases hg
    unfold negation
    cases out.elt <;> simp [run, exec, opd, hlit]
  · simp only [gen] at hg
    split_ifs at hg
    cases hg
    simp [run, exec, opd, hlit]

example : gen .neg (vec 4 f32) [vec 4 f32] = .ok [.bin "fsub" (vec 4 f32) (.lit "0.0") (.reg 0)] ∧ gen .lnot (vec 8 bool) [vec 8 bool] = .ok [.bin "xor" (vec 8 bool) (.lit "1") (.reg 0)] := by decide

/-- **C113**, wrong: the nearest integer in an integer format is the integer part. -/
theorem C113_nearest_wrong : gen .nearest i32 [f32] = .ok [.cast "fptosi" f32 (.reg 0) i32] ∧
    (∀ v : ℚ, -2 ^ 31 ≤ trunc v → trunc v < 2 ^ 31 → ∃ z, run [.cast "fptosi" f32 (.reg 0) i32] [(f32, [.f .single (.num v)])] = some (i32, [z]) ∧ Low 32 (trunc v) z) ∧
    (FK.single.fmt.Datum (.num (3 / 4)) ∧ ∃ r, run [.cast "fptosi" f32 (.reg 0) i32] [(f32, [.f .single (.num (3 / 4))])] = some (i32, r) ∧
      ¬ Computes .nearest i32 [[.f .single (.num (3 / 4))]] r) := by
  have key : ∀ v : ℚ, -2 ^ 31 ≤ trunc v → trunc v < 2 ^ 31 → run [.cast "fptosi" f32 (.reg 0) i32] [(f32, [.f .single (.num v)])] = some (i32, [.i 32 (trunc v % 2 ^ 32).toNat]) := by
    intro v h1 h2
    have h3 : -2 ^ (32 - 1) ≤ trunc v ∧ trunc v < 2 ^ (32 - 1) := ⟨h1, h2⟩
    have h4 : castop "fptosi" (.i 32) (.f .single (.num v)) = some (.i 32 (trunc v % 2 ^ 32).toNat) := by
      change (if (false || false) = true then none else if -2 ^ (32 - 1) ≤ trunc v ∧ trunc v < 2 ^ (32 - 1) then _ else none) = _
      rw [if_neg (by simp), if_pos h3]
      rfl
    simp [run, exec, opd, i32, f32, h4]
  refine ⟨by decide, fun v h1 h2 => ⟨_, key v h1 h2, low_int 32 _⟩, ⟨⟨3 * 2 ^ 22, -1, by norm_num [FK.fmt], by decide, by decide, by norm_num [FK.fmt]⟩, by norm_num⟩, ?_⟩
  have ht : trunc (3 / 4) = 0 := by unfold trunc; rw [if_neg (by norm_num)]; exact Int.floor_eq_iff.2 ⟨by norm_num, by norm_num⟩
  refine ⟨_, key _ (by rw [ht]; norm_num) (by rw [ht]; norm_num), ?_⟩
  rintro ⟨_, h⟩
  obtain ⟨l, z, h1, h2, h3⟩ := h 0 (by decide)
  have hl : l = [.f .single (.num (3 / 4))] := by
    have : l.map some = [Sc.f .single (.num (3 / 4))].map some := h1.symm
    exact List.map_injective_iff.2 (Option.some_injective _) this
  subst hl
  rw [ht] at h2
  cases h2
  obtain ⟨_, _, h4⟩ := h3
  have hn : nearestZ (.num (3 / 4)) = 1 := by
    have h := Check.toInt_near (((numOf (.num (3 / 4)) : ℚ) : ℝ))
    obtain ⟨n, hn⟩ : ∃ n, n = nearestZ (.num (3 / 4)) := ⟨_, rfl⟩
    rw [show Check.toInt .RN ((numOf (.num (3 / 4)) : ℚ) : ℝ) = n from hn.symm, abs_le] at h
    rw [← hn]
    norm_num [numOf] at h
    have h5 : (n : ℝ) < 2 := by linarith [h.1]
    have h6 : (0 : ℝ) < n := by linarith [h.2]
    have h7 : n < 2 := by exact_mod_cast h5
    have h8 : 0 < n := by exact_mod_cast h6
    omega
  rw [hn] at h4
  revert h4
  decide

/-- **C113**, wrong: the rounding of a double to an integer reads it as a single, and the rounding of a vector calls the function of the scalars: LLVM refuses both. -/
theorem C113_nearest_refused_wrong (x : List Sc) :
    (∃ ls, gen .nearest i64 [f64] = .ok ls ∧ run ls [(f64, x)] = none) ∧ (∃ ls, gen .nearest (vec 4 f32) [vec 4 f32] = .ok ls ∧ (Has x (vec 4 f32) → run ls [(vec 4 f32, x)] = none)) := by
  refine ⟨⟨_, rfl, ?_⟩, ⟨_, rfl, ?_⟩⟩
  · simp [run, exec, opd, f64, f32]
  · intro h
    have h4 : x.length = 4 := h.1
    match x, h4 with
    | [a, b, c, d], _ => simp [run, exec, opd, intrinsic]

/-- **C113**, wrong: LLVM has no predicate `ne` for floating-point numbers and no predicate `ge` for integers. -/
theorem C113_predicates_wrong {out t : Ty} {ls : List Line} (x y : List Sc) (hx : Has x t) (hy : Has y t) :
    (t.isInt = false → gen .ne out [t, t] = .ok ls → run ls [(t, x), (t, y)] = none) ∧ (t.isInt = true → gen .ge out [t, t] = .ok ls → run ls [(t, x), (t, y)] = none) := by
  have hne : ∀ {d : List Sc}, Has d t → 0 < d.length → ∃ s l, d = s :: l ∧ s.Has t.elt := by
    intro d h1 h2
    cases d with
    | nil => simp at h2
    | cons s l => exact ⟨s, l, rfl, h1.2 s (by simp)⟩
  have hpos : ∀ {fd id}, comp fd id out [t, t] = .ok ls → 0 < t.lanes.getD 1 ∧ (t.isInt = false → ls = [.cmp "fcmp" fd t (.reg 0) (.reg 1)]) ∧ (t.isInt = true → ls = [.cmp "icmp" id t (.reg 0) (.reg 1)]) := by
    intro fd id h
    simp only [comp] at h
    split_ifs at h with h1 h2 h3 h4 h5
    · cases h
      have h2 := h2.2
      simp only [List.mem_cons, List.not_mem_nil, or_false] at h2
      rcases h2 with rfl | rfl <;> exact ⟨by decide, fun _ => rfl, fun h => by cases h⟩
    · cases h
      have h2 := h3.2
      simp only [List.mem_cons, List.not_mem_nil, or_false] at h2
      rcases h2 with rfl | rfl <;> exact ⟨by decide, fun _ => rfl, fun h => by cases h⟩
    · cases h
      have h2 := h4.2
      simp only [List.mem_cons, List.not_mem_nil, or_false] at h2
      rcases h2 with rfl | rfl | rfl | rfl <;> exact ⟨by decide, (fun h => by cases h), fun _ => rfl⟩
    · cases h
      have h2 := h5.2
      simp only [List.mem_cons, List.not_mem_nil, or_false] at h2
      subst h2
      exact ⟨by decide, (fun h => by cases h), fun _ => rfl⟩
  constructor
  · intro hi hg
    obtain ⟨h0, h1, _⟩ := hpos hg
    rw [h1 hi]
    obtain ⟨a, l, rfl, ha⟩ := hne hx (by rw [hx.1]; exact h0)
    obtain ⟨b, m, rfl, hb⟩ := hne hy (by rw [hy.1]; exact h0)
    have : cop "fcmp" "ne" a b = none := by
      cases a <;> cases b <;> simp [cop, fpred]
    simp [run, exec, opd, this]
  · intro hi hg
    obtain ⟨h0, _, h1⟩ := hpos hg
    rw [h1 hi]
    obtain ⟨a, l, rfl, ha⟩ := hne hx (by rw [hx.1]; exact h0)
    obtain ⟨b, m, rfl, hb⟩ := hne hy (by rw [hy.1]; exact h0)
    have : cop "icmp" "ge" a b = none := by
      cases a <;> cases b <;> simp [cop, ipred]
    simp [run, exec, opd, this]

example : gen .ne bool [f64, f64] = .ok [.cmp "fcmp" "ne" f64 (.reg 0) (.reg 1)] ∧ gen .ge bool [i32, i32] = .ok [.cmp "icmp" "ge" i32 (.reg 0) (.reg 1)] := by decide

/-- **C113**, wrong: a comparison whose result is declared as a 32-bit integer gives a boolean. -/
theorem C113_comparison_format_wrong {op : Op} {ins : List Ty} {ls : List Line} (hg : gen op i32 ins = .ok ls) (ho : op ∈ [Op.eq, .ne, .lt, .le, .gt, .ge])
    {env : List (Ty × List Sc)} {t : Ty} {r : List Sc} (h : run ls env = some (t, r)) : t ≠ i32 := by
  have key : ∀ {fd id}, comp fd id i32 ins = .ok ls → ∃ op p u, ls = [.cmp op p u (.reg 0) (.reg 1)] := by
    intro fd id h
    match ins, h with
    | [a, b], h =>
      simp only [comp] at h
      split_ifs at h <;> (cases h; exact ⟨_, _, _, rfl⟩)
  have : ∃ op p u, ls = [.cmp op p u (.reg 0) (.reg 1)] := by
    simp only [List.mem_cons, List.not_mem_nil, or_false] at ho
    rcases ho with rfl | rfl | rfl | rfl | rfl | rfl <;> exact key hg
  obtain ⟨o, p, u, rfl⟩ := this
  simp only [run, exec] at h
  cases h1 : opd env u (.reg 0) with
  | none => rw [h1] at h; cases h
  | some x =>
    rw [h1] at h
    cases h2 : opd env u (.reg 1) with
    | none => rw [h2] at h; cases h
    | some y =>
      rw [h2] at h
      cases h3 : (x.zip y).mapM fun q => cop o p q.1 q.2 with
      | none => simp [h3] at h
      | some z =>
        simp [h3] at h
        rw [← h.1]
        simp [i32]

example : gen .lt i32 [f32, f32] = .ok [.cmp "fcmp" "olt" f32 (.reg 0) (.reg 1)] := by decide

/-- **C113**, wrong: the test that no lane of a mask is false is true when all the lanes are false, and only then. -/
theorem C113_mask_wrong (a b c d : ℕ) (ha : a < 2) (hb : b < 2) (hc : c < 2) (hd : d < 2) :
    ∃ z, run maskTest [(vec 4 bool, [.i 1 a, .i 1 b, .i 1 c, .i 1 d])] = some (bool, [z]) ∧ Truth (a = 0 ∧ b = 0 ∧ c = 0 ∧ d = 0) z := by
  have hz : ∀ x, x < 2 → castop "sext" (.i 32) (.i 1 x) = some (.i 32 (if x = 0 then 0 else 2 ^ 32 - 1)) := by
    intro x hx
    interval_cases x <;> simp [castop, sval]
  have key : run maskTest [(vec 4 bool, [.i 1 a, .i 1 b, .i 1 c, .i 1 d])] =
      some (bool, [.i 1 (decide ((if a = 0 then 0 else 2 ^ 32 - 1) + 2 ^ 32 * ((if b = 0 then 0 else 2 ^ 32 - 1) + 2 ^ 32 * ((if c = 0 then 0 else 2 ^ 32 - 1) +
        2 ^ 32 * ((if d = 0 then 0 else 2 ^ 32 - 1) + 2 ^ 32 * 0))) = 0)).toNat]) := by
    simp only [maskTest, run, exec, opd, vec, bool, i32, i128, List.getElem?_cons_zero, if_true, Option.bind_eq_bind, Option.bind_some, List.mapM_cons, List.mapM_nil, hz a ha, hz b hb, hz c hc, hz d hd]
    simp [litVal, bits, cop, ipred]
  refine ⟨_, key, truth_bool ?_⟩
  rw [decide_eq_true_iff]
  constructor
  · intro h
    by_cases h1 : a = 0 <;> by_cases h2 : b = 0 <;> by_cases h3 : c = 0 <;> by_cases h4 : d = 0 <;> simp [h1, h2, h3, h4] at h ⊢
  · rintro ⟨rfl, rfl, rfl, rfl⟩; rfl

/-! ## The fused operations with a negation -/

theorem rnd_datum {F : Fmt} (he : 2 ≤ F.e) (s : Bool) (x : ℝ) : F.Datum (rnd F s x) ∧ rnd F s x ≠ .sNaN := by
  by_cases h : |Check.roundUnb F .RN x| ≤ Float.omega F
  · have := (rnd_fin he s h).1
    refine ⟨this.1, fun h2 => ?_⟩
    have h3 := this.2.1
    rw [h2] at h3
    cases h3
  · unfold rnd
    split_ifs
    · cases s <;> simp [zeroS, Fmt.Datum]
    · cases decide (x < 0) <;> simp [zeroS, Fmt.Datum]
    · cases decide (x < 0) <;> simp [infS, Fmt.Datum]

theorem ffma_datum {F : Fmt} (he : 2 ≤ F.e) (a b c : Val) : F.Datum (ffma F a b c) ∧ ffma F a b c ≠ .sNaN := by
  unfold ffma
  split_ifs with h1 h2 h3 h4
  · simp [Fmt.Datum]
  · simp [Fmt.Datum]
  · cases xor (sgn a) (sgn b) <;> simp [infS, Fmt.Datum]
  · cases c <;> simp [isInf] at h4 <;> simp [Fmt.Datum]
  · exact rnd_datum he _ _

theorem ffma_nan3 (F : Fmt) (a b : Val) : ffma F a b .sNaN = ffma F a b .qNaN := by simp [ffma, isNaN]
theorem ffma_nan1 (F : Fmt) (b c : Val) : ffma F .sNaN b c = ffma F .qNaN b c := by simp [ffma, isNaN]

theorem exec_neg {k : FK} {env : List (Ty × List Sc)} {p : ℕ} {x : Val} (h : env[p]? = some (⟨none, .f k⟩, [.f k x])) :
    exec env (negation ⟨none, .f k⟩ p) = some (⟨none, .f k⟩, [.f k (fsub k.fmt .plusZero x)]) := by
  simp [exec, opd, negation, litVal, bop, h]

/-- **C113**: the fused operations with a negation, when the number that is negated is not `+0`. -/
theorem C113_fused_partial {op : Op} {k : FK} {ls : List Line} (hg : gen op ⟨none, .f k⟩ [⟨none, .f k⟩, ⟨none, .f k⟩, ⟨none, .f k⟩] = .ok ls) {a b c : Val} (ha : k.fmt.Datum a)
    (hc : k.fmt.Datum c)
    (ho : op = .fmaSub ∧ c ≠ .plusZero ∨ op = .fmaNeg ∧ ffma k.fmt a b c ≠ .plusZero ∨ op = .fmaSubNeg ∧ a ≠ .plusZero) :
    ∃ r, run ls [(⟨none, .f k⟩, [.f k a]), (⟨none, .f k⟩, [.f k b]), (⟨none, .f k⟩, [.f k c])] = some (⟨none, .f k⟩, r) ∧ Computes op ⟨none, .f k⟩ [[.f k a], [.f k b], [.f k c]] r := by
  have hk : (⟨none, .f k⟩ : Ty) = f32 ∨ (⟨none, .f k⟩ : Ty) = f64 := by cases k <;> simp [f32, f64]
  have fin : ∀ v, Lane (.f k) op [.f k a, .f k b, .f k c] (.f k v) → Computes op ⟨none, .f k⟩ [[.f k a], [.f k b], [.f k c]] [.f k v] := by
    intro v hv
    refine ⟨rfl, ?_⟩
    intro j hj
    have : j = 0 := by simpa using hj
    subst this
    exact ⟨_, _, rfl, rfl, hv⟩
  have nz : ∀ {x : Val}, k.fmt.Datum x → x ≠ .plusZero → fsub k.fmt .plusZero x = fneg x ∨ (x = .sNaN ∧ fsub k.fmt .plusZero x = .qNaN) := by
    intro x hx h0
    rw [zero_sub hx]
    cases x <;> simp_all
  rcases ho with ⟨rfl, h0⟩ | ⟨rfl, h0⟩ | ⟨rfl, h0⟩
  · simp only [gen] at hg
    rw [if_pos ⟨hk, trivial⟩] at hg
    cases hg
    refine ⟨[.f k (ffma k.fmt a b (fneg c))], ?_, fin _ rfl⟩
    have e : ffma k.fmt a b (fsub k.fmt .plusZero c) = ffma k.fmt a b (fneg c) := by
      rcases nz hc h0 with h | ⟨rfl, h⟩
      · rw [h]
      · rw [h]; exact (ffma_nan3 _ _ _).symm
    simp only [run]
    rw [exec_neg (x := c) rfl]
    simp only [Option.bind_eq_bind, Option.bind_some]
    rw [scalar_fma a b _ _ 0 1 3 rfl rfl rfl, e]
    rfl
  · simp only [gen] at hg
    rw [if_pos ⟨hk, trivial⟩] at hg
    cases hg
    refine ⟨[.f k (fneg (ffma k.fmt a b c))], ?_, fin _ rfl⟩
    have hd := ffma_datum (fk_e k) a b c
    have e : fsub k.fmt .plusZero (ffma k.fmt a b c) = fneg (ffma k.fmt a b c) := by
      rcases nz hd.1 h0 with h | ⟨h, _⟩
      · exact h
      · exact (hd.2 h).elim
    simp only [run]
    rw [scalar_fma a b c _ 0 1 2 rfl rfl rfl]
    simp only [Option.bind_eq_bind, Option.bind_some]
    rw [exec_neg (x := ffma k.fmt a b c) rfl, e]
    rfl
  · simp only [gen] at hg
    rw [if_pos ⟨hk, trivial⟩] at hg
    cases hg
    refine ⟨[.f k (ffma k.fmt (fneg a) b c)], ?_, fin _ rfl⟩
    have e : ffma k.fmt (fsub k.fmt .plusZero a) b c = ffma k.fmt (fneg a) b c := by
      rcases nz ha h0 with h | ⟨rfl, h⟩
      · rw [h]
      · rw [h]; exact (ffma_nan1 _ _ _).symm
    simp only [run]
    rw [exec_neg (x := a) rfl]
    simp only [Option.bind_eq_bind, Option.bind_some]
    rw [scalar_fma _ b c _ 3 1 2 rfl rfl rfl, e]
    rfl

/-- **C113**, wrong: `a * b - c`, fused, of `-0`, a positive number and `+0` is `+0` instead of `-0`. -/
theorem C113_fused_wrong (k : FK) (b : ℚ) (hb : 0 < b) : ∃ ls, gen .fmaSub ⟨none, .f k⟩ [⟨none, .f k⟩, ⟨none, .f k⟩, ⟨none, .f k⟩] = .ok ls ∧
    run ls [(⟨none, .f k⟩, [.f k .minusZero]), (⟨none, .f k⟩, [.f k (.num b)]), (⟨none, .f k⟩, [.f k .plusZero])] = some (⟨none, .f k⟩, [.f k .plusZero]) ∧
    ∀ r, Computes .fmaSub ⟨none, .f k⟩ [[.f k .minusZero], [.f k (.num b)], [.f k .plusZero]] r → r = [.f k .minusZero] := by
  have hk : (⟨none, .f k⟩ : Ty) = f32 ∨ (⟨none, .f k⟩ : Ty) = f64 := by cases k <;> simp [f32, f64]
  have sb : sgn (.num b) = false := sgn_pos hb.le
  have z : ∀ s, rnd k.fmt s ((numOf .minusZero * numOf (.num b) + 0 : ℚ) : ℝ) = zeroS s := by
    intro s; rw [show ((numOf .minusZero * numOf (.num b) + 0 : ℚ) : ℝ) = 0 by norm_num [numOf], rnd_zero]
  refine ⟨[negation ⟨none, .f k⟩ 2, fmaLine ⟨none, .f k⟩ 0 1 3], ?_, ?_, ?_⟩
  · simp only [gen]; rw [if_pos ⟨hk, trivial⟩]
  · simp only [run]
    rw [exec_neg (x := .plusZero) rfl, zero_sub (by trivial)]
    simp only [Option.bind_eq_bind, Option.bind_some]
    rw [scalar_fma .minusZero (.num b) .plusZero _ 0 1 3 rfl rfl rfl]
    have : ffma k.fmt .minusZero (.num b) .plusZero = .plusZero := by
      simp only [ffma, isNaN, isInf, Bool.or_self, Bool.false_eq_true, if_false]
      exact (z _).trans (by rw [sb]; rfl)
    rw [this]
    rfl
  · rintro r ⟨h1, h2⟩
    obtain ⟨l, x, h3, h4, h5⟩ := h2 0 Nat.zero_lt_one
    have hl : l = [.f k .minusZero, .f k (.num b), .f k .plusZero] := by
      have : l.map some = [Sc.f k .minusZero, .f k (.num b), .f k .plusZero].map some := h3.symm
      exact List.map_injective_iff.2 (Option.some_injective _) this
    subst hl
    have h6 : x = .f k (ffma k.fmt .minusZero (.num b) (fneg .plusZero)) := h5
    have : ffma k.fmt .minusZero (.num b) (fneg .plusZero) = .minusZero := by
      simp only [ffma, fneg, isNaN, isInf, Bool.or_self, Bool.false_eq_true, if_false]
      exact (z _).trans (by rw [sb]; rfl)
    rw [this] at h6
    subst h6
    match r, h1, h4 with
    | [y], _, h4 => cases h4; rfl

end Verif.Llvm
