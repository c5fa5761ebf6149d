import Verif.Fixed.Theorems
import Verif.Disp.Model
import Mathlib.Tactic.Linarith
import Mathlib.Tactic.NormNum
import Mathlib.Tactic.Ring
import Mathlib.Tactic.LinearCombination

/-! # C144: the display of fixed-point numbers -/

namespace Verif.Disp

theorem container {f : Fmt} {c : ℕ} (h : Fixed.cBitSize f.int f.frac = some c) :
    c = 8 ∨ c = 16 ∨ c = 32 ∨ c = 64 ∨ c = 128 := by
  have := (Fixed.C05_container_smallest _ _ _ h).1
  simpa [Fixed.possibleSizes] using this

theorem shows_dec {s : Bool} {w : ℕ} {v : ℤ} (hw : 1 ≤ w) (h : InRange s w v) : (Conv.dec s w).shows v = v := by
  obtain ⟨k, rfl⟩ : ∃ k, w = k + 1 := ⟨w - 1, by omega⟩
  have hp : (2 : ℤ) ^ (k + 1) = 2 * 2 ^ k := by ring
  have hk : (0 : ℤ) < 2 ^ k := by positivity
  cases s
  · simp only [InRange, Bool.false_eq_true, if_false] at h
    exact Int.emod_eq_of_lt h.1 h.2
  · simp only [InRange, if_true, Nat.add_sub_cancel] at h
    simp only [Conv.shows, Nat.add_sub_cancel, hp]
    rcases lt_or_ge v 0 with hv | hv
    · have e : v % (2 * 2 ^ k) = v + 2 * 2 ^ k := by
        rw [← Int.add_emod_right, Int.emod_eq_of_lt (by linarith) (by linarith)]
      rw [e, if_neg (by linarith)]; ring
    · rw [Int.emod_eq_of_lt hv (by linarith), if_pos h.2]

theorem shifts_succ (n : ℕ) : wordShifts (n + 1) = 0 :: (wordShifts n).map (64 + ·) := by
  simp [wordShifts, List.range_succ_eq_map, List.map_map, Function.comp_def, Nat.mul_add, Nat.add_comm]

/-- C144: for every number of words and every code, the words displayed make the code, modulo the size of the words. -/
theorem C144_words (n : ℕ) (sc : Option ℤ) (v : ℤ) :
    join (Display.codes ⟨sc, List.replicate n .hex64, wordShifts n⟩ v) = v % 2 ^ (64 * n) := by
  induction n generalizing v with
  | zero => simp [Display.codes, join, wordShifts]
  | succ n ih =>
    have e : Display.codes ⟨sc, List.replicate (n + 1) .hex64, wordShifts (n + 1)⟩ v =
        v % 2 ^ 64 :: Display.codes ⟨sc, List.replicate n .hex64, wordShifts n⟩ (v / 2 ^ 64) := by
      simp only [Display.codes, shifts_succ, List.replicate_succ, List.zipWith_cons_cons, pow_zero, Int.ediv_one,
        List.zipWith_map_right, Conv.shows]
      congr 2
      funext c s
      rw [pow_add, Int.ediv_ediv_of_nonneg (by positivity)]
    rw [e, join, ih, show 64 * (n + 1) = 64 + 64 * n by ring, pow_add]
    have h1 := Int.emod_add_mul_ediv v (2 ^ 64)
    have h2 := Int.emod_add_mul_ediv (v / 2 ^ 64) (2 ^ (64 * n))
    have h3 : v / 2 ^ 64 / 2 ^ (64 * n) = v / (2 ^ 64 * 2 ^ (64 * n)) :=
      Int.ediv_ediv_of_nonneg (by positivity)
    have h4 := Int.emod_add_mul_ediv v (2 ^ 64 * 2 ^ (64 * n))
    rw [h3] at h2
    linear_combination h1 - h4 + 2 ^ 64 * h2

/-- C144: a display built for a format is right, unless the format is an integer wider than 64 bits. -/
theorem fresh_right {f : Fmt} {c : ℕ} (hc : Fixed.cBitSize f.int f.frac = some c) (h : f.frac ≠ 0 ∨ c ≤ 64) :
    Right f c (fresh f c) := by
  have hs := container hc
  by_cases h64 : c ≤ 64
  · have hd : ∀ v sc, InRange f.signed c v → Display.codes ⟨sc, [.dec f.signed c], [0]⟩ v = [v] := by
      intro v sc hv
      simp [Display.codes, shows_dec (by omega : 1 ≤ c) hv]
    unfold fresh
    by_cases h0 : f.frac = 0
    · rw [if_pos h0]
      exact ⟨rfl, by simp [Conv.Exists]; omega, by simp, fun _ => h0, fun v hv => .inl (hd v _ hv)⟩
    · rw [if_neg h0, if_pos h64]
      exact ⟨rfl, by simp [Conv.Exists]; omega, by simp, by simp, fun v hv => .inl (hd v _ hv)⟩
  · have h0 : f.frac ≠ 0 := by tauto
    have e : c = 128 := by omega
    subst e
    unfold fresh
    rw [if_neg h0, if_neg (by omega)]
    refine ⟨by simp [wordShifts], ?_, by simp, by simp, fun v _ => .inr ⟨by simp, C144_words 2 _ v⟩⟩
    intro x hx
    rw [List.eq_of_mem_replicate hx]; trivial

theorem run_append (l : List Fmt) (f : Fmt) : run (l ++ [f]) = (create (run l) f).1 := by simp [run]

/-- All the entries of the map were built for a format created before. -/
theorem run_lookup (l : List Fmt) (k : ℤ × ℤ × Option ℕ) (d : Display) (h : (run l).lookup k = some d) :
    ∃ g ∈ l, key g = k ∧ ∃ c, Fixed.cBitSize g.int g.frac = some c ∧ d = fresh g c := by
  induction l using List.reverseRecOn with
  | nil => simp [run] at h
  | append_singleton l f ih =>
    rw [run_append] at h
    have old : (run l).lookup k = some d → ∃ g ∈ l ++ [f], key g = k ∧
        ∃ c, Fixed.cBitSize g.int g.frac = some c ∧ d = fresh g c := fun h => by
      obtain ⟨g, hg, r⟩ := ih h
      exact ⟨g, by simp [hg], r⟩
    unfold create at h
    cases hc : Fixed.cBitSize f.int f.frac with
    | none => rw [hc] at h; exact old h
    | some c =>
      rw [hc] at h
      simp only [build] at h
      cases hl : (run l).lookup (key f) with
      | some d' => rw [hl] at h; exact old h
      | none =>
        rw [hl] at h
        simp only [List.lookup_cons] at h
        by_cases hk : k = key f
        · subst hk
          simp at h
          exact ⟨f, by simp, rfl, c, hc, h.symm⟩
        · rw [beq_eq_false_iff_ne.2 hk] at h
          exact old h

/-- C144, the part which holds: whatever the formats created before, a format with a container gets a right display,
when it is not an integer wider than 64 bits and no format created before has the same sizes and support format and the
other signedness. -/
theorem C144_history_partial (l : List Fmt) (f : Fmt) (c : ℕ) (hc : Fixed.cBitSize f.int f.frac = some c)
    (h : f.frac ≠ 0 ∨ c ≤ 64)
    (hl : ∀ g ∈ l, g.int = f.int → g.frac = f.frac → g.support = f.support → g.signed = f.signed) :
    ∃ d, displayAfter l f = some d ∧ Right f c d := by
  unfold displayAfter create
  rw [hc]
  refine ⟨_, rfl, ?_⟩
  unfold build
  cases hk : (run l).lookup (key f) with
  | none => exact fresh_right hc h
  | some d =>
    obtain ⟨g, hg, e, c', hc', rfl⟩ := run_lookup l _ _ hk
    simp only [key, Prod.mk.injEq] at e
    have : g = f := by
      have := hl g hg e.1 e.2.1 e.2.2
      cases g; cases f; simp_all
    subst this
    rw [hc] at hc'
    cases hc'
    exact fresh_right hc h

example : ∃ d, displayAfter [⟨8, 8, false, none⟩, ⟨60, 40, true, none⟩] ⟨4, 8, true, none⟩ = some d ∧
    Right ⟨4, 8, true, none⟩ 16 d :=
  C144_history_partial _ _ _ (by decide) (by decide) (by decide)

/-- C144 fails: for all sizes with a container of at most 64 bits, a format without sign created after the one with a
sign is displayed as a number with a sign, so all the codes of the upper half are displayed as negative numbers. -/
theorem C144_sign_wrong (i fr : ℤ) (c : ℕ) (hc : Fixed.cBitSize i fr = some c) (h : c ≤ 64) :
    ∃ d, displayAfter [⟨i, fr, true, none⟩] ⟨i, fr, false, none⟩ = some d ∧ ¬ Right ⟨i, fr, false, none⟩ c d ∧
      ∀ v, 2 ^ (c - 1) ≤ v → v < 2 ^ c → InRange false c v ∧ d.codes v = [v - 2 ^ c] := by
  have hs := container (f := ⟨i, fr, true, none⟩) hc
  have hd : ∃ d, displayAfter [⟨i, fr, true, none⟩] ⟨i, fr, false, none⟩ = some d ∧
      d = fresh ⟨i, fr, true, none⟩ c := by
    simp [displayAfter, create, hc, run, build, key]
  obtain ⟨d, e, rfl⟩ := hd
  have hv : ∀ v : ℤ, 2 ^ (c - 1) ≤ v → v < 2 ^ c → InRange false c v ∧
      (fresh ⟨i, fr, true, none⟩ c).codes v = [v - 2 ^ c] := by
    intro v h1 h2
    have h0 : (0 : ℤ) ≤ v := le_trans (by positivity) h1
    refine ⟨by simp [InRange, h0, h2], ?_⟩
    have : (Conv.dec true c).shows v = v - 2 ^ c := by
      simp only [Conv.shows]
      rw [Int.emod_eq_of_lt h0 h2, if_neg (not_lt.2 h1)]
    by_cases h0 : fr = 0 <;> simp [fresh, h0, h, Display.codes, this]
  refine ⟨_, e, fun r => ?_, hv⟩
  have hlt : (2 : ℤ) ^ (c - 1) < 2 ^ c := pow_lt_pow_right₀ (by norm_num) (by omega)
  obtain ⟨a, b⟩ := hv (2 ^ (c - 1)) le_rfl hlt
  have hp : (0 : ℤ) < 2 ^ c := by positivity
  rcases r.code _ a with q | ⟨q, -⟩
  · rw [b] at q
    simp at q
  · have : (fresh ⟨i, fr, true, none⟩ c).convs.length = 1 := by
      by_cases h0 : fr = 0 <;> simp [fresh, h0, h]
    rw [this] at q
    have e64 : c = 64 := by omega
    have := r.code (2 ^ (c - 1)) a
    rw [b] at this
    subst e64
    simp [join] at this

example : Fixed.cBitSize 8 8 = some 16 := by decide

/-- C144 fails: integers of 65 to 128 bits are displayed with a conversion which does not exist, whatever their sign. -/
theorem C144_wide_wrong (i : ℤ) (s : Bool) (h1 : 64 < i) (h2 : i ≤ 128) :
    ∃ d, displayAfter [] ⟨i, 0, s, none⟩ = some d ∧ d.convs = [.dec s 128] ∧ ¬ Right ⟨i, 0, s, none⟩ 128 d := by
  obtain ⟨c, hc⟩ := (Fixed.C05_container_exists_iff i 0).2 ⟨by omega, by omega⟩
  have hs := container (f := ⟨i, 0, s, none⟩) hc
  have hle := (Fixed.C05_container_smallest _ _ _ hc).2.1
  have e : c = 128 := by omega
  subst e
  refine ⟨⟨none, [.dec s 128], [0]⟩, ?_, rfl, fun r => ?_⟩
  · simp [displayAfter, create, hc, run, build, fresh]
  · have := r.exist (.dec s 128) (by simp)
    simp [Conv.Exists] at this

/-- C144 fails: the digits of the words are written one after the other, the lowest word first and without leading
zeros, so different codes have the same digits: `2^64` times a digit plus a digit times 16 plus a digit, and the like. -/
theorem C144_digits_wrong (a b d : ℕ) (ha : 0 < a) (ha' : a < 16) (hb : 0 < b) (hb' : b < 16) (hd : d < 16)
    (hd0 : 0 < d) :
    let text := fun v : ℤ =>
      ((Display.codes ⟨some 8, List.replicate 2 .hex64, wordShifts 2⟩ v).map (fun x => hexText x.toNat)).flatten
    let v₁ : ℤ := (16 * a + b) + 2 ^ 64 * d
    let v₂ : ℤ := a + 2 ^ 64 * (16 * b + d)
    v₁ ≠ v₂ ∧ text v₁ = text v₂ ∧ text v₁ = [a, b, d] := by
  have one : ∀ x : ℕ, 0 < x → x < 16 → hexText x = [x] := by
    intro x h h'
    rw [hexText, if_neg (by omega), Nat.digits_of_lt 16 x (by omega) h']; rfl
  have two : ∀ x y : ℕ, 0 < x → x < 16 → y < 16 → hexText (16 * x + y) = [x, y] := by
    intro x y h h' hy
    rw [hexText, if_neg (by omega), show 16 * x + y = y + 16 * x by ring,
      Nat.digits_add 16 (by norm_num) y x hy (.inr (by omega)), Nat.digits_of_lt 16 x (by omega) h']; rfl
  have code : ∀ p q : ℕ, p < 2 ^ 8 → q < 2 ^ 8 →
      (Display.codes ⟨some 8, List.replicate 2 .hex64, wordShifts 2⟩ ((p : ℤ) + 2 ^ 64 * q)) = [(p : ℤ), (q : ℤ)] := by
    intro p q hp hq
    simp only [Display.codes, wordShifts, List.range, List.range.loop, List.map, List.replicate, List.zipWith,
      Conv.shows]
    congr 1
    · norm_num; omega
    · congr 1
      norm_num; omega
  have c1 := code (16 * a + b) d (by omega) (by omega)
  have c2 := code a (16 * b + d) (by omega) (by omega)
  simp only [Nat.cast_add, Nat.cast_mul, Nat.cast_ofNat] at c1 c2
  have t1 : hexText (16 * (a : ℤ) + b).toNat = [a, b] := by
    rw [show (16 * (a : ℤ) + b).toNat = 16 * a + b by omega]; exact two a b ha ha' hb'
  have t2 : hexText (16 * (b : ℤ) + d).toNat = [b, d] := by
    rw [show (16 * (b : ℤ) + d).toNat = 16 * b + d by omega]; exact two b d hb hb' hd
  intro text v₁ v₂
  refine ⟨?_, ?_, ?_⟩
  · simp only [v₁, v₂]; omega
  · simp only [text, v₁, v₂, c1, c2]
    simp [t1, t2, one a ha ha', one d hd0 hd]
  · simp only [text, v₁, c1]
    simp [t1, one d hd0 hd]

end Verif.Disp
