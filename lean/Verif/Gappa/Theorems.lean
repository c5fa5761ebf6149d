import Verif.Gappa.Sim
import Mathlib.Tactic.NormNum
import Mathlib.Algebra.Order.Ring.Abs
import Mathlib.Data.Int.Order.Basic

/-!
# The evaluation errors (property C117)
-/

namespace Verif.Gappa

open Verif.Names (Name indexed)

theorem names_of {s : St} {ls : List (Name × G)} (h : s.lines = ls) {P : Name → Prop} (hn : ∀ l ∈ ls, ¬ P l.1) :
    ∀ n ∈ s.used, ¬ P n := by
  intro n hm
  obtain ⟨l, hl, rfl⟩ := List.mem_map.1 hm
  exact hn l (h ▸ hl)

/-- **Evaluation error.** Let the script of `get_eval_error_v2` be built for a graph of additions, subtractions,
multiplications, fused operations and roundings to an integer whose constants are numbers of their formats. Let the
variables have different names, also with the added underscore, and let no line of the script define one of these names.
Then every interval that answers the script contains the difference, absolute or relative, between what the machine
computes and what the graph stands for, for all values of the variables that their bounds allow.

Missing for the full statement: divisions, negations and conversions (`C117_division_wrong`, `C117_negation_wrong`,
`C117_conversion_wrong`), names that coincide (`C117_same_tag_wrong`, `C117_tag_wrong`) and exact values that are not
numbers of the format (`C117_quantized_wrong`). -/
theorem C117_bound_partial (R : Rnd) (hR : R.Ok) (bs : List Bnd) (relative : Bool) (e : E) (s : Script) (d : ℕ → E)
    (hshare : Shares d e) (hbounded : Bounded bs e) (hplain : Plain e) (hdist : Distinct bs)
    (hs : evalError bs relative e = some s) (hnames : ∀ l ∈ s.lines, l.1 ∉ varNames bs)
    (lo hi : ℚ) (hproves : Proves R s lo hi) (A X : ℕ → ℚ)
    (hallow : ∀ b ∈ bs, b.Allows (A b.id) (X b.id))
    (hgrid : ∀ b ∈ bs, b.err.isSome → b.p ≠ .exact → Grid b.p (X b.id))
    (hdiv : relative = true → exact R X e ≠ 0) :
    lo ≤ difference relative (machine R A e) (exact R X e) ∧ difference relative (machine R A e) (exact R X e) ≤ hi := by
  obtain ⟨ρ, hρ⟩ := exists_means hdist A X
  have hAX : ∀ b ∈ bs, b.err = none → A b.id = X b.id := by
    intro b hb he
    have := hallow b hb
    unfold Bnd.Allows at this
    rw [he] at this
    exact this.1
  have hallow' : ∀ b ∈ bs, b.Allows (ρ b.tag) (if b.err.isSome then ρ (under b.tag) else ρ b.tag) ∧
      (b.err.isSome → b.p ≠ .exact → Grid b.p (ρ (under b.tag))) := by
    intro b hb
    obtain ⟨h1, h2⟩ := hρ b hb
    refine ⟨?_, fun he => by rw [h2 he]; exact hgrid b hb he⟩
    have := hallow b hb
    by_cases he : b.err.isSome
    · rw [if_pos he, h1, h2 he]; exact this
    · rw [if_neg he, h1]
      rwa [← hAX b hb (by simpa using he)] at this
  have hvars : ∀ b ∈ bs, b.tag ∈ varNames bs ∧ (b.err.isSome → under b.tag ∈ varNames bs) :=
    fun b hb => ⟨tag_mem hb, under_mem hb⟩
  unfold evalError at hs
  obtain ⟨s0, h0⟩ : ∃ s0, s0 = (genHyps bs start).2 := ⟨_, rfl⟩
  obtain ⟨hs0, hh0⟩ : ∃ hs0, hs0 = (genHyps bs start).1 := ⟨_, rfl⟩
  rw [show genHyps bs start = (hs0, s0) by rw [h0, hh0]] at hs
  simp only [Option.bind_eq_some_iff, Prod.exists] at hs
  obtain ⟨gre, s1, he1, gra, s2, he2, hs⟩ := hs
  -- the states up to the two graphs, with the names they use
  have key : (∀ n ∈ s2.used, n ∉ varNames bs) →
      HypsOk R ρ (· ∈ varNames bs) hs0 s2 ∧ gre.In (· ∈ varNames bs) s2 ∧ gra.In (· ∈ varNames bs) s2 ∧
      gre.eval (s2.env R ρ) = exact R X e ∧ gra.eval (s2.env R ρ) = machine R A e := by
    intro hn2
    have hn1 : ∀ n ∈ s1.used, n ∉ varNames bs := fun n hn => hn2 n (gen_used _ _ _ _ he2 n hn)
    have hn0 : ∀ n ∈ s0.used, n ∉ varNames bs := fun n hn => hn1 n (gen_used _ _ _ _ he1 n hn)
    have k0 := genHyps_ok (R := R) (ρ := ρ) (D := both bs d) (vt := (· ∈ varNames bs)) bs start (h0 ▸ hn0) (good_start _ _ _ _) hvars hallow'
    rw [← h0, ← hh0] at k0
    obtain ⟨k1, k2, k3⟩ := k0
    have k4 := gen_ok _ _ _ _ he1 (shares_exact bs d e hshare) (tags_exact hdist e hbounded) hn1 k1
    have k5 := gen_ok _ _ _ _ he2 (shares_approx bs d e hshare) (tags_approx bs e hbounded) hn2 k4.good
    refine ⟨(k3.ext k4.ext).ext k5.ext, (k5.ext.at k4.inn).1, k5.inn, ?_, ?_⟩
    · rw [(k5.ext.at k4.inn).2, k4.val, sem_exact hdist hρ hAX e hbounded hplain]
    · rw [k5.val, sem_approx hR hρ e hbounded hplain]
  unfold difference
  cases relative with
  | false =>
    simp only [Bool.false_eq_true, if_false, Option.some.injEq] at hs ⊢
    subst hs
    have hn3 : ∀ n ∈ (emit s2 (some ['g', 'o', 'a', 'l']) (.bin .sub gra gre)).2.used, n ∉ varNames bs :=
      names_of (P := (· ∈ varNames bs)) rfl hnames
    obtain ⟨q1, q2, q3, q4, q5⟩ := key (fun n hn => hn3 n (emit_used _ _ _ n hn))
    obtain ⟨r1, r2, r3, r4⟩ := emit_ext (R := R) (ρ := ρ) (vt := (· ∈ varNames bs)) s2 _ _ hn3
    have hp := hproves ρ (fun h hh => ((q1.ext r1) h hh).2) (fun d hd => by cases hd)
    have hg : At.eval (run R ρ (emit s2 (some ['g', 'o', 'a', 'l']) (.bin .sub gra gre)).2.lines)
        (emit s2 (some ['g', 'o', 'a', 'l']) (.bin .sub gra gre)).1 = machine R A e - exact R X e := by
      refine r4.trans ?_
      show gra.eval _ - gre.eval _ = _
      rw [q4, q5]
    simpa only [hg] using hp
  | true =>
    simp only [if_true, Option.some.injEq] at hs ⊢
    subst hs
    obtain ⟨s3, h3⟩ : ∃ s3, s3 = (emit s2 (some ['g', 'o', 'a', 'l', '_', 'd', 'i', 'f', 'f']) (.bin .sub gra gre)).2 := ⟨_, rfl⟩
    obtain ⟨dd, hdd⟩ : ∃ dd, dd = (emit s2 (some ['g', 'o', 'a', 'l', '_', 'd', 'i', 'f', 'f']) (.bin .sub gra gre)).1 := ⟨_, rfl⟩
    rw [← h3, ← hdd] at hproves hnames
    have hn4 : ∀ n ∈ (emit s3 (some ['g', 'o', 'a', 'l']) (.bin .div dd gre)).2.used, n ∉ varNames bs :=
      names_of (P := (· ∈ varNames bs)) rfl hnames
    have hn3 : ∀ n ∈ s3.used, n ∉ varNames bs := fun n hn => hn4 n (emit_used _ _ _ n hn)
    have hn3' := hn3
    rw [h3] at hn3'
    obtain ⟨q1, q2, q3, q4, q5⟩ := key (fun n hn => hn3' n (emit_used _ _ _ n hn))
    obtain ⟨r1, r2, r3, r4⟩ := emit_ext (R := R) (ρ := ρ) (vt := (· ∈ varNames bs)) s2 _ _ hn3'
    rw [← h3] at r1 r2 r3 r4
    rw [← hdd] at r3 r4
    obtain ⟨t1, t2, t3, t4⟩ := emit_ext (R := R) (ρ := ρ) (vt := (· ∈ varNames bs)) s3 _ _ hn4
    have hden : gre.eval (run R ρ (emit s3 (some ['g', 'o', 'a', 'l']) (.bin .div dd gre)).2.lines) = exact R X e := by
      have := ((r1.trans t1).at q2).2
      exact this.trans q4
    have hp := hproves ρ (fun h hh => (((q1.ext r1).ext t1) h hh).2) (fun d hd => by
      cases hd
      show gre.eval _ ≠ 0
      rw [hden]; exact hdiv rfl)
    have hg : At.eval (run R ρ (emit s3 (some ['g', 'o', 'a', 'l']) (.bin .div dd gre)).2.lines)
        (emit s3 (some ['g', 'o', 'a', 'l']) (.bin .div dd gre)).1 = (machine R A e - exact R X e) / exact R X e := by
      refine t4.trans ?_
      show dd.eval _ / gre.eval _ = _
      rw [r4, (r1.at q2).2]
      show (gra.eval _ - gre.eval _) / gre.eval _ = _
      rw [q4, q5]
    simpa only [hg] using hp

/-! ## Concrete graphs -/

def xN : Name := ['x']
def yN : Name := ['y']
def zN : Name := ['z']

/-- A variable of format binary32 in an interval. -/
def bnd (i : ℕ) (t : Name) (lo hi : ℚ) : Bnd := ⟨i, t, .b32, lo, hi, none⟩

/-- Roundings as required exist. -/
noncomputable def someRnd : Rnd := ⟨fun p x => open Classical in if Grid p x then x else 0, fun x => (x.floor : ℤ)⟩

theorem grid_zero (p : Prec) : Grid p 0 := ⟨0, p.low, by simp, by simp, le_refl _⟩

theorem grid_neg {p : Prec} {x : ℚ} (h : Grid p x) : Grid p (-x) := by
  obtain ⟨m, e, h1, h2, h3⟩ := h
  exact ⟨-m, e, by rw [h1]; push_cast; ring, by rwa [abs_neg], h3⟩

open Classical in
theorem someRnd_ok : someRnd.Ok := by
  intro p _ x
  show Grid p (if Grid p x then x else 0) ∧ (Grid p x → (if Grid p x then x else 0) = x)
  by_cases h : Grid p x
  · rw [if_pos h]; exact ⟨h, fun _ => rfl⟩
  · rw [if_neg h]; exact ⟨grid_zero p, fun h' => absurd h' h⟩

open Classical in
theorem someRnd_odd (p : Prec) (x : ℚ) : someRnd.fp p (-x) = -someRnd.fp p x := by
  show (if Grid p (-x) then -x else 0) = -(if Grid p x then x else 0)
  by_cases h : Grid p x
  · rw [if_pos h, if_pos (grid_neg h)]
  · rw [if_neg h, if_neg (fun h' => h (by simpa using grid_neg h'))]; simp

/-- `x * y + x * y`, with the product shared. -/
def exProd : E := .bin 3 .mul .b32 none (.var 0 xN .b32) (.var 1 yN .b32)
def exSum : E := .bin 4 .add .b32 none exProd exProd
def exD : ℕ → E
  | 0 => .var 0 xN .b32
  | 1 => .var 1 yN .b32
  | 3 => exProd
  | _ => exSum
def exBs : List Bnd := [bnd 0 xN 1 2, ⟨1, yN, .b32, 1, 2, some (1 / 8)⟩]

/-- The hypotheses of `C117_bound_partial` are met by a graph with a shared product and a variable that the machine only
has approximately. -/
example : Shares exD exSum ∧ Bounded exBs exSum ∧ Plain exSum ∧ Distinct exBs ∧
    ∃ s, evalError exBs true exSum = some s ∧ (∀ l ∈ s.lines, l.1 ∉ varNames exBs) ∧ s.lines.length = 7 := by
  refine ⟨⟨rfl, ⟨rfl, rfl, rfl⟩, rfl, rfl, rfl⟩,
    ⟨⟨⟨_, List.mem_cons_self, rfl, rfl, rfl⟩, ⟨_, List.mem_cons_of_mem _ (List.mem_singleton.2 rfl), rfl, rfl, rfl⟩⟩,
      ⟨⟨_, List.mem_cons_self, rfl, rfl, rfl⟩, ⟨_, List.mem_cons_of_mem _ (List.mem_singleton.2 rfl), rfl, rfl, rfl⟩⟩⟩,
    ⟨by decide, ⟨by decide, trivial, trivial⟩, ⟨by decide, trivial, trivial⟩⟩, ⟨by decide, by decide⟩, ?_⟩
  refine ⟨(evalError exBs true exSum).get (by decide), by simp, by decide, by decide⟩

/-- No number with at most 24 significant bits is between 1 and its successor. -/
theorem not_flt {x : ℚ} (h1 : 1 < x) (h2 : x < 8388609 / 8388608) : ¬ Flt 24 x := by
  rintro ⟨m, e, rfl, hm⟩
  have hm' := abs_lt.1 hm
  rcases lt_or_ge e (-23) with he | he
  · have hpow : (2 : ℚ) ^ e ≤ 2 ^ (-24 : ℤ) := zpow_le_zpow_right₀ (by norm_num) (by omega)
    have hpos : (0 : ℚ) < 2 ^ e := zpow_pos (by norm_num) _
    have hmq : (m : ℚ) < 16777216 := by
      have : m < 16777216 := by have := hm'.2; norm_num at this; exact this
      exact_mod_cast this
    have : (m : ℚ) * 2 ^ e < 16777216 * 2 ^ e := mul_lt_mul_of_pos_right hmq hpos
    have h24 : (2 : ℚ) ^ (-24 : ℤ) = 1 / 16777216 := by norm_num
    rw [h24] at hpow
    have : (16777216 : ℚ) * 2 ^ e ≤ 1 := by
      calc (16777216 : ℚ) * 2 ^ e ≤ 16777216 * (1 / 16777216) := mul_le_mul_of_nonneg_left hpow (by norm_num)
        _ = 1 := by norm_num
    linarith
  · obtain ⟨k, rfl⟩ : ∃ k : ℕ, e = -23 + k := ⟨(e + 23).toNat, by omega⟩
    rw [zpow_add₀ (by norm_num), zpow_natCast] at h1 h2
    have h23 : (2 : ℚ) ^ (-23 : ℤ) = 1 / 8388608 := by norm_num
    rw [h23] at h1 h2
    have a1 : (8388608 : ℚ) < m * 2 ^ k := by linarith
    have a2 : (m : ℚ) * 2 ^ k < 8388609 := by linarith
    have b1 : (8388608 : ℤ) < m * 2 ^ k := by exact_mod_cast a1
    have b2 : m * 2 ^ k < 8388609 := by exact_mod_cast a2
    omega

theorem rnd_moves {R : Rnd} (hR : R.Ok) {x : ℚ} (h1 : 1 < x) (h2 : x < 8388609 / 8388608) : R.fp .b32 x ≠ x := by
  intro h
  exact not_flt h1 h2 (h ▸ (hR .b32 (by decide) x).1).flt

theorem rnd_zero {R : Rnd} (hR : R.Ok) (p : Prec) (hp : p ≠ .exact) : R.fp p 0 = 0 := (hR p hp 0).2 (grid_zero p)

/-- An interval that answers the script of a graph, and values allowed by the bounds for which the error is not in it. -/
def Misses (R : Rnd) (bs : List Bnd) (e : E) (s : Script) : Prop :=
  ∃ lo hi A X, Proves R s lo hi ∧ (∀ b ∈ bs, b.Allows (A b.id) (X b.id)) ∧
    ¬ (lo ≤ difference false (machine R A e) (exact R X e) ∧ difference false (machine R A e) (exact R X e) ≤ hi)

theorem grid32 (m : ℤ) (e : ℤ) (x : ℚ) (h : x = m * (2 : ℚ) ^ e) (hm : |m| < 16777216) (he : -149 ≤ e) : Grid .b32 x :=
  ⟨m, e, h, by show |m| < 2 ^ 24; norm_num; exact hm, he⟩

/-- **Divisions.** A division is not rounded in the script, so the error of a division in floating-point arithmetic is
reported as zero. -/
theorem C117_division_wrong (R : Rnd) (hR : R.Ok) :
    ∃ bs e s, Bounded bs e ∧ Distinct bs ∧ evalError bs false e = some s ∧ (∀ l ∈ s.lines, l.1 ∉ varNames bs) ∧
      Misses R bs e s := by
  refine ⟨[bnd 0 xN 1 2, bnd 1 yN 1 2], .bin 2 .div .b32 none (.var 0 xN .b32) (.var 1 yN .b32),
    ⟨[⟨.v xN, 1, 2, some 24⟩, ⟨.v yN, 1, 2, some 24⟩],
      [(tmp, .bin .div (.v xN) (.v yN)), (['t', 'm', 'p', '0'], .bin .div (.v xN) (.v yN)),
        (['g', 'o', 'a', 'l'], .bin .sub (.v ['t', 'm', 'p', '0']) (.v tmp))], .v ['g', 'o', 'a', 'l'], none⟩,
    ⟨⟨_, List.mem_cons_self, rfl, rfl, rfl⟩, ⟨_, List.mem_cons_of_mem _ List.mem_cons_self, rfl, rfl, rfl⟩⟩,
    ⟨by decide, by decide⟩, by decide, by decide, 0, 0,
    fun i => if i = 0 then 8388610 / 8388608 else 8388609 / 8388608,
    fun i => if i = 0 then 8388610 / 8388608 else 8388609 / 8388608, ?_, ?_, ?_⟩
  · intro ρ _ _
    simp [run, At.eval, G.eval, Op2.on, tmp, xN, yN]
  · intro b hb
    rcases List.mem_cons.1 hb with rfl | hb
    · exact ⟨rfl, by norm_num [bnd], by norm_num [bnd], fun _ => grid32 8388610 (-23) _ (by norm_num [bnd]) (by decide) (by decide)⟩
    · rw [List.mem_singleton.1 hb]
      exact ⟨rfl, by norm_num [bnd], by norm_num [bnd], fun _ => grid32 8388609 (-23) _ (by norm_num [bnd]) (by decide) (by decide)⟩
  · rintro ⟨h1, h2⟩
    have h3 := rnd_moves hR (x := (8388610 / 8388608) / (8388609 / 8388608)) (by norm_num) (by norm_num)
    refine h3 ?_
    have he : difference false (machine R (fun i => if i = 0 then 8388610 / 8388608 else 8388609 / 8388608)
        (.bin 2 .div .b32 none (.var 0 xN .b32) (.var 1 yN .b32)))
        (exact R (fun i => if i = 0 then 8388610 / 8388608 else 8388609 / 8388608)
        (.bin 2 .div .b32 none (.var 0 xN .b32) (.var 1 yN .b32))) =
        R.fp .b32 ((8388610 / 8388608) / (8388609 / 8388608)) - (8388610 / 8388608) / (8388609 / 8388608) := rfl
    rw [he] at h1 h2
    linarith

/-- **Negations.** The graph that should be exact still has the rounding of a negation, so for `-(x + y)` both sides are
rounded once and the error is reported as zero (for roundings that are symmetric, as rounding to nearest is). -/
theorem C117_negation_wrong (R : Rnd) (hR : R.Ok) (hodd : ∀ p x, R.fp p (-x) = -R.fp p x) :
    ∃ bs e s, Bounded bs e ∧ Distinct bs ∧ evalError bs false e = some s ∧ (∀ l ∈ s.lines, l.1 ∉ varNames bs) ∧
      Misses R bs e s := by
  refine ⟨[bnd 0 xN 0 1, bnd 1 yN 0 1], .neg 3 .b32 none (.bin 2 .add .b32 none (.var 0 xN .b32) (.var 1 yN .b32)),
    ⟨[⟨.v xN, 0, 1, some 24⟩, ⟨.v yN, 0, 1, some 24⟩],
      [(tmp, .bin .add (.v xN) (.v yN)), (['t', 'm', 'p', '0'], .rnd .b32 (.neg (.v tmp))),
        (['t', 'm', 'p', '1'], .rnd .b32 (.bin .add (.v xN) (.v yN))),
        (['t', 'm', 'p', '2'], .rnd .b32 (.neg (.v ['t', 'm', 'p', '1']))),
        (['g', 'o', 'a', 'l'], .bin .sub (.v ['t', 'm', 'p', '2']) (.v ['t', 'm', 'p', '0']))], .v ['g', 'o', 'a', 'l'], none⟩,
    ⟨⟨_, List.mem_cons_self, rfl, rfl, rfl⟩, ⟨_, List.mem_cons_of_mem _ List.mem_cons_self, rfl, rfl, rfl⟩⟩,
    ⟨by decide, by decide⟩, by decide, by decide, 0, 0,
    fun i => if i = 0 then 1 else 1 / 1073741824, fun i => if i = 0 then 1 else 1 / 1073741824, ?_, ?_, ?_⟩
  · intro ρ _ _
    have h : ∀ v, R.fp .b32 (R.fp .b32 v) = R.fp .b32 v := fun v => (hR .b32 (by decide) _).2 (hR .b32 (by decide) v).1
    have h' : R.fp .b32 (-ρ ['y'] + -ρ ['x']) = -R.fp .b32 (ρ ['x'] + ρ ['y']) := by
      rw [← hodd]; congr 1; ring
    simp [run, At.eval, G.eval, Op2.on, tmp, xN, yN, hodd, h, h']
  · intro b hb
    rcases List.mem_cons.1 hb with rfl | hb
    · exact ⟨rfl, by norm_num [bnd], by norm_num [bnd], fun _ => grid32 1 0 _ (by norm_num [bnd]) (by decide) (by decide)⟩
    · rw [List.mem_singleton.1 hb]
      exact ⟨rfl, by norm_num [bnd], by norm_num [bnd], fun _ => grid32 1 (-30) _ (by norm_num [bnd]) (by decide) (by decide)⟩
  · rintro ⟨h1, h2⟩
    have h3 := rnd_moves hR (x := 1 + 1 / 1073741824) (by norm_num) (by norm_num)
    have h4 : R.fp .b32 (R.fp .b32 (1 + 1 / 1073741824)) = R.fp .b32 (1 + 1 / 1073741824) :=
      (hR .b32 (by decide) _).2 (hR .b32 (by decide) _).1
    refine h3 ?_
    have he : difference false (machine R (fun i => if i = 0 then 1 else 1 / 1073741824)
        (.neg 3 .b32 none (.bin 2 .add .b32 none (.var 0 xN .b32) (.var 1 yN .b32))))
        (exact R (fun i => if i = 0 then 1 else 1 / 1073741824)
        (.neg 3 .b32 none (.bin 2 .add .b32 none (.var 0 xN .b32) (.var 1 yN .b32)))) =
        -R.fp .b32 (1 + 1 / 1073741824) + (1 + 1 / 1073741824) := by
      show R.fp .b32 (-R.fp .b32 (1 + 1 / 1073741824)) - -(1 + 1 / 1073741824) = _
      rw [hodd, h4]; ring
    rw [he] at h1 h2
    linarith

/-- **Conversions.** The graph that should be exact still has the rounding of a conversion: the error of the conversion of a
binary64 number to binary32 is reported as zero. -/
theorem C117_conversion_wrong (R : Rnd) (hR : R.Ok) :
    ∃ bs e s, Bounded bs e ∧ Distinct bs ∧ evalError bs false e = some s ∧ (∀ l ∈ s.lines, l.1 ∉ varNames bs) ∧
      Misses R bs e s := by
  refine ⟨[⟨0, xN, .b64, 1, 2, none⟩], .conv 2 .b32 none (.var 0 xN .b64),
    ⟨[⟨.v xN, 1, 2, some 53⟩],
      [(tmp, .rnd .b32 (.at (.v xN))), (['t', 'm', 'p', '0'], .rnd .b32 (.at (.v xN))),
        (['g', 'o', 'a', 'l'], .bin .sub (.v ['t', 'm', 'p', '0']) (.v tmp))], .v ['g', 'o', 'a', 'l'], none⟩,
    ⟨_, List.mem_cons_self, rfl, rfl, rfl⟩,
    ⟨by decide, by decide⟩, by decide, by decide, 0, 0,
    fun _ => 1 + 1 / 1073741824, fun _ => 1 + 1 / 1073741824, ?_, ?_, ?_⟩
  · intro ρ _ _
    simp [run, At.eval, G.eval, Op2.on, tmp, xN]
  · intro b hb
    rw [List.mem_singleton.1 hb]
    refine ⟨rfl, by norm_num, by norm_num, fun _ => ⟨1073741825, -30, by norm_num, ?_, by decide⟩⟩
    show |(1073741825 : ℤ)| < 2 ^ 53
    decide
  · rintro ⟨h1, h2⟩
    have h3 := rnd_moves hR (x := 1 + 1 / 1073741824) (by norm_num) (by norm_num)
    refine h3 ?_
    have he : difference false (machine R (fun _ => 1 + 1 / 1073741824) (.conv 2 .b32 none (.var 0 xN .b64)))
        (exact R (fun _ => 1 + 1 / 1073741824) (.conv 2 .b32 none (.var 0 xN .b64))) =
        R.fp .b32 (1 + 1 / 1073741824) - (1 + 1 / 1073741824) := rfl
    rw [he] at h1 h2
    linarith

/-- **Equal names.** Two variables with the same tag are one number in the script, so the difference of two variables is
reported to be exact. -/
theorem C117_same_tag_wrong (R : Rnd) (hR : R.Ok) :
    ∃ bs e s, Bounded bs e ∧ Plain e ∧ (bs.map (·.id)).Nodup ∧ evalError bs false e = some s ∧
      (∀ l ∈ s.lines, l.1 ∉ varNames bs) ∧ Misses R bs e s := by
  refine ⟨[bnd 0 xN (-1) 1, bnd 1 xN (-1) 1], .bin 2 .sub .b32 none (.var 0 xN .b32) (.var 1 xN .b32),
    ⟨[⟨.v xN, -1, 1, some 24⟩, ⟨.v xN, -1, 1, some 24⟩],
      [(tmp, .bin .sub (.v xN) (.v xN)), (['t', 'm', 'p', '0'], .rnd .b32 (.bin .sub (.v xN) (.v xN))),
        (['g', 'o', 'a', 'l'], .bin .sub (.v ['t', 'm', 'p', '0']) (.v tmp))], .v ['g', 'o', 'a', 'l'], none⟩,
    ⟨⟨_, List.mem_cons_self, rfl, rfl, rfl⟩, ⟨_, List.mem_cons_of_mem _ List.mem_cons_self, rfl, rfl, rfl⟩⟩,
    ⟨by decide, trivial, trivial⟩, by decide, by decide, by decide, 0, 0,
    fun i => if i = 0 then 1 else -1 / 1073741824, fun i => if i = 0 then 1 else -1 / 1073741824, ?_, ?_, ?_⟩
  · intro ρ _ _
    simp [run, At.eval, G.eval, Op2.on, tmp, xN, rnd_zero hR .b32 (by decide)]
  · intro b hb
    rcases List.mem_cons.1 hb with rfl | hb
    · exact ⟨rfl, by norm_num [bnd], by norm_num [bnd], fun _ => grid32 1 0 _ (by norm_num [bnd]) (by decide) (by decide)⟩
    · rw [List.mem_singleton.1 hb]
      exact ⟨rfl, by norm_num [bnd], by norm_num [bnd], fun _ => grid32 (-1) (-30) _ (by norm_num [bnd]) (by decide) (by decide)⟩
  · rintro ⟨h1, h2⟩
    have h3 := rnd_moves hR (x := 1 - -1 / 1073741824) (by norm_num) (by norm_num)
    refine h3 ?_
    have he : difference false (machine R (fun i => if i = 0 then 1 else -1 / 1073741824)
        (.bin 2 .sub .b32 none (.var 0 xN .b32) (.var 1 xN .b32)))
        (exact R (fun i => if i = 0 then 1 else -1 / 1073741824)
        (.bin 2 .sub .b32 none (.var 0 xN .b32) (.var 1 xN .b32))) =
        R.fp .b32 (1 - -1 / 1073741824) - (1 - -1 / 1073741824) := rfl
    rw [he] at h1 h2
    linarith

/-- **Names of operations.** The names of the variables do not count as taken: an operation tagged like a variable
redefines it, and the hypothesis on the variable becomes one on the operation. Here it contradicts the others, so that any
interval answers the script. -/
theorem C117_tag_wrong (R : Rnd) (hR : R.Ok) :
    ∃ bs e s, Bounded bs e ∧ Plain e ∧ Distinct bs ∧ evalError bs false e = some s ∧ Misses R bs e s := by
  refine ⟨[bnd 0 xN 1 1, bnd 1 yN 2 2],
    .bin 3 .add .b32 none (.var 0 xN .b32) (.bin 2 .mul .b32 (some xN) (.var 1 yN .b32) (.var 1 yN .b32)),
    ⟨[⟨.v xN, 1, 1, some 24⟩, ⟨.v yN, 2, 2, some 24⟩],
      [(xN, .bin .mul (.v yN) (.v yN)), (tmp, .bin .add (.v xN) (.v xN)),
        (['x', '0'], .rnd .b32 (.bin .mul (.v yN) (.v yN))),
        (['t', 'm', 'p', '0'], .rnd .b32 (.bin .add (.v xN) (.v ['x', '0']))),
        (['g', 'o', 'a', 'l'], .bin .sub (.v ['t', 'm', 'p', '0']) (.v tmp))], .v ['g', 'o', 'a', 'l'], none⟩,
    ⟨⟨_, List.mem_cons_self, rfl, rfl, rfl⟩, ⟨_, List.mem_cons_of_mem _ List.mem_cons_self, rfl, rfl, rfl⟩,
      ⟨_, List.mem_cons_of_mem _ List.mem_cons_self, rfl, rfl, rfl⟩⟩,
    ⟨by decide, trivial, by decide, trivial, trivial⟩, ⟨by decide, by decide⟩, by decide, 5, 5,
    fun i => if i = 0 then 1 else 2, fun i => if i = 0 then 1 else 2, ?_, ?_, ?_⟩
  · intro ρ h _
    exfalso
    have h1 := (h ⟨.v xN, 1, 1, some 24⟩ (by simp)).2.1
    have h2 := (h ⟨.v yN, 2, 2, some 24⟩ (by simp))
    have h3 := h2.1
    have h4 := h2.2.1
    simp [run, At.eval, G.eval, Op2.on, tmp, xN, yN] at h1 h3 h4
    nlinarith
  · intro b hb
    rcases List.mem_cons.1 hb with rfl | hb
    · exact ⟨rfl, by norm_num [bnd], by norm_num [bnd], fun _ => grid32 1 0 _ (by norm_num [bnd]) (by decide) (by decide)⟩
    · rw [List.mem_singleton.1 hb]
      exact ⟨rfl, by norm_num [bnd], by norm_num [bnd], fun _ => grid32 1 1 _ (by norm_num [bnd]) (by decide) (by decide)⟩
  · rintro ⟨h1, h2⟩
    have e4 : R.fp .b32 (2 * 2) = 2 * 2 := (hR .b32 (by decide) _).2 (grid32 1 2 _ (by norm_num) (by decide) (by decide))
    have e5 : R.fp .b32 (1 + 2 * 2) = 1 + 2 * 2 := (hR .b32 (by decide) _).2 (grid32 5 0 _ (by norm_num) (by decide) (by decide))
    have he : difference false (machine R (fun i => if i = 0 then 1 else 2)
        (.bin 3 .add .b32 none (.var 0 xN .b32) (.bin 2 .mul .b32 (some xN) (.var 1 yN .b32) (.var 1 yN .b32))))
        (exact R (fun i => if i = 0 then 1 else 2)
        (.bin 3 .add .b32 none (.var 0 xN .b32) (.bin 2 .mul .b32 (some xN) (.var 1 yN .b32) (.var 1 yN .b32)))) =
        R.fp .b32 (1 + R.fp .b32 (2 * 2)) - (1 + 2 * 2) := rfl
    rw [he, e4, e5] at h1
    norm_num at h1

/-- **Approximate variables.** When the machine has a variable only approximately, the script takes the exact value to be a
number of the format of the variable, which it need not be: an interval without such numbers makes the hypotheses
contradictory, and any interval answers the script. -/
theorem C117_quantized_wrong (R : Rnd) :
    ∃ bs e s, Bounded bs e ∧ Plain e ∧ Distinct bs ∧ evalError bs false e = some s ∧ (∀ l ∈ s.lines, l.1 ∉ varNames bs) ∧
      Misses R bs e s := by
  refine ⟨[⟨0, xN, .b32, 1 + 1 / 67108864, 1 + 1 / 33554432, some (1 / 16777216)⟩], .var 0 xN .b32,
    ⟨[⟨.v ['x', '_'], 1 + 1 / 67108864, 1 + 1 / 33554432, some 24⟩, ⟨.v tmp, -(1 / 16777216), 1 / 16777216, none⟩],
      [(tmp, .bin .sub (.v xN) (.v ['x', '_'])), (['g', 'o', 'a', 'l'], .bin .sub (.v xN) (.v ['x', '_']))],
      .v ['g', 'o', 'a', 'l'], none⟩,
    ⟨_, List.mem_cons_self, rfl, rfl, rfl⟩, trivial, ⟨by decide, by decide⟩, rfl, by decide, 5, 5,
    fun _ => 1, fun _ => 1 + 1 / 67108864, ?_, ?_, ?_⟩
  · intro ρ h _
    exfalso
    obtain ⟨h1, h2, h3⟩ := h ⟨.v ['x', '_'], 1 + 1 / 67108864, 1 + 1 / 33554432, some 24⟩ (by simp)
    refine not_flt ?_ ?_ (h3 24 rfl)
    · refine lt_of_lt_of_le ?_ h1; norm_num
    · refine lt_of_le_of_lt h2 ?_; norm_num
  · intro b hb
    rw [List.mem_singleton.1 hb]
    refine ⟨by norm_num, by norm_num, ?_⟩
    norm_num [abs_le]
  · rintro ⟨h1, _⟩
    norm_num [difference, machine, exact] at h1

/-- **The first version.** `get_eval_error` takes the difference of a graph with itself: whatever the graph (whose root is an
operation other than a conversion), the interval `[0, 0]` answers the script, and there are graphs with another error. -/
theorem C117_first_version_wrong (R : Rnd) (hR : R.Ok) :
    (∀ bs e s, (∀ i t p, e ≠ .var i t p) → (∀ i v p, e ≠ .cst i v p) → (∀ i p t a, e ≠ .conv i p t a) →
      evalErrorOld bs e = some s → Proves R s 0 0) ∧
    ∃ bs e s, Bounded bs e ∧ Plain e ∧ Distinct bs ∧ evalErrorOld bs e = some s ∧ Misses R bs e s := by
  have hall : ∀ bs e s, (∀ i t p, e ≠ .var i t p) → (∀ i v p, e ≠ .cst i v p) → (∀ i p t a, e ≠ .conv i p t a) →
      evalErrorOld bs e = some s → Proves R s 0 0 := by
    intro bs e s hv hc hcv h
    unfold evalErrorOld at h
    simp only [Option.bind_eq_some_iff, Prod.exists] at h
    obtain ⟨x, s1, h1, y, s2, h2, h3⟩ := h
    have hmemo : gen (approxCopy e) s1 = some (x, s1) := by
      cases e with
      | var i t p => exact absurd rfl (hv i t p)
      | cst i v p => exact absurd rfl (hc i v p)
      | conv i p t a => exact absurd rfl (hcv i p t a)
      | bin i o p t a b =>
        unfold approxCopy gen at h1 ⊢
        split at h1
        · rename_i z hz; cases h1; rw [hz]
        · simp only [Option.bind_eq_some_iff, Prod.exists] at h1
          obtain ⟨_, _, _, _, _, _, _, _, h1⟩ := h1
          cases h1
          simp [List.lookup_cons]
      | fma i o p t a b c =>
        unfold approxCopy gen at h1 ⊢
        split at h1
        · rename_i z hz; cases h1; rw [hz]
        · simp only [Option.bind_eq_some_iff, Prod.exists] at h1
          obtain ⟨_, _, _, _, _, _, _, _, _, _, _, h1⟩ := h1
          cases h1
          simp [List.lookup_cons]
      | neg i p t a =>
        unfold approxCopy gen at h1 ⊢
        split at h1
        · rename_i z hz; cases h1; rw [hz]
        · simp only [Option.bind_eq_some_iff, Prod.exists] at h1
          obtain ⟨_, _, _, _, _, h1⟩ := h1
          cases h1
          simp [List.lookup_cons]
      | rint i p t a =>
        unfold approxCopy gen at h1 ⊢
        split at h1
        · rename_i z hz; cases h1; rw [hz]
        · simp only [Option.bind_eq_some_iff, Prod.exists] at h1
          obtain ⟨_, _, _, _, _, h1⟩ := h1
          cases h1
          simp [List.lookup_cons]
    rw [hmemo] at h2
    cases h2
    cases h3
    intro ρ _ _
    obtain ⟨_, _, _, k4⟩ := emit_ext (R := R) (ρ := ρ) (vt := fun _ => False) s1 (some ['g', 'o', 'a', 'l'])
      (.rnd .b32 (.bin .sub x x)) (fun _ _ => fun h => h)
    have k5 : G.eval R (s1.env R ρ) (.rnd .b32 (.bin .sub x x)) = 0 := by
      show R.fp .b32 (x.eval _ - x.eval _) = 0
      rw [sub_self, rnd_zero hR .b32 (by decide)]
    rw [k5] at k4
    show 0 ≤ At.eval (St.env R ρ _) _ ∧ At.eval (St.env R ρ _) _ ≤ 0
    rw [k4]
    exact ⟨le_refl _, le_refl _⟩
  refine ⟨hall, [bnd 0 xN 0 1, bnd 1 yN 0 1], .bin 2 .add .b32 none (.var 0 xN .b32) (.var 1 yN .b32),
    ⟨[⟨.v xN, 0, 1, some 24⟩, ⟨.v yN, 0, 1, some 24⟩],
      [(tmp, .rnd .b32 (.bin .add (.v xN) (.v yN))),
        (['g', 'o', 'a', 'l'], .rnd .b32 (.bin .sub (.v tmp) (.v tmp)))], .v ['g', 'o', 'a', 'l'], none⟩,
    ⟨⟨_, List.mem_cons_self, rfl, rfl, rfl⟩, ⟨_, List.mem_cons_of_mem _ List.mem_cons_self, rfl, rfl, rfl⟩⟩,
    ⟨by decide, trivial, trivial⟩, ⟨by decide, by decide⟩, by decide, 0, 0,
    fun i => if i = 0 then 1 else 1 / 1073741824, fun i => if i = 0 then 1 else 1 / 1073741824, ?_, ?_, ?_⟩
  · intro ρ _ _
    simp [run, At.eval, G.eval, Op2.on, tmp, rnd_zero hR .b32 (by decide)]
  · intro b hb
    rcases List.mem_cons.1 hb with rfl | hb
    · exact ⟨rfl, by norm_num [bnd], by norm_num [bnd], fun _ => grid32 1 0 _ (by norm_num [bnd]) (by decide) (by decide)⟩
    · rw [List.mem_singleton.1 hb]
      exact ⟨rfl, by norm_num [bnd], by norm_num [bnd], fun _ => grid32 1 (-30) _ (by norm_num [bnd]) (by decide) (by decide)⟩
  · rintro ⟨h1, h2⟩
    refine rnd_moves hR (x := 1 + 1 / 1073741824) (by norm_num) (by norm_num) ?_
    have he : difference false (machine R (fun i => if i = 0 then 1 else 1 / 1073741824)
        (.bin 2 .add .b32 none (.var 0 xN .b32) (.var 1 yN .b32)))
        (exact R (fun i => if i = 0 then 1 else 1 / 1073741824)
        (.bin 2 .add .b32 none (.var 0 xN .b32) (.var 1 yN .b32))) =
        R.fp .b32 (1 + 1 / 1073741824) - (1 + 1 / 1073741824) := rfl
    rw [he] at h1 h2
    linarith

/-! ## Cases -/

theorem caseBounds_names (init : List Bnd) (c : List (ℕ × ℚ × ℚ)) :
    (caseBounds init c).map (·.id) = init.map (·.id) ∧ varNames (caseBounds init c) = varNames init := by
  have hone : ∀ b : Bnd, (caseBnd c b).id = b.id ∧ (caseBnd c b).tag = b.tag ∧ (caseBnd c b).err = b.err := by
    intro b; unfold caseBnd; split <;> exact ⟨rfl, rfl, rfl⟩
  induction init with
  | nil => exact ⟨rfl, rfl⟩
  | cons b bs ih =>
    obtain ⟨ih1, ih2⟩ := ih
    obtain ⟨o1, o2, o3⟩ := hone b
    refine ⟨by rw [show caseBounds (b :: bs) c = caseBnd c b :: caseBounds bs c from rfl, List.map_cons, List.map_cons, ih1, o1], ?_⟩
    unfold varNames at ih2 ⊢
    have i1 : (caseBounds bs c).map (·.tag) = bs.map (·.tag) :=
      List.append_inj_left ih2 (by simp [caseBounds])
    have i2 := List.append_inj_right ih2 (by simp [caseBounds])
    rw [show caseBounds (b :: bs) c = caseBnd c b :: caseBounds bs c from rfl]
    simp only [List.map_cons, List.filter_cons, o2, o3, i1]
    split
    · simp only [List.map_cons, o2, i2]
    · simp only [i2]

theorem caseBounds_bounded (init : List Bnd) (c : List (ℕ × ℚ × ℚ)) (e : E) (h : Bounded init e) : Bounded (caseBounds init c) e := by
  induction e with
  | var i t p =>
    obtain ⟨b, hb, h1, h2, h3⟩ := h
    refine ⟨_, List.mem_map.2 ⟨b, hb, rfl⟩, ?_⟩
    unfold caseBnd
    split <;> exact ⟨h1, h2, h3⟩
  | cst i v p => trivial
  | bin i o p t a b iha ihb => exact ⟨iha h.1, ihb h.2⟩
  | fma i s p t a b c iha ihb ihc => exact ⟨iha h.1, ihb h.2.1, ihc h.2.2⟩
  | neg i p t a iha => exact iha h
  | conv i p t a iha => exact iha h
  | rint i p t a iha => exact iha h

/-- **Cases.** `get_eval_error_v3` builds one script for each case, in order, and for all values that a case allows, every
interval that answers its script contains the error. With the restrictions of `C117_bound_partial`; that the intervals of the
variables are left as they were is missing (`C117_cases_wrong`). -/
theorem C117_cases_partial (R : Rnd) (hR : R.Ok) (init : List Bnd) (relative : Bool) (e : E) (d : ℕ → E)
    (hshare : Shares d e) (hbounded : Bounded init e) (hplain : Plain e) (hdist : Distinct init)
    (cases : List (List (ℕ × ℚ × ℚ))) (now last : List Bnd) (ss : List Script)
    (h : evalErrorCases init relative e cases now = some (ss, last))
    (hnames : ∀ s ∈ ss, ∀ l ∈ s.lines, l.1 ∉ varNames init) :
    List.Forall₂ (fun c s => ∀ lo hi, Proves R s lo hi → ∀ A X : ℕ → ℚ,
      (∀ b ∈ caseBounds init c, b.Allows (A b.id) (X b.id)) →
      (∀ b ∈ caseBounds init c, b.err.isSome → b.p ≠ .exact → Grid b.p (X b.id)) →
      (relative = true → exact R X e ≠ 0) →
      lo ≤ difference relative (machine R A e) (exact R X e) ∧
        difference relative (machine R A e) (exact R X e) ≤ hi) cases ss := by
  induction cases generalizing now ss with
  | nil => cases h; exact .nil
  | cons c cs ih =>
    unfold evalErrorCases at h
    simp only [Option.bind_eq_some_iff, Prod.exists] at h
    obtain ⟨s, h1, ss', last', h2, h3⟩ := h
    cases h3
    obtain ⟨n1, n2⟩ := caseBounds_names init c
    refine .cons ?_ (ih _ _ h2 (fun s hs => hnames s (by simp [hs])))
    intro lo hi hp A X ha hg hd
    exact C117_bound_partial R hR (caseBounds init c) relative e s d hshare (caseBounds_bounded init c e hbounded) hplain
      ⟨n1 ▸ hdist.ids, n2 ▸ hdist.names⟩ h1 (by rw [n2]; exact hnames s (by simp)) lo hi hp A X ha hg hd

/-- **Intervals of the variables.** After `get_eval_error_v3` the variables have the intervals of the last case: a value that
was allowed before is not allowed any more. Without cases there is no script at all. -/
theorem C117_cases_wrong :
    (∃ init e cases ss last, evalErrorCases init false e cases init = some (ss, last) ∧ ss.length = 2 ∧
      ∃ b ∈ init, ∃ b' ∈ last, b.id = b'.id ∧ ∃ a, b.Allows a a ∧ ¬ b'.Allows a a) ∧
    ∀ init relative e, evalErrorCases init relative e [] init = some ([], init) := by
  refine ⟨⟨[bnd 0 xN 0 2], .bin 2 .add .b32 none (.var 0 xN .b32) (.var 0 xN .b32), [[(0, 0, 1)], [(0, 1, 2)]],
    (evalErrorCases [bnd 0 xN 0 2] false (.bin 2 .add .b32 none (.var 0 xN .b32) (.var 0 xN .b32)) [[(0, 0, 1)], [(0, 1, 2)]]
      [bnd 0 xN 0 2]).get!.1, [bnd 0 xN 1 2], rfl, rfl, _, List.mem_cons_self, _, List.mem_cons_self, rfl, 0, ?_, ?_⟩,
    fun _ _ _ => rfl⟩
  · exact ⟨rfl, by norm_num [bnd], by norm_num [bnd], fun _ => grid_zero _⟩
  · rintro ⟨_, h, _⟩
    norm_num [bnd] at h

/-! ## Intervals -/

/-- The operations that `get_interval_code` does not make an identity: those that are not roundings to an integer. -/
def NotRint (e : E) : Prop := ∀ i p t a, e ≠ .rint i p t a

theorem rootExact_sem {R : Rnd} (hR : R.Ok) {bs : List Bnd} {A X : ℕ → ℚ} {ρ : Name → ℚ} (hm : Means bs A X ρ) (e : E)
    (hb : Bounded bs e) (hp : Plain e) (hn : NotRint e) : sem R ρ (rootExact (approxCopy e)) = beforeLast R A e := by
  cases e with
  | var i t p => exact sem_approx hR hm _ hb hp
  | cst i v p => exact sem_approx hR hm _ hb hp
  | bin i o p t a b =>
    show (if o = .div then _ else _) = _
    rw [if_neg hp.1, sem_approx hR hm a hb.1 hp.2.1, sem_approx hR hm b hb.2 hp.2.2]; rfl
  | fma i s p t a b c =>
    show R.to .exact (s.on _ _ _) = _
    rw [sem_approx hR hm a hb.1 hp.1, sem_approx hR hm b hb.2.1 hp.2.1, sem_approx hR hm c hb.2.2 hp.2.2]; rfl
  | neg i p t a => exact hp.elim
  | conv i p t a => exact hp.elim
  | rint i p t a => exact absurd rfl (hn i p t a)

def E.size : E → ℕ
  | .var _ _ _ | .cst _ _ _ => 1
  | .bin _ _ _ _ a b => a.size + b.size + 1
  | .fma _ _ _ _ a b c => a.size + b.size + c.size + 1
  | .neg _ _ _ a | .conv _ _ _ a | .rint _ _ _ a => a.size + 1

theorem shares_upd (d : ℕ → E) (k : ℕ) (z : E) (a : E) (h : Shares d a) (hs : a.size < (d k).size) :
    Shares (fun n => if n = k then z else d n) a := by
  induction a with
  | var i t p =>
    show (if i = k then z else d i) = _
    rw [if_neg (by rintro rfl; rw [show d i = _ from h] at hs; exact lt_irrefl _ hs)]; exact h
  | cst i v p =>
    show (if i = k then z else d i) = _
    rw [if_neg (by rintro rfl; rw [show d i = _ from h] at hs; exact lt_irrefl _ hs)]; exact h
  | bin i o p t a b iha ihb =>
    refine ⟨?_, iha h.2.1 (by simp only [E.size] at hs; omega), ihb h.2.2 (by simp only [E.size] at hs; omega)⟩
    show (if i = k then z else d i) = _
    rw [if_neg (by rintro rfl; rw [h.1] at hs; exact lt_irrefl _ hs)]; exact h.1
  | fma i s p t a b c iha ihb ihc =>
    refine ⟨?_, iha h.2.1 (by simp only [E.size] at hs; omega), ihb h.2.2.1 (by simp only [E.size] at hs; omega),
      ihc h.2.2.2 (by simp only [E.size] at hs; omega)⟩
    show (if i = k then z else d i) = _
    rw [if_neg (by rintro rfl; rw [h.1] at hs; exact lt_irrefl _ hs)]; exact h.1
  | neg i p t a iha =>
    refine ⟨?_, iha h.2 (by simp only [E.size] at hs; omega)⟩
    show (if i = k then z else d i) = _
    rw [if_neg (by rintro rfl; rw [h.1] at hs; exact lt_irrefl _ hs)]; exact h.1
  | conv i p t a iha =>
    refine ⟨?_, iha h.2 (by simp only [E.size] at hs; omega)⟩
    show (if i = k then z else d i) = _
    rw [if_neg (by rintro rfl; rw [h.1] at hs; exact lt_irrefl _ hs)]; exact h.1
  | rint i p t a iha =>
    refine ⟨?_, iha h.2 (by simp only [E.size] at hs; omega)⟩
    show (if i = k then z else d i) = _
    rw [if_neg (by rintro rfl; rw [h.1] at hs; exact lt_irrefl _ hs)]; exact h.1

theorem shares_root (d : ℕ → E) (e : E) (h : Shares d e) :
    Shares (fun n => if n = e.id then rootExact e else d n) (rootExact e) := by
  have hroot := h.root
  cases e with
  | var i t p => show (if i = i then _ else _) = _; rw [if_pos rfl]; rfl
  | cst i v p => show (if i = i then _ else _) = _; rw [if_pos rfl]; rfl
  | bin i o p t a b =>
    refine ⟨by show (if i = i then _ else _) = _; rw [if_pos rfl]; rfl, ?_, ?_⟩
    · exact shares_upd d _ _ a h.2.1 (by rw [hroot]; simp only [E.size]; omega)
    · exact shares_upd d _ _ b h.2.2 (by rw [hroot]; simp only [E.size]; omega)
  | fma i s p t a b c =>
    refine ⟨by show (if i = i then _ else _) = _; rw [if_pos rfl]; rfl, ?_, ?_, ?_⟩
    · exact shares_upd d _ _ a h.2.1 (by rw [hroot]; simp only [E.size]; omega)
    · exact shares_upd d _ _ b h.2.2.1 (by rw [hroot]; simp only [E.size]; omega)
    · exact shares_upd d _ _ c h.2.2.2 (by rw [hroot]; simp only [E.size]; omega)
  | neg i p t a =>
    exact ⟨by show (if i = i then _ else _) = _; rw [if_pos rfl]; rfl,
      shares_upd d _ _ a h.2 (by rw [hroot]; simp only [E.size]; omega)⟩
  | conv i p t a =>
    exact ⟨by show (if i = i then _ else _) = _; rw [if_pos rfl]; rfl,
      shares_upd d _ _ a h.2 (by rw [hroot]; simp only [E.size]; omega)⟩
  | rint i p t a =>
    exact ⟨by show (if i = i then _ else _) = _; rw [if_pos rfl]; rfl,
      shares_upd d _ _ a h.2 (by rw [hroot]; simp only [E.size]; omega)⟩

/-- **Intervals.** An interval that answers the script of `get_interval_code` for a graph of the same kind contains the
number that the machine has before it rounds the result of the last operation, for all values of the variables in their
intervals.

Missing for the full statement: the result of the last operation itself, which is rounded (`C117_interval_wrong`). -/
theorem C117_interval_partial (R : Rnd) (hR : R.Ok) (bs : List Bnd) (e : E) (s : Script) (d : ℕ → E)
    (hshare : Shares d e) (hbounded : Bounded bs e) (hplain : Plain e) (hrint : NotRint e) (hdist : Distinct bs)
    (hs : intervalCode bs e = some s) (hnames : ∀ l ∈ s.lines, l.1 ∉ varNames bs)
    (lo hi : ℚ) (hproves : Proves R s lo hi) (A : ℕ → ℚ)
    (hallow : ∀ b ∈ bs, b.lo ≤ A b.id ∧ A b.id ≤ b.hi ∧ (b.p ≠ .exact → Grid b.p (A b.id))) :
    lo ≤ beforeLast R A e ∧ beforeLast R A e ≤ hi := by
  obtain ⟨ρ, hρ⟩ := exists_means hdist A A
  unfold intervalCode at hs
  simp only [Option.bind_eq_some_iff, Prod.exists] at hs
  obtain ⟨g, s1, h1, h2⟩ := hs
  cases h2
  have hn : ∀ n ∈ s1.used, n ∉ varNames bs := names_of (P := (· ∈ varNames bs)) rfl hnames
  have hshare' : Shares (both [] (fun n => if n = e.id then rootExact e else d n)) (rootExact (approxCopy e)) := by
    have := shares_approx [] _ _ (shares_root d e hshare)
    rwa [show approxCopy (rootExact e) = rootExact (approxCopy e) by cases e <;> rfl] at this
  have htags : Tags (· ∈ varNames bs) (rootExact (approxCopy e)) := by
    have := tags_approx bs e hbounded
    cases e <;> exact this
  have k := gen_ok (R := R) (ρ := ρ) _ _ _ _ h1 hshare' htags hn (good_start _ _ _ _)
  have hv : g.eval (run R ρ s1.lines) = beforeLast R A e := k.val.trans (rootExact_sem hR hρ e hbounded hplain hrint)
  have hp := hproves ρ (fun h hh => by
    obtain ⟨b, hb, rfl⟩ := List.mem_map.1 hh
    have hval : run R ρ s1.lines b.tag = A b.id := (k.good.2 _ (tag_mem hb)).trans (hρ b hb).1
    obtain ⟨a1, a2, a3⟩ := hallow b hb
    show b.lo ≤ run R ρ s1.lines b.tag ∧ run R ρ s1.lines b.tag ≤ b.hi ∧ ∀ p, fltOf b.p = some p → Flt p (run R ρ s1.lines b.tag)
    rw [hval]
    exact ⟨a1, a2, flt_of a3⟩) (fun d hd => by cases hd)
  rw [← hv]; exact hp

/-- The hypotheses of `C117_interval_partial` are met by the graph above. -/
example : Shares exD exSum ∧ Bounded [bnd 0 xN 1 2, bnd 1 yN 1 2] exSum ∧ Plain exSum ∧ NotRint exSum ∧
    Distinct [bnd 0 xN 1 2, bnd 1 yN 1 2] ∧
    ∃ s, intervalCode [bnd 0 xN 1 2, bnd 1 yN 1 2] exSum = some s ∧
      (∀ l ∈ s.lines, l.1 ∉ varNames [bnd 0 xN 1 2, bnd 1 yN 1 2]) ∧ s.lines.length = 2 := by
  refine ⟨⟨rfl, ⟨rfl, rfl, rfl⟩, rfl, rfl, rfl⟩,
    ⟨⟨⟨_, List.mem_cons_self, rfl, rfl, rfl⟩, ⟨_, List.mem_cons_of_mem _ List.mem_cons_self, rfl, rfl, rfl⟩⟩,
      ⟨⟨_, List.mem_cons_self, rfl, rfl, rfl⟩, ⟨_, List.mem_cons_of_mem _ List.mem_cons_self, rfl, rfl, rfl⟩⟩⟩,
    ⟨by decide, ⟨by decide, trivial, trivial⟩, ⟨by decide, trivial, trivial⟩⟩, (fun i p t a h => by cases h),
    ⟨by decide, by decide⟩, ?_⟩
  exact ⟨(intervalCode [bnd 0 xN 1 2, bnd 1 yN 1 2] exSum).get (by decide), by simp, by decide, by decide⟩

/-- **Last rounding.** `get_interval_code` makes the goal exact: the sum that the machine computes is not in the interval,
and the rounding of a number to an integer is not in the interval either (for any rounding to an integer). -/
theorem C117_interval_wrong (R : Rnd) (hR : R.Ok) (hint : ∀ x, ∃ n : ℤ, R.int x = n) :
    (∃ bs e s lo hi A, Bounded bs e ∧ Plain e ∧ Distinct bs ∧ intervalCode bs e = some s ∧ Proves R s lo hi ∧
      (∀ b ∈ bs, b.Allows (A b.id) (A b.id)) ∧ ¬ (lo ≤ machine R A e ∧ machine R A e ≤ hi)) ∧
    ∃ bs i s lo hi A, Plain (.rint i .b32 none (.var 0 xN .b32)) ∧ Distinct bs ∧
      intervalCode bs (.rint i .b32 none (.var 0 xN .b32)) = some s ∧ Proves R s lo hi ∧
      (∀ b ∈ bs, b.Allows (A b.id) (A b.id)) ∧
      ¬ (lo ≤ machine R A (.rint i .b32 none (.var 0 xN .b32)) ∧ machine R A (.rint i .b32 none (.var 0 xN .b32)) ≤ hi) := by
  constructor
  · refine ⟨[bnd 0 xN 1 1, bnd 1 yN (1 / 1073741824) (1 / 1073741824)],
      .bin 2 .add .b32 none (.var 0 xN .b32) (.var 1 yN .b32),
      ⟨[⟨.v xN, 1, 1, some 24⟩, ⟨.v yN, 1 / 1073741824, 1 / 1073741824, some 24⟩], [(tmp, .bin .add (.v xN) (.v yN))], .v tmp, none⟩,
      1 + 1 / 1073741824, 1 + 1 / 1073741824, fun i => if i = 0 then 1 else 1 / 1073741824,
      ⟨⟨_, List.mem_cons_self, rfl, rfl, rfl⟩, ⟨_, List.mem_cons_of_mem _ List.mem_cons_self, rfl, rfl, rfl⟩⟩,
      ⟨by decide, trivial, trivial⟩, ⟨by decide, by decide⟩, rfl, ?_, ?_, ?_⟩
    · intro ρ h _
      have h1 := h ⟨.v xN, 1, 1, some 24⟩ (by simp)
      have h2 := h ⟨.v yN, 1 / 1073741824, 1 / 1073741824, some 24⟩ (by simp)
      obtain ⟨a1, a2, _⟩ := h1
      obtain ⟨b1, b2, _⟩ := h2
      simp [run, At.eval, G.eval, Op2.on, tmp, xN, yN] at a1 a2 b1 b2 ⊢
      constructor <;> linarith
    · intro b hb
      rcases List.mem_cons.1 hb with rfl | hb
      · exact ⟨rfl, by norm_num [bnd], by norm_num [bnd], fun _ => grid32 1 0 _ (by norm_num [bnd]) (by decide) (by decide)⟩
      · rw [List.mem_singleton.1 hb]
        exact ⟨rfl, by norm_num [bnd], by norm_num [bnd], fun _ => grid32 1 (-30) _ (by norm_num [bnd]) (by decide) (by decide)⟩
    · rintro ⟨h1, h2⟩
      refine rnd_moves hR (x := 1 + 1 / 1073741824) (by norm_num) (by norm_num) ?_
      have he : machine R (fun i => if i = 0 then 1 else 1 / 1073741824)
          (.bin 2 .add .b32 none (.var 0 xN .b32) (.var 1 yN .b32)) = R.fp .b32 (1 + 1 / 1073741824) := rfl
      rw [he] at h1 h2
      exact le_antisymm h2 h1
  · refine ⟨[bnd 0 xN (3 / 2) (3 / 2)], 2, ⟨[⟨.v xN, 3 / 2, 3 / 2, some 24⟩], [(tmp, .at (.v xN))], .v tmp, none⟩,
      3 / 2, 3 / 2, fun _ => 3 / 2, ⟨by decide, trivial⟩, ⟨by decide, by decide⟩, rfl, ?_, ?_, ?_⟩
    · intro ρ h _
      obtain ⟨a1, a2, _⟩ := h ⟨.v xN, 3 / 2, 3 / 2, some 24⟩ (by simp)
      simp [run, At.eval, G.eval, tmp, xN] at a1 a2 ⊢
      exact ⟨a1, a2⟩
    · intro b hb
      rw [List.mem_singleton.1 hb]
      exact ⟨rfl, by norm_num [bnd], by norm_num [bnd], fun _ => grid32 3 (-1) _ (by norm_num [bnd]) (by decide) (by decide)⟩
    · rintro ⟨h1, h2⟩
      obtain ⟨n, hn⟩ := hint (3 / 2)
      have he : machine R (fun _ => 3 / 2) (.rint 2 .b32 none (.var 0 xN .b32)) = R.int (3 / 2) := rfl
      rw [he, hn] at h1 h2
      have h3 : (n : ℚ) = 3 / 2 := le_antisymm h2 h1
      have h4 : (2 * n : ℚ) = 3 := by rw [h3]; norm_num
      have h5 : 2 * n = 3 := by exact_mod_cast h4
      omega

/-- The roundings that the theorems above speak of exist. -/
example : someRnd.Ok ∧ (∀ p x, someRnd.fp p (-x) = -someRnd.fp p x) ∧ ∀ x, ∃ n : ℤ, someRnd.int x = n :=
  ⟨someRnd_ok, someRnd_odd, fun x => ⟨x.floor, rfl⟩⟩

end Verif.Gappa
