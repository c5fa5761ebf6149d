import Verif.Rng.Fix
import Verif.Float.Theorems

/-! # Random generators of floating-point inputs (C55, C69) -/

namespace Verif.Rng

open Verif.Float (zp zle zlt zsucc zadd znat zscale)

theorem sign_ex (d : ℕ) : ∃ s, sign d = some s ∧ (s = 1 ∨ s = -1) := by
  obtain ⟨r, hr, h1, h2⟩ := randrange_ex d (lo := 0) (hi := 2) (by norm_num)
  refine ⟨if r = 1 then -1 else 1, by simp [sign, hr], ?_⟩
  split <;> simp

theorem sign_some {d : ℕ} {s : ℚ} (h : sign d = some s) : s = 1 ∨ s = -1 := by
  obtain ⟨s', h', hs⟩ := sign_ex d
  rw [h] at h'; simp only [Option.some.injEq] at h'; rw [h']; exact hs

theorem sign_zero : sign 0 = some 1 := by simp [sign, randrange]
theorem sign_one : sign 1 = some (-1) := by simp [sign, randrange]

theorem field_eq (f : ℕ) (n : ℤ) (e : ℤ) : (1 + (n : ℚ) * (2 : ℚ) ^ (-(f : ℤ))) * (2 : ℚ) ^ e = (2 ^ f + n) * (2 : ℚ) ^ (e - f) := by
  rw [zscale e f, add_mul, add_mul]
  have : (2 : ℚ) ^ (-(f : ℤ)) * (2 : ℚ) ^ f = 1 := by rw [← znat, ← zadd]; simp
  linear_combination (n : ℚ) * (2 : ℚ) ^ (e - f) * this

theorem field_eq0 (f : ℕ) (n : ℤ) (e : ℤ) : (0 + (n : ℚ) * (2 : ℚ) ^ (-(f : ℤ))) * (2 : ℚ) ^ e = n * (2 : ℚ) ^ (e - f) := by
  rw [zscale e f]
  have : (2 : ℚ) ^ (-(f : ℤ)) * (2 : ℚ) ^ f = 1 := by rw [← znat, ← zadd]; simp
  linear_combination (n : ℚ) * (2 : ℚ) ^ (e - f) * this

theorem mul_sign {F : Float.Fmt} {v s : ℚ} (h : F.Finite v) (hs : s = 1 ∨ s = -1) : F.Finite (v * s) := by
  rcases hs with rfl | rfl
  · simpa using h
  · have := Float.finite_neg h; simpa using this

theorem normal_finite {F : Float.Fmt} {n e : ℤ} {s : ℚ} (h1 : 0 ≤ n) (h2 : n < 2 ^ F.f) (h3 : F.emin ≤ e) (h4 : e ≤ F.emax)
    (hs : s = 1 ∨ s = -1) : F.Finite ((1 + (n : ℚ) * (2 : ℚ) ^ (-(F.f : ℤ))) * s * (2 : ℚ) ^ e) := by
  rw [mul_right_comm, field_eq]
  refine mul_sign ⟨2 ^ F.f + n, e, ?_, h3, h4, by push_cast; rfl⟩ hs
  rw [abs_of_nonneg (by positivity), pow_succ]; omega

theorem sub_finite {F : Float.Fmt} {n : ℤ} {s : ℚ} (h1 : 0 ≤ n) (h2 : n < 2 ^ F.f) (h3 : F.emin ≤ F.emax)
    (hs : s = 1 ∨ s = -1) : F.Finite ((0 + (n : ℚ) * (2 : ℚ) ^ (-(F.f : ℤ))) * s * (2 : ℚ) ^ F.emin) := by
  rw [mul_right_comm, field_eq0]
  refine mul_sign ⟨n, F.emin, ?_, le_rfl, h3, rfl⟩ hs
  rw [abs_of_nonneg h1, pow_succ]
  have : (0 : ℤ) < 2 ^ F.f := by positivity
  omega

theorem emin_le_emax {F : Float.Fmt} (he : 2 ≤ F.e) : F.emin ≤ 0 ∧ 1 ≤ F.emax := by
  unfold Float.Fmt.emin Float.Fmt.emax
  have : (2 : ℤ) ^ 1 ≤ 2 ^ (F.e - 1) := pow_le_pow_right₀ (by norm_num) (by omega)
  norm_num at this
  omega

/-- **C55** (floating-point without interval) Every value the default generator produces is a datum of the format, a value is always
produced, and every number of the format is produced by some draws. -/
theorem C55_fp {F : Float.Fmt} (he : 2 ≤ F.e) :
    (∀ d g, ∃ v, fNewValue (· - ·) F defaultWeights d g = some v ∧ Representable F v) ∧
      ∀ v, F.Finite v → ∃ d g, fNewValue (· - ·) F defaultWeights d g = some (.num v) := by
  obtain ⟨e1, e2⟩ := emin_le_emax he
  have hemax : Float.emaxM F = F.emax := Float.emaxM_eq F (by omega)
  have hemin : Float.eminNormal F = F.emin := Float.eminNormal_eq F
  have hp : (0 : ℤ) < 2 ^ F.f := by positivity
  constructor
  · intro d g
    obtain ⟨c, hc⟩ := (C55_category (l := defaultWeights) (by norm_num [defaultWeights]) (d 0)).1
    obtain ⟨w, hw⟩ := pick_mem hc
    unfold fNewValue
    rw [hc]
    simp only [defaultWeights, List.mem_cons, Prod.mk.injEq, List.not_mem_nil, or_false] at hw
    rcases hw with ⟨rfl, -⟩ | ⟨rfl, -⟩ | ⟨rfl, -⟩
    · simp only [Option.bind_some, fgen]
      have hlt : g 0 % (specials F).length < (specials F).length := Nat.mod_lt _ (by simp [specials])
      refine ⟨_, List.getElem?_eq_getElem hlt, ?_⟩
      have hm := List.getElem_mem hlt
      generalize (specials F)[g 0 % (specials F).length] = v at hm
      have ho := (Float.C02_omega_is_greatest F he).1
      simp only [specials, List.mem_cons, List.not_mem_nil, or_false] at hm
      rcases hm with rfl | rfl | rfl | rfl | rfl | rfl | rfl <;> simp only [Representable]
      · exact ho
      · exact Float.finite_neg ho
    · obtain ⟨s, hs, hs'⟩ := sign_ex (d 1)
      obtain ⟨n, hn, h1, h2⟩ := randrange_ex (d 2) (lo := 0) (hi := 2 ^ F.f) hp
      simp only [Option.bind_some, fgen, hs, hn, Option.map_some, hemin]
      exact ⟨_, rfl, sub_finite h1 h2 (by omega) hs'⟩
    · obtain ⟨s, hs, hs'⟩ := sign_ex (d 2)
      obtain ⟨n, hn, h1, h2⟩ := randrange_ex (d 3) (lo := 0) (hi := 2 ^ F.f) hp
      obtain ⟨e, he', h3, h4⟩ := randrange_ex (d 1) (lo := F.emin) (hi := F.emax + 1) (by omega)
      simp only [Option.bind_some, fgen, hs, hn, Option.map_some, hemin, hemax, he']
      exact ⟨_, rfl, normal_finite h1 h2 h3 (by omega) hs'⟩
  · have hcn : pick (· - ·) defaultWeights (random01 (2 ^ 52)) = some .normal := by norm_num [pick, defaultWeights, random01]
    have hcs : pick (· - ·) defaultWeights (random01 1801439850948198) = some .subnormal := by
      norm_num [pick, defaultWeights, random01]
    have pos : ∀ (v s : ℚ) (ds : ℕ), sign ds = some s → F.Finite v → 0 ≤ v →
        ∃ d g, fNewValue (· - ·) F defaultWeights d g = some (.num (v * s)) := by
      intro v s ds hds hv h0
      rcases h0.eq_or_lt with rfl | h0
      · refine ⟨fun i => if i = 0 then 1801439850948198 else if i = 1 then ds else 0, fun _ => 0, ?_⟩
        unfold fNewValue
        simp only [if_true, hcs, Option.bind_some, fgen, one_ne_zero, if_false, hds]
        have : randrange 0 0 (2 ^ F.f) = some 0 := by simpa using randrange_surj (lo := 0) (r := 0) (hi := 2 ^ F.f) le_rfl hp
        simp [this]
      · obtain ⟨n, k, rfl, hn0, hn, hk1, hk2, hcase, -⟩ := Float.finite_canon hv h0
        rw [pow_succ] at hn
        by_cases hnn : 2 ^ F.f ≤ n
        · refine ⟨fun i => if i = 0 then 2 ^ 52 else if i = 1 then (k - F.emin).toNat else if i = 2 then ds
            else n - 2 ^ F.f, fun _ => 0, ?_⟩
          have h1 := randrange_surj (lo := F.emin) (r := k) (hi := F.emax + 1) hk1 (by omega)
          have h2 : randrange (n - 2 ^ F.f) 0 (2 ^ F.f) = some (((n - 2 ^ F.f : ℕ) : ℤ)) := by
            have := randrange_surj (lo := 0) (r := ((n - 2 ^ F.f : ℕ) : ℤ)) (hi := 2 ^ F.f) (by positivity)
              (by have : n - 2 ^ F.f < 2 ^ F.f := by omega
                  exact_mod_cast this)
            simpa using this
          unfold fNewValue
          simp only [if_true, hcn, Option.bind_some, fgen, one_ne_zero, if_false, hemin, hemax, h1, hds,
            OfNat.ofNat_ne_zero, OfNat.ofNat_ne_one, show ¬ (3 = 2) by decide, h2, Option.map_some, Option.some.injEq,
            Float.Val.num.injEq]
          rw [mul_right_comm, field_eq]
          congr 2
          push_cast [hnn]
          ring
        · have hk : k = F.emin := by rcases hcase with h | h; · exact absurd h hnn
                                     · exact h
          subst hk
          refine ⟨fun i => if i = 0 then 1801439850948198 else if i = 1 then ds else n, fun _ => 0, ?_⟩
          have h2 : randrange n 0 (2 ^ F.f) = some (n : ℤ) := by
            have := randrange_surj (lo := 0) (r := (n : ℤ)) (hi := 2 ^ F.f) (by positivity)
              (by have : n < 2 ^ F.f := by omega
                  exact_mod_cast this)
            simpa using this
          unfold fNewValue
          simp only [if_true, hcs, Option.bind_some, fgen, one_ne_zero, if_false, hemin, hds,
            OfNat.ofNat_ne_zero, OfNat.ofNat_ne_one, h2, Option.map_some, Option.some.injEq, Float.Val.num.injEq]
          rw [mul_right_comm, field_eq0]
          push_cast; rfl
    intro v hv
    rcases le_total 0 v with h | h
    · simpa using pos v 1 0 sign_zero hv h
    · simpa using pos (-v) (-1) 1 sign_one (Float.finite_neg hv) (by linarith)

example : ∃ d g, fNewValue (· - ·) ⟨8, 23⟩ defaultWeights d g = some (.num (3 / 2)) :=
  (C55_fp (F := ⟨8, 23⟩) (by norm_num)).2 _ ⟨3, 22, by norm_num, by norm_num [Float.Fmt.emin, Float.Fmt.emax],
    by norm_num [Float.Fmt.emin, Float.Fmt.emax], by norm_num⟩

/-! ## Intervals -/

/-- **C55** (floating-point interval) Every value produced by a generator on an interval, logarithmic distribution, is in the
interval. -/
theorem C55_log_range {sub : ℚ → ℚ → ℚ} {F : Float.Fmt} {lo hi : ℚ} (h : lo ≤ hi) {d g : ℕ → ℕ} {v : Float.Val}
    (hv : fNewValue sub F (intervalWeights lo hi false) d g = some v) : ∃ q, v = .num q ∧ Within lo hi q := by
  unfold fNewValue at hv
  rw [Option.bind_eq_some_iff] at hv
  obtain ⟨c, hc, hg⟩ := hv
  obtain ⟨w, hw⟩ := pick_mem hc
  simp only [intervalWeights, Bool.false_eq_true, if_false, List.mem_cons, Prod.mk.injEq, List.not_mem_nil, or_false] at hw
  obtain ⟨rfl, -⟩ := hw
  simp only [fgen, Option.bind_eq_some_iff, Option.map_eq_some_iff] at hg
  obtain ⟨_, _, _, _, _, _, _, _, _, _, rfl⟩ := hg
  exact ⟨_, rfl, le_min (le_max_left _ _) h, min_le_right _ _⟩

theorem lt_clog {e : ℤ} {b : ℚ} (h : (2 : ℚ) ^ (e - 1) < b) : e ≤ Int.clog 2 b := by
  by_contra hc
  have h1 : Int.clog 2 b ≤ e - 1 := by omega
  have h2 := (Int.le_zpow_iff_clog_le (b := 2) (by norm_num) ((zp _).trans h)).2 h1
  have : b ≤ (2 : ℚ) ^ (e - 1) := by exact_mod_cast h2
  linarith

theorem clog_eq {k : ℤ} {b : ℚ} (h1 : (2 : ℚ) ^ k < b) (h2 : b ≤ (2 : ℚ) ^ (k + 1)) : Int.clog 2 b = k + 1 := by
  have h3 := (Int.le_zpow_iff_clog_le (b := 2) (by norm_num) ((zp _).trans h1)).1 (by exact_mod_cast h2 : b ≤ ((2 : ℕ) : ℚ) ^ (k + 1))
  have h4 := lt_clog (e := k + 1) (b := b) (by simpa using h1)
  omega

theorem omega_lt {F : Float.Fmt} (he : 2 ≤ F.e) : Float.omega F < (2 : ℚ) ^ (F.emax + 1) := by
  rw [Float.omega_eq F (by omega), zscale (F.emax + 1) (F.f + 1)]
  push_cast
  rw [show F.emax + 1 - ((F.f : ℤ) + 1) = F.emax - F.f by ring]
  have := zp (F.emax - F.f)
  nlinarith

/-- **C55** (floating-point interval, logarithmic) On an interval with representable bounds the generator always produces a number of
the format in the interval, when the bounds are not too small: when 0 is in the interval one bound, otherwise both, must exceed half
the smallest normal number. -/
theorem C55_log_partial {F : Float.Fmt} (he : 2 ≤ F.e) {lo hi : ℚ} (hl : F.Finite lo) (hh : F.Finite hi) (h : lo ≤ hi)
    (hz : lo ≤ 0 → 0 ≤ hi → (2 : ℚ) ^ (F.emin - 1) < max |lo| |hi|)
    (hnz : 0 < lo ∨ hi < 0 → (2 : ℚ) ^ (F.emin - 1) < min |lo| |hi|) (d g : ℕ → ℕ) :
    ∃ v, fNewValue (· - ·) F (intervalWeights lo hi false) d g = some (.num v) ∧ Within lo hi v ∧ F.Finite v := by
  have hemin : Float.eminNormal F = F.emin := Float.eminNormal_eq F
  obtain ⟨c, hc⟩ := (C55_category (l := intervalWeights lo hi false) (by simp [intervalWeights]) (d 0)).1
  obtain ⟨w, hw⟩ := pick_mem hc
  simp only [intervalWeights, Bool.false_eq_true, if_false, List.mem_cons, Prod.mk.injEq, List.not_mem_nil, or_false] at hw
  obtain ⟨rfl, -⟩ := hw
  have hexp : ∃ e0 e1, minExp F lo hi = some e0 ∧ maxExp lo hi = some e1 ∧ e0 ≤ e1 ∧ F.emin ≤ e0 := by
    by_cases hin : lo ≤ 0 ∧ 0 ≤ hi
    · have := hz hin.1 hin.2
      have hm : ∃ e1, maxExp lo hi = some e1 ∧ F.emin ≤ e1 := by
        have pz : (0 : ℚ) < (2 : ℚ) ^ (F.emin - 1) := zp _
        unfold maxExp ceilLog
        rcases lt_max_iff.1 this with h' | h'
        · have hne : lo ≠ 0 := by rintro rfl; simp at h'; linarith
          by_cases hhi : hi = 0
          · exact ⟨Int.clog 2 |lo|, by simp [hne, hhi], lt_clog h'⟩
          · exact ⟨max (Int.clog 2 |lo|) (Int.clog 2 |hi|), by simp [hne, hhi], le_max_of_le_left (lt_clog h')⟩
        · have hne : hi ≠ 0 := by rintro rfl; simp at h'; linarith
          by_cases hlo : lo = 0
          · exact ⟨Int.clog 2 |hi|, by simp [hne, hlo], lt_clog h'⟩
          · exact ⟨max (Int.clog 2 |lo|) (Int.clog 2 |hi|), by simp [hne, hlo], le_max_of_le_right (lt_clog h')⟩
      obtain ⟨e1, h1, h2⟩ := hm
      exact ⟨F.emin, e1, by unfold minExp; rw [if_pos hin, hemin], h1, h2, le_rfl⟩
    · have hcase : 0 < lo ∨ hi < 0 := by
        by_contra hcon
        push Not at hcon
        exact hin hcon
      have := hnz hcase
      rw [lt_min_iff] at this
      have hlo : lo ≠ 0 := by rcases hcase with h' | h' <;> [exact h'.ne'; exact (lt_of_le_of_lt h h').ne]
      have hhi : hi ≠ 0 := by rcases hcase with h' | h' <;> [exact (lt_of_lt_of_le h' h).ne'; exact h'.ne]
      refine ⟨min (Int.clog 2 |lo|) (Int.clog 2 |hi|), max (Int.clog 2 |lo|) (Int.clog 2 |hi|), ?_, ?_, ?_, ?_⟩
      · unfold minExp; rw [if_neg hin]; simp [ceilLog, hlo, hhi]
      · simp [maxExp, ceilLog, hlo, hhi]
      · exact (min_le_left _ _).trans (le_max_left _ _)
      · exact le_min (lt_clog this.1) (lt_clog this.2)
  obtain ⟨e0, e1, h0, h1, h01, hemin0⟩ := hexp
  obtain ⟨e, hee, he0, he1⟩ := randrange_ex (d 1) (lo := e0) (hi := e1 + 1) (by omega)
  obtain ⟨s, hs, hs'⟩ := sign_ex (d 2)
  obtain ⟨n, hn, hn0, hn1⟩ := randrange_ex (d 3) (lo := 0) (hi := 2 ^ F.f) (by positivity)
  set rv : ℚ := (1 + (n : ℚ) * (2 : ℚ) ^ (-(F.f : ℤ))) * s * (2 : ℚ) ^ e with hrv
  have hW : Within lo hi (min (max lo rv) hi) := ⟨le_min (le_max_left _ _) h, min_le_right _ _⟩
  refine ⟨min (max lo rv) hi, ?_, hW, ?_⟩
  · unfold fNewValue
    rw [hc]
    simp only [Option.bind_some, fgen, h0, h1, hee, hs, hn, Option.map_some, ← hrv]
  · rcases min_choice (max lo rv) hi with h' | h'
    · rw [h'] at hW ⊢
      rcases max_choice lo rv with h'' | h''
      · rw [h'']; exact hl
      · rw [h''] at hW ⊢
        have ob := (Float.C02_omega_is_greatest F he).2
        have hab : |rv| ≤ Float.omega F := by
          have a1 := abs_le.1 (ob _ hl)
          have a2 := abs_le.1 (ob _ hh)
          rw [abs_le]; exact ⟨a1.1.trans hW.1, hW.2.trans a2.2⟩
        have hge : (2 : ℚ) ^ e ≤ |rv| := by
          have hnn : (0 : ℚ) ≤ (n : ℚ) * (2 : ℚ) ^ (-(F.f : ℤ)) := mul_nonneg (by exact_mod_cast hn0) (zp _).le
          have hab1 : |s| = 1 := by rcases hs' with rfl | rfl <;> norm_num
          rw [hrv, abs_mul, abs_mul, hab1, mul_one, abs_of_pos (zp e), abs_of_nonneg (by linarith)]
          nlinarith [zp e]
        refine normal_finite hn0 hn1 (hemin0.trans he0) ?_ hs'
        by_contra hcon
        have : (2 : ℚ) ^ (F.emax + 1) ≤ (2 : ℚ) ^ e := zle (by omega)
        linarith [omega_lt he]
    · rw [h']; exact hh

/-- the interval `[-1, 1000]` in binary32 -/
example (d g : ℕ → ℕ) : ∃ v, fNewValue (· - ·) ⟨8, 23⟩ (intervalWeights (-1) 1000 false) d g = some (.num v) ∧
    Within (-1) 1000 v ∧ Float.Fmt.Finite ⟨8, 23⟩ v := by
  refine C55_log_partial (by norm_num) ⟨-1, 23, by norm_num, ?_, ?_, by norm_num⟩ ⟨1000, 23, by norm_num, ?_, ?_, by norm_num⟩ (by norm_num) ?_
    (by norm_num) d g <;> norm_num [Float.Fmt.emin, Float.Fmt.emax]

/-- The logarithmic distribution ignores the inside of an interval within a binade: only the two bounds are ever produced. -/
theorem C55_log_endpoints_wrong {sub : ℚ → ℚ → ℚ} {F : Float.Fmt} {lo hi : ℚ} {k : ℤ} (h1 : (2 : ℚ) ^ k < lo) (h : lo ≤ hi)
    (h2 : hi ≤ (2 : ℚ) ^ (k + 1)) {d g : ℕ → ℕ} {v : Float.Val}
    (hv : fNewValue sub F (intervalWeights lo hi false) d g = some v) : v = .num lo ∨ v = .num hi := by
  have hlo : 0 < lo := (zp k).trans h1
  have hhi : 0 < hi := lt_of_lt_of_le hlo h
  have c1 : Int.clog 2 |lo| = k + 1 := by rw [abs_of_pos hlo]; exact clog_eq h1 (h.trans h2)
  have c2 : Int.clog 2 |hi| = k + 1 := by rw [abs_of_pos hhi]; exact clog_eq (lt_of_lt_of_le h1 h) h2
  unfold fNewValue at hv
  rw [Option.bind_eq_some_iff] at hv
  obtain ⟨c, hc, hg⟩ := hv
  obtain ⟨w, hw⟩ := pick_mem hc
  simp only [intervalWeights, Bool.false_eq_true, if_false, List.mem_cons, Prod.mk.injEq, List.not_mem_nil, or_false] at hw
  obtain ⟨rfl, -⟩ := hw
  have m1 : minExp F lo hi = some (k + 1) := by
    unfold minExp; rw [if_neg (by intro hcon; linarith [hcon.1])]; simp [ceilLog, hlo.ne', hhi.ne', c1, c2]
  have m2 : maxExp lo hi = some (k + 1) := by simp [maxExp, ceilLog, hlo.ne', hhi.ne', c1, c2]
  simp only [fgen, m1, m2, Option.bind_some, Option.bind_eq_some_iff, Option.map_eq_some_iff] at hg
  obtain ⟨e, hee, s, hs, n, hn, rfl⟩ := hg
  have he := randrange_some hee
  have hnr := randrange_some hn
  obtain rfl : e = k + 1 := by omega
  have hnn : (0 : ℚ) ≤ (n : ℚ) * (2 : ℚ) ^ (-(F.f : ℤ)) := mul_nonneg (by exact_mod_cast hnr.1) (zp _).le
  have hp := zp (k + 1)
  rcases sign_some hs with rfl | rfl
  · right
    have : hi ≤ (1 + (n : ℚ) * (2 : ℚ) ^ (-(F.f : ℤ))) * 1 * (2 : ℚ) ^ (k + 1) := by nlinarith
    rw [min_eq_right (le_max_of_le_right this)]
  · left
    have : (1 + (n : ℚ) * (2 : ℚ) ^ (-(F.f : ℤ))) * -1 * (2 : ℚ) ^ (k + 1) ≤ lo := by nlinarith
    rw [max_eq_left this, min_eq_left h]

/-- In an interval of subnormal numbers the generator produces numbers that are not in the format: here `1025 * 2^-32` in binary16. -/
theorem C55_log_subnormal_wrong : ∃ (F : Float.Fmt) (lo hi : ℚ) (d g : ℕ → ℕ) (v : ℚ), F.Finite lo ∧ F.Finite hi ∧ lo ≤ hi ∧
    fNewValue (· - ·) F (intervalWeights lo hi false) d g = some (.num v) ∧ ¬ F.Finite v := by
  refine ⟨⟨5, 10⟩, 3 * (2 : ℚ) ^ (-24 : ℤ), 5 * (2 : ℚ) ^ (-24 : ℤ), fun i => if i = 3 then 1 else 0, fun _ => 0,
    1025 * (2 : ℚ) ^ (-32 : ℤ), ⟨3, -14, ?_, ?_, ?_, ?_⟩, ⟨5, -14, ?_, ?_, ?_, ?_⟩, ?_, ?_, ?_⟩
  · norm_num
  · norm_num [Float.Fmt.emin, Float.Fmt.emax]
  · norm_num [Float.Fmt.emax]
  · norm_num
  · norm_num
  · norm_num [Float.Fmt.emin, Float.Fmt.emax]
  · norm_num [Float.Fmt.emax]
  · norm_num
  · norm_num
  · have c1 : Int.clog 2 |3 * (2 : ℚ) ^ (-24 : ℤ)| = -22 := by
      rw [abs_of_pos (by positivity)]; exact clog_eq (k := -23) (b := 3 * (2 : ℚ) ^ (-24 : ℤ)) (by norm_num) (by norm_num)
    have c2 : Int.clog 2 |5 * (2 : ℚ) ^ (-24 : ℤ)| = -21 := by
      rw [abs_of_pos (by positivity)]; exact clog_eq (k := -22) (b := 5 * (2 : ℚ) ^ (-24 : ℤ)) (by norm_num) (by norm_num)
    have m1 : minExp ⟨5, 10⟩ (3 * (2 : ℚ) ^ (-24 : ℤ)) (5 * (2 : ℚ) ^ (-24 : ℤ)) = some (-22) := by
      unfold minExp; rw [if_neg (by norm_num)]
      unfold ceilLog; rw [if_neg (by norm_num), if_neg (by norm_num), c1, c2]; rfl
    have m2 : maxExp (3 * (2 : ℚ) ^ (-24 : ℤ)) (5 * (2 : ℚ) ^ (-24 : ℤ)) = some (-21) := by
      unfold maxExp ceilLog; rw [if_neg (by norm_num), if_neg (by norm_num), c1, c2]; rfl
    have hc : pick (· - ·) (intervalWeights (3 * (2 : ℚ) ^ (-24 : ℤ)) (5 * (2 : ℚ) ^ (-24 : ℤ)) false) (random01 0)
        = some (.logInterval (3 * (2 : ℚ) ^ (-24 : ℤ)) (5 * (2 : ℚ) ^ (-24 : ℤ))) := by
      simp [pick, intervalWeights, random01]
    unfold fNewValue
    simp only [show ¬ (0 = 3) by decide, if_false, hc, Option.bind_some, fgen, m1, m2, show ¬ (1 = 3) by decide,
      show ¬ (2 = 3) by decide, sign_zero, if_true]
    norm_num [randrange]
  · rintro ⟨m, E, -, h1, -, h2⟩
    have hE : -14 ≤ E := by simpa [Float.Fmt.emin, Float.Fmt.emax] using h1
    obtain ⟨j, hj⟩ := Int.eq_ofNat_of_zero_le (by omega : 0 ≤ E + 14)
    have hE' : E - ((10 : ℕ) : ℤ) = (j : ℤ) + (-24) := by push_cast; omega
    rw [hE', zadd, znat] at h2
    have h3 : (1025 : ℚ) = m * 2 ^ j * 256 := by
      have : (1025 : ℚ) * (2 : ℚ) ^ (-32 : ℤ) * 2 ^ 32 = (m * (2 ^ j * (2 : ℚ) ^ (-24 : ℤ))) * 2 ^ 32 := by rw [h2]
      norm_num at this
      linarith
    have h4 : (1025 : ℤ) = m * 2 ^ j * 256 := by exact_mod_cast h3
    omega

/-! ## Uniform distribution -/

theorem rne_ge {x : ℚ} {n : ℤ} (h : (n : ℚ) ≤ x) : n ≤ Float.rne x := by
  have : n ≤ ⌊x⌋ := Int.le_floor.2 h
  unfold Float.rne
  simp only
  split
  · exact this
  · split
    · omega
    · split <;> omega

theorem rne_le {x : ℚ} {n : ℤ} (h : x ≤ (n : ℚ)) : Float.rne x ≤ n := by
  have h1 := Int.floor_le x
  have h0 : ⌊x⌋ ≤ n := by exact_mod_cast h1.trans h
  unfold Float.rne
  simp only
  split
  · exact h0
  · rename_i hd
    have : (⌊x⌋ : ℚ) < n := by linarith
    have h2 : ⌊x⌋ < n := by exact_mod_cast this
    split
    · omega
    · split <;> omega

theorem grid_ge {q : ℤ} {n : ℤ} {u : ℚ} (h : (n : ℚ) * (2 : ℚ) ^ q ≤ u) :
    (n : ℚ) * (2 : ℚ) ^ q ≤ Float.rne (u / (2 : ℚ) ^ q) * (2 : ℚ) ^ q := by
  have hq := zp q
  have h1 : (n : ℚ) ≤ u / (2 : ℚ) ^ q := by rw [le_div_iff₀ hq]; exact h
  have h2 : (n : ℚ) ≤ (Float.rne (u / (2 : ℚ) ^ q) : ℚ) := by exact_mod_cast rne_ge h1
  exact mul_le_mul_of_nonneg_right h2 hq.le

theorem grid_le {q : ℤ} {n : ℤ} {u : ℚ} (h : u ≤ (n : ℚ) * (2 : ℚ) ^ q) :
    Float.rne (u / (2 : ℚ) ^ q) * (2 : ℚ) ^ q ≤ (n : ℚ) * (2 : ℚ) ^ q := by
  have hq := zp q
  have h1 : u / (2 : ℚ) ^ q ≤ (n : ℚ) := by rw [div_le_iff₀ hq]; exact h
  have h2 : (Float.rne (u / (2 : ℚ) ^ q) : ℚ) ≤ (n : ℚ) := by exact_mod_cast rne_le h1
  exact mul_le_mul_of_nonneg_right h2 hq.le

/-- a positive number of the format against the quantum of exponent `K - f`: it is a multiple, or less than `2^K`, and this only
above the smallest binade -/
theorem finite_grid {F : Float.Fmt} {a : ℚ} (h : F.Finite a) (ha : 0 < a) (K : ℤ) :
    (∃ n : ℤ, a = n * (2 : ℚ) ^ (K - F.f)) ∨ (a < (2 : ℚ) ^ K ∧ F.emin < K) := by
  obtain ⟨n, k, rfl, hn0, hn, hk1, hk2, hcase, -⟩ := Float.finite_canon h ha
  rcases le_or_gt K k with hle | hlt
  · left
    obtain ⟨j, hj⟩ := Int.eq_ofNat_of_zero_le (by omega : 0 ≤ k - K)
    refine ⟨n * 2 ^ j, ?_⟩
    rw [show k - (F.f : ℤ) = (j : ℤ) + (K - F.f) by omega, zadd, znat]; push_cast; ring
  · right
    have h1 : (n : ℚ) < 2 ^ (F.f + 1) := by exact_mod_cast hn
    have h2 : (2 : ℚ) ^ (k + 1) ≤ (2 : ℚ) ^ K := zle (by omega)
    have h3 : (2 : ℚ) ^ (k + 1) = 2 ^ (F.f + 1) * (2 : ℚ) ^ (k - F.f) := by
      rw [zscale (k + 1) (F.f + 1)]; push_cast; congr 2; ring
    have h4 := mul_lt_mul_of_pos_right h1 (zp (k - F.f))
    exact ⟨by linarith, by omega⟩

theorem rndUnb_ge {F : Float.Fmt} {a u : ℚ} (h : F.Finite a) (hau : a ≤ u) : a ≤ Float.rndUnb F u := by
  unfold Float.rndUnb
  split
  · rename_i h0; rw [← h0]; exact hau
  · rename_i h0
    simp only
    set K := max (Int.log 2 |u|) F.emin with hK
    have hKu : F.emin < K → (2 : ℚ) ^ K ≤ |u| := by
      intro hlt
      have : K = Int.log 2 |u| := by rw [hK] at hlt ⊢; exact max_eq_left (by rcases lt_max_iff.1 hlt with h | h <;> omega)
      rw [this]; exact Float.pow_log_le (abs_pos.2 h0)
    rcases lt_or_gt_of_ne h0 with hneg | hpos
    · have ha : 0 < -a := by linarith
      rw [abs_of_neg hneg] at hKu
      rcases finite_grid (Float.finite_neg h) ha K with ⟨n, hn⟩ | ⟨hlt, hem⟩
      · have : a = ((-n : ℤ) : ℚ) * (2 : ℚ) ^ (K - F.f) := by push_cast; linarith
        rw [this] at hau ⊢
        exact grid_ge hau
      · linarith [hKu hem]
    · rw [abs_of_pos hpos] at hKu
      rcases le_or_gt a 0 with ha | ha
      · refine ha.trans ?_
        have := grid_ge (q := K - F.f) (n := 0) (u := u) (by simp; exact hpos.le)
        simpa using this
      · rcases finite_grid h ha K with ⟨n, hn⟩ | ⟨hlt, hem⟩
        · rw [hn] at hau ⊢; exact grid_ge hau
        · have hpu := hKu hem
          rw [zscale K F.f] at hpu
          have := grid_ge (q := K - F.f) (n := 2 ^ F.f) (u := u) (by push_cast; exact hpu)
          push_cast at this
          rw [← zscale] at this
          linarith

theorem rndUnb_le {F : Float.Fmt} {b u : ℚ} (h : F.Finite b) (hub : u ≤ b) : Float.rndUnb F u ≤ b := by
  unfold Float.rndUnb
  split
  · rename_i h0; rw [← h0]; exact hub
  · rename_i h0
    simp only
    set K := max (Int.log 2 |u|) F.emin with hK
    have hKu : F.emin < K → (2 : ℚ) ^ K ≤ |u| := by
      intro hlt
      have : K = Int.log 2 |u| := by rw [hK] at hlt ⊢; exact max_eq_left (by rcases lt_max_iff.1 hlt with h | h <;> omega)
      rw [this]; exact Float.pow_log_le (abs_pos.2 h0)
    rcases lt_or_gt_of_ne h0 with hneg | hpos
    · rw [abs_of_neg hneg] at hKu
      rcases le_or_gt 0 b with hb | hb
      · refine le_trans ?_ hb
        have := grid_le (q := K - F.f) (n := 0) (u := u) (by simp; exact hneg.le)
        simpa using this
      · rcases finite_grid (Float.finite_neg h) (by linarith : 0 < -b) K with ⟨n, hn⟩ | ⟨hlt, hem⟩
        · have : b = ((-n : ℤ) : ℚ) * (2 : ℚ) ^ (K - F.f) := by push_cast; linarith
          rw [this] at hub ⊢
          exact grid_le hub
        · have hpu := hKu hem
          rw [zscale K F.f] at hpu
          have := grid_le (q := K - F.f) (n := -2 ^ F.f) (u := u) (by push_cast; linarith)
          push_cast at this
          rw [neg_mul, ← zscale] at this
          linarith
    · rw [abs_of_pos hpos] at hKu
      rcases finite_grid h (by linarith : 0 < b) K with ⟨n, hn⟩ | ⟨hlt, hem⟩
      · rw [hn] at hub ⊢; exact grid_le hub
      · linarith [hKu hem]

theorem rndUnb_finite {F : Float.Fmt} (he : 2 ≤ F.e) {u : ℚ} (hu : |u| ≤ Float.omega F) (hr : |Float.rndUnb F u| ≤ Float.omega F) :
    F.Finite (Float.rndUnb F u) := by
  obtain ⟨e1, e2⟩ := emin_le_emax he
  have hol := omega_lt he
  revert hr
  unfold Float.rndUnb
  split
  · intro _; exact ⟨0, F.emin, by simp, le_rfl, by omega, by simp⟩
  · rename_i h0
    simp only
    set K := max (Int.log 2 |u|) F.emin with hK
    have hap : 0 < |u| := abs_pos.2 h0
    have hlog : Int.log 2 |u| ≤ F.emax := by
      by_contra hcon
      have h1 : (2 : ℚ) ^ (F.emax + 1) ≤ (2 : ℚ) ^ Int.log 2 |u| := zle (by omega)
      have h2 := Float.pow_log_le hap
      linarith
    have hKe : K ≤ F.emax := max_le hlog (by omega)
    have hKm : F.emin ≤ K := le_max_right _ _
    set r := Float.rne (u / (2 : ℚ) ^ (K - F.f)) with hr
    have hub : |u| ≤ 2 ^ (F.f + 1) * (2 : ℚ) ^ (K - F.f) := by
      have h1 := Float.lt_pow_log (a := |u|)
      have h2 : (2 : ℚ) ^ (Int.log 2 |u| + 1) ≤ (2 : ℚ) ^ (K + 1) := zle (by have := le_max_left (Int.log 2 |u|) F.emin; omega)
      have h3 : (2 : ℚ) ^ (K + 1) = 2 ^ (F.f + 1) * (2 : ℚ) ^ (K - F.f) := by
        rw [zscale (K + 1) (F.f + 1)]; push_cast; congr 2; ring
      linarith
    have hp := zp (K - F.f)
    have hr1 : r ≤ 2 ^ (F.f + 1) := by
      refine rne_le ?_
      rw [div_le_iff₀ hp]; push_cast; exact (le_abs_self u).trans hub
    have hr2 : -2 ^ (F.f + 1) ≤ r := by
      refine rne_ge ?_
      rw [le_div_iff₀ hp]; push_cast; rw [neg_mul]; linarith [neg_abs_le u]
    intro hom
    by_cases hlt : |r| < 2 ^ (F.f + 1)
    · exact ⟨r, K, hlt, hKm, hKe, rfl⟩
    · have hab : |r| = 2 ^ (F.f + 1) := le_antisymm (abs_le.2 ⟨hr2, hr1⟩) (not_lt.1 hlt)
      have hv : |(r : ℚ) * (2 : ℚ) ^ (K - F.f)| = (2 : ℚ) ^ (K + 1) := by
        rw [abs_mul, abs_of_pos hp, ← Int.cast_abs, hab, zscale (K + 1) (F.f + 1)]; push_cast; congr 2; ring
      have hK1 : K + 1 ≤ F.emax := by
        by_contra hcon
        have : (2 : ℚ) ^ (F.emax + 1) ≤ (2 : ℚ) ^ (K + 1) := zle (by omega)
        rw [hv] at hom
        linarith
      have hpow : (2 : ℤ) ^ F.f < 2 ^ (F.f + 1) := pow_lt_pow_right₀ (by norm_num) (by omega)
      have hq : (2 : ℚ) ^ (K + 1 - F.f) = 2 * (2 : ℚ) ^ (K - F.f) := by rw [show K + 1 - F.f = K - F.f + 1 by ring, zsucc]
      rcases eq_or_eq_neg_of_abs_eq hab with hrr | hrr <;> rw [hrr]
      · exact ⟨2 ^ F.f, K + 1, by rw [abs_of_pos (by positivity)]; exact hpow, by omega, hK1, by rw [hq]; push_cast; ring⟩
      · exact ⟨-2 ^ F.f, K + 1, by rw [abs_neg, abs_of_pos (by positivity)]; exact hpow, by omega, hK1, by rw [hq]; push_cast; ring⟩

/-- **C55** (floating-point interval, uniform) On an interval with representable bounds the uniform generator always produces a
number of the format in the interval. -/
theorem C55_uniform_partial {F : Float.Fmt} (he : 2 ≤ F.e) {lo hi : ℚ} (hl : F.Finite lo) (hh : F.Finite hi) (h : lo ≤ hi)
    (d g : ℕ → ℕ) : ∃ v, fNewValue (· - ·) F (intervalWeights lo hi true) d g = some (.num v) ∧ Within lo hi v ∧ F.Finite v := by
  obtain ⟨c, hc⟩ := (C55_category (l := intervalWeights lo hi true) (by simp [intervalWeights]) (d 0)).1
  obtain ⟨w, hw⟩ := pick_mem hc
  simp only [intervalWeights, if_true, List.mem_cons, Prod.mk.injEq, List.not_mem_nil, or_false] at hw
  obtain ⟨rfl, -⟩ := hw
  set u : ℚ := lo + (hi - lo) * random01 (g 0) with hu
  have hr0 : 0 ≤ random01 (g 0) := by unfold random01; positivity
  have hr1 : random01 (g 0) ≤ 1 := (random01_lt _).le
  have hlu : lo ≤ u := by have := mul_nonneg (sub_nonneg.2 h) hr0; rw [hu]; linarith
  have huh : u ≤ hi := by have := mul_le_mul_of_nonneg_left hr1 (sub_nonneg.2 h); rw [hu]; linarith
  have r1 := rndUnb_ge hl hlu
  have r2 := rndUnb_le hh huh
  have ob := (Float.C02_omega_is_greatest F he).2
  have a1 := abs_le.1 (ob _ hl)
  have a2 := abs_le.1 (ob _ hh)
  have hru : |Float.rndUnb F u| ≤ Float.omega F := abs_le.2 ⟨a1.1.trans r1, r2.trans a2.2⟩
  refine ⟨Float.rndUnb F u, ?_, ⟨r1, r2⟩, rndUnb_finite he (abs_le.2 ⟨a1.1.trans hlu, huh.trans a2.2⟩) hru⟩
  unfold fNewValue
  rw [hc]
  simp only [Option.bind_some, fgen, ← hu, Float.rnd, hru, if_true, Option.map_some]

example (d g : ℕ → ℕ) : ∃ v, fNewValue (· - ·) ⟨8, 23⟩ (intervalWeights (-1) 1000 true) d g = some (.num v) ∧
    Within (-1) 1000 v ∧ Float.Fmt.Finite ⟨8, 23⟩ v := by
  refine C55_uniform_partial (by norm_num) ⟨-1, 23, by norm_num, ?_, ?_, by norm_num⟩ ⟨1000, 23, by norm_num, ?_, ?_, by norm_num⟩
    (by norm_num) d g <;> norm_num [Float.Fmt.emin, Float.Fmt.emax]

/-- With a bound that is not representable the value can leave the interval: here `[1 + 2^-12, 1 + 2^-12]` in binary16 yields 1. -/
theorem C55_uniform_wrong : ∃ (F : Float.Fmt) (lo hi : ℚ) (d g : ℕ → ℕ) (v : ℚ), lo ≤ hi ∧
    fNewValue (· - ·) F (intervalWeights lo hi true) d g = some (.num v) ∧ ¬ Within lo hi v := by
  refine ⟨⟨5, 10⟩, 4097 / 4096, 4097 / 4096, fun _ => 0, fun _ => 0, 1, le_rfl, ?_, by norm_num [Within]⟩
  have hlog : Int.log 2 |(4097 / 4096 : ℚ)| = 0 := by
    rw [abs_of_pos (by norm_num)]; exact Float.log_eq (a := 4097 / 4096) (k := 0) (by norm_num) (by norm_num)
  have hr : Float.rndUnb ⟨5, 10⟩ (4097 / 4096) = 1 := by
    unfold Float.rndUnb
    rw [if_neg (by norm_num), hlog]
    have : max (0 : ℤ) (Float.Fmt.emin ⟨5, 10⟩) = 0 := by norm_num [Float.Fmt.emin, Float.Fmt.emax]
    rw [this]
    have hf : ⌊(4097 / 4096 : ℚ) / (2 : ℚ) ^ (0 - ((10 : ℕ) : ℤ))⌋ = 1024 := by rw [Int.floor_eq_iff]; norm_num
    unfold Float.rne
    simp only [hf]
    norm_num
  have ho : (1 : ℚ) ≤ Float.omega ⟨5, 10⟩ := by
    rw [Float.omega_eq _ (by norm_num)]; norm_num [Float.Fmt.emax]
  have hc : pick (· - ·) (intervalWeights (4097 / 4096) (4097 / 4096) true) (random01 0) = some (.uniform (4097 / 4096) (4097 / 4096)) := by
    simp [pick, intervalWeights, random01]
  unfold fNewValue
  rw [hc]
  simp only [Option.bind_some, fgen, sub_self, zero_mul, add_zero, Float.rnd, hr, abs_one, if_pos ho, Option.map_some]

/-! ## Multi-limb values -/

theorem mpLoop_bound : ∀ (fs : List (Float.Fmt × Float.Fmt)) (ds : List (ℕ → ℕ)) (e : ℤ) (acc v : ℚ),
    (∀ p ∈ fs, 1 ≤ p.1.f) → mpLoop fs ds e acc = some v → acc ≤ v ∧ v ≤ acc + (2 : ℚ) ^ e
  | [], _, e, acc, v, _, h => by
      simp only [mpLoop, Option.some.injEq] at h; subst h; exact ⟨le_rfl, by linarith [zp e]⟩
  | _ :: _, [], _, _, _, _, h => by simp [mpLoop] at h
  | (prev, F) :: fs, d :: ds, e, acc, v, hf, h => by
      obtain ⟨n, hn, h0, h1⟩ := randrange_ex (d 1) (lo := 0) (hi := 2 ^ F.f) (by positivity)
      simp only [mpLoop, fgen, hn, Option.map_some] at h
      obtain ⟨a1, a2⟩ := mpLoop_bound fs ds _ _ v (fun p hp => hf p (by simp [hp])) h
      have hpf := hf (prev, F) (by simp)
      simp only at hpf
      have hm0 : (0 : ℚ) ≤ (n : ℚ) * (2 : ℚ) ^ (-(F.f : ℤ)) := mul_nonneg (by exact_mod_cast h0) (zp _).le
      have hm1 : (n : ℚ) * (2 : ℚ) ^ (-(F.f : ℤ)) < 1 := by
        rw [zpow_neg, znat, ← div_eq_mul_inv, div_lt_one (by positivity)]; exact_mod_cast h1
      set m : ℚ := (n : ℚ) * (2 : ℚ) ^ (-(F.f : ℤ))
      set e' : ℤ := e - (prev.f + 1) with he'
      have hp := zp e'
      have hle : (2 : ℚ) ^ (e' + 2) ≤ (2 : ℚ) ^ e := zle (by omega)
      have hq : (2 : ℚ) ^ (e' + 2) = 4 * (2 : ℚ) ^ e' := by rw [zadd]; norm_num; ring
      constructor <;> nlinarith

/-- **C55** (multi-limb, interval) The head of a multi-limb value is in the interval; the other limbs are all positive and add less
than four units in the last place of the head (`2^(⌈log2 |head|⌉ - f + 1)`), so that the value is not below the interval, and can
exceed it by less than that.  Missing: the value does not exceed the interval (false, see `C55_mp_wrong`). -/
theorem C55_mp_partial {sub : ℚ → ℚ → ℚ} {F : Float.Fmt} {fs : List Float.Fmt} (hf : ∀ G ∈ F :: fs, 1 ≤ G.f) {lo hi : ℚ} (h : lo ≤ hi)
    {d g : ℕ → ℕ} {ds : List (ℕ → ℕ)} {v : ℚ} (hv : mpNewValue sub F fs (intervalWeights lo hi false) d g ds = some v) :
    ∃ head, Within lo hi head ∧ head ≤ v ∧ (v = head ∨ v < head + (2 : ℚ) ^ (Int.clog 2 |head| - F.f + 1)) := by
  unfold mpNewValue at hv
  cases hh : fNewValue sub F (intervalWeights lo hi false) d g with
  | none => rw [hh] at hv; simp at hv
  | some w =>
    obtain ⟨q, rfl, hq⟩ := C55_log_range h hh
    rw [hh] at hv
    simp only at hv
    split at hv
    · rename_i h0
      simp only [Option.some.injEq] at hv
      subst hv; subst h0
      exact ⟨0, hq, le_rfl, Or.inl rfl⟩
    · refine ⟨q, hq, ?_⟩
      have hz : ∀ p ∈ List.zip (F :: fs) fs, 1 ≤ p.1.f := fun p hp => hf _ (List.of_mem_zip hp).1
      refine ⟨(mpLoop_bound _ _ _ _ _ hz hv).1, ?_⟩
      cases fs with
      | nil => simp only [List.zip_nil_right, mpLoop, Option.some.injEq] at hv; exact Or.inl hv.symm
      | cons G fs =>
        right
        simp only [List.zip_cons_cons] at hv hz
        cases ds with
        | nil => simp [mpLoop] at hv
        | cons d' ds =>
          obtain ⟨n, hn, h0, h1⟩ := randrange_ex (d' 1) (lo := 0) (hi := 2 ^ G.f) (by positivity)
          simp only [mpLoop, fgen, hn, Option.map_some] at hv
          have a2 := (mpLoop_bound _ _ _ _ _ (fun p hp => hz p (List.mem_cons_of_mem _ hp)) hv).2
          have hm1 : (n : ℚ) * (2 : ℚ) ^ (-(G.f : ℤ)) < 1 := by
            rw [zpow_neg, znat, ← div_eq_mul_inv, div_lt_one (by positivity)]; exact_mod_cast h1
          set m : ℚ := (n : ℚ) * (2 : ℚ) ^ (-(G.f : ℤ))
          set e' : ℤ := Int.clog 2 |q| - (F.f + 1) with he'
          have hp := zp e'
          rw [show Int.clog 2 |q| - F.f + 1 = e' + 2 by omega]
          have hq : (2 : ℚ) ^ (e' + 2) = 4 * (2 : ℚ) ^ e' := by rw [zadd]; norm_num; ring
          nlinarith

/-- two binary64 limbs on `[1, 2]`: the value `2 + 2^-52` is produced, which is above the interval -/
theorem C55_mp_wrong : ∃ (F : Float.Fmt) (fs : List Float.Fmt) (lo hi : ℚ) (d g : ℕ → ℕ) (ds : List (ℕ → ℕ)) (v : ℚ), lo ≤ hi ∧
    mpNewValue (· - ·) F fs (intervalWeights lo hi false) d g ds = some v ∧ ¬ Within lo hi v := by
  refine ⟨⟨11, 52⟩, [⟨11, 52⟩], 1, 2, fun i => if i = 1 then 1 else 0, fun _ => 0, [fun _ => 0], 2 + (2 : ℚ) ^ (-52 : ℤ), by norm_num, ?_, ?_⟩
  · have c1 : Int.clog 2 |(1 : ℚ)| = 0 := by rw [abs_one]; exact Int.clog_one_right 2
    have c2 : Int.clog 2 |(2 : ℚ)| = 1 := by
      rw [abs_of_pos (by norm_num)]; exact clog_eq (k := 0) (b := 2) (by norm_num) (by norm_num)
    have m1 : minExp ⟨11, 52⟩ 1 2 = some 0 := by
      unfold minExp; rw [if_neg (by norm_num)]
      unfold ceilLog; rw [if_neg (by norm_num), if_neg (by norm_num), c1, c2]; rfl
    have m2 : maxExp 1 2 = some 1 := by
      unfold maxExp ceilLog; rw [if_neg (by norm_num), if_neg (by norm_num), c1, c2]; rfl
    have hc : pick (· - ·) (intervalWeights 1 2 false) (random01 0) = some (.logInterval 1 2) := by
      simp [pick, intervalWeights, random01]
    have hv : fNewValue (· - ·) ⟨11, 52⟩ (intervalWeights 1 2 false) (fun i => if i = 1 then 1 else 0) (fun _ => 0) = some (.num 2) := by
      unfold fNewValue
      simp only [show ¬ (0 = 1) by decide, if_false, hc, Option.bind_some, fgen, m1, m2, show ¬ (3 = 1) by decide,
        show ¬ (2 = 1) by decide, sign_zero, if_true]
      norm_num [randrange]
    unfold mpNewValue
    rw [hv]
    simp only [show ¬ ((2 : ℚ) = 0) by norm_num, if_false, c2]
    norm_num [mpLoop, fgen, randrange, List.zip]
  · simp only [Within, not_and, not_le]
    intro _
    linarith [zp (-52)]

/-! ## Seeds (C69) -/

/-- **C69** (generators of numbers) The values of a generator without special values and without uniform intervals depend on its
seed only (`d`), not on the draws of the process-wide generator (`g`). -/
theorem C69_seed_partial {sub : ℚ → ℚ → ℚ} {F : Float.Fmt} {w : List (FCat × ℚ)}
    (hw : ∀ p ∈ w, p.1 = .subnormal ∨ p.1 = .normal ∨ p.1 = .zeroExp ∨ ∃ lo hi, p.1 = .logInterval lo hi) (d g g' : ℕ → ℕ) :
    fNewValue sub F w d g = fNewValue sub F w d g' := by
  unfold fNewValue
  cases hc : pick sub w (random01 (d 0)) with
  | none => rfl
  | some c =>
    obtain ⟨x, hx⟩ := pick_mem hc
    simp only [Option.bind_some]
    rcases hw _ hx with h | h | h | ⟨lo, hi, h⟩ <;> simp only at h <;> subst h <;> rfl

example (d g g' : ℕ → ℕ) : fNewValue (· - ·) ⟨8, 23⟩ (intervalWeights (-1) 1000 false) d g =
    fNewValue (· - ·) ⟨8, 23⟩ (intervalWeights (-1) 1000 false) d g' :=
  C69_seed_partial (by simp [intervalWeights]) d g g'

/-- The default generator, and that of a uniform interval, ignore their seed: for the same draws of the seeded generator they produce
different values. -/
theorem C69_seed_wrong : (∃ (F : Float.Fmt) (d g g' : ℕ → ℕ), fNewValue (· - ·) F defaultWeights d g ≠ fNewValue (· - ·) F defaultWeights d g') ∧
    ∃ (F : Float.Fmt) (lo hi : ℚ) (d g g' : ℕ → ℕ),
      fNewValue (· - ·) F (intervalWeights lo hi true) d g ≠ fNewValue (· - ·) F (intervalWeights lo hi true) d g' := by
  refine ⟨⟨⟨8, 23⟩, fun _ => 0, fun _ => 0, fun _ => 1, ?_⟩, ⟨8, 23⟩, 0, 2, fun _ => 0, fun _ => 0, fun _ => 2 ^ 52, ?_⟩
  · have hc : pick (· - ·) defaultWeights (random01 0) = some .special := by norm_num [pick, defaultWeights, random01]
    unfold fNewValue
    rw [hc]
    simp [fgen, specials]
  · have hc : pick (· - ·) (intervalWeights 0 2 true) (random01 0) = some (.uniform 0 2) := by simp [pick, intervalWeights, random01]
    have f0 : Float.Fmt.Finite ⟨8, 23⟩ 0 := ⟨0, 0, by norm_num, by norm_num [Float.Fmt.emin, Float.Fmt.emax], by norm_num [Float.Fmt.emax], by norm_num⟩
    have f1 : Float.Fmt.Finite ⟨8, 23⟩ 1 := ⟨1, 23, by norm_num, by norm_num [Float.Fmt.emin, Float.Fmt.emax], by norm_num [Float.Fmt.emax], by norm_num⟩
    unfold fNewValue
    rw [hc]
    have e1 : (0 : ℚ) + (2 - 0) * random01 0 = 0 := by norm_num [random01]
    have e2 : (0 : ℚ) + (2 - 0) * random01 (2 ^ 52) = 1 := by norm_num [random01]
    simp only [Option.bind_some, fgen, e1, e2, Float.rnd_finite (by norm_num) f0, Float.rnd_finite (by norm_num) f1, Option.map_some]
    norm_num

end Verif.Rng
