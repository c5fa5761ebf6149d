import Verif.Bipart.Model
import Mathlib.Analysis.Calculus.Deriv.MeanValue
import Mathlib.Analysis.Calculus.Deriv.Inv

/-! # C102: the error of a bipartite approximation -/

namespace Verif.Bipart

theorem rn_err (p : ℕ) (y : ℝ) : |rn p y - y| ≤ 1 / 2 ^ (p + 1) := by
  have h2 : (0 : ℝ) < 2 ^ p := by positivity
  have h := abs_sub_round (2 ^ p * y)
  have e : rn p y - y = -((2 ^ p * y - round (2 ^ p * y)) / 2 ^ p) := by
    unfold rn; field_simp; ring
  rw [e, abs_neg, abs_div, abs_of_pos h2, div_le_div_iff₀ h2 (by positivity), pow_succ]
  nlinarith

/-- the mean value theorem, in any order -/
theorem mvt {f f' : ℝ → ℝ} {lo R M : ℝ} (h : Smooth f f' lo R M) {a b : ℝ} (ha : a ∈ Set.Icc lo (lo + R)) (hb : b ∈ Set.Icc lo (lo + R)) :
    ∃ c, min a b ≤ c ∧ c ≤ max a b ∧ f b - f a = (b - a) * f' c := by
  have key : ∀ a b, a < b → a ∈ Set.Icc lo (lo + R) → b ∈ Set.Icc lo (lo + R) → ∃ c, a ≤ c ∧ c ≤ b ∧ f b - f a = (b - a) * f' c := by
    intro a b hab ha hb
    have hin : ∀ x ∈ Set.Icc a b, x ∈ Set.Icc lo (lo + R) := fun x hx => ⟨le_trans ha.1 hx.1, le_trans hx.2 hb.2⟩
    obtain ⟨c, hc, he⟩ := exists_hasDerivAt_eq_slope f f' hab (fun x hx => (h.deriv x (hin x hx)).continuousAt.continuousWithinAt)
      (fun x hx => h.deriv x (hin x ⟨hx.1.le, hx.2.le⟩))
    refine ⟨c, hc.1.le, hc.2.le, ?_⟩
    rw [he, mul_div_cancel₀ _ (by linarith : (b - a) ≠ 0)]
  rcases lt_trichotomy a b with hab | hab | hab
  · obtain ⟨c, h1, h2, h3⟩ := key a b hab ha hb
    exact ⟨c, by rw [min_eq_left hab.le]; exact h1, by rw [max_eq_right hab.le]; exact h2, h3⟩
  · subst hab
    exact ⟨a, by simp, by simp, by simp⟩
  · obtain ⟨c, h1, h2, h3⟩ := key b a hab hb ha
    exact ⟨c, by rw [min_eq_right hab.le]; exact h1, by rw [max_eq_left hab.le]; exact h2, by linarith⟩

/-- the indices are the three fields of the input -/
theorem index_split (β γ X : ℕ) : X = (alphaIndex β γ X * 2 ^ β + betaIndex β γ X) * 2 ^ γ + gammaIndex γ X := by
  unfold alphaIndex betaIndex gammaIndex
  have h1 : X / 2 ^ (β + γ) = X / 2 ^ γ / 2 ^ β := by rw [Nat.div_div_eq_div_mul, ← pow_add, add_comm γ β]
  rw [h1]
  have h2 := Nat.div_add_mod (X / 2 ^ γ) (2 ^ β)
  have h3 := Nat.div_add_mod X (2 ^ γ)
  rw [mul_comm (X / 2 ^ γ / 2 ^ β), h2, mul_comm, h3]

theorem betaIndex_lt (β γ X : ℕ) : betaIndex β γ X < 2 ^ β := Nat.mod_lt _ (by positivity)
theorem gammaIndex_lt (γ X : ℕ) : gammaIndex γ X < 2 ^ γ := Nat.mod_lt _ (by positivity)

theorem alphaIndex_lt {α β γ X : ℕ} (hX : X < 2 ^ (α + β + γ)) : alphaIndex β γ X < 2 ^ α := by
  unfold alphaIndex
  rw [Nat.div_lt_iff_lt_mul (by positivity), ← pow_add, ← add_assoc]; exact hX

theorem tiv_div (β γ X : ℕ) : tivIndex β γ X / 2 ^ β = alphaIndex β γ X := by
  unfold tivIndex
  rw [mul_comm, Nat.mul_add_div (by positivity), Nat.div_eq_of_lt (betaIndex_lt β γ X), add_zero]

theorem to_div (β γ X : ℕ) : toIndex β γ X / 2 ^ γ = alphaIndex β γ X := by
  unfold toIndex
  rw [mul_comm, Nat.mul_add_div (by positivity), Nat.div_eq_of_lt (gammaIndex_lt γ X), add_zero]

theorem to_mod (β γ X : ℕ) : toIndex β γ X % 2 ^ γ = gammaIndex γ X := by
  unfold toIndex
  rw [mul_comm, Nat.mul_add_mod, Nat.mod_eq_of_lt (gammaIndex_lt γ X)]

theorem offset_err (f : ℝ → ℝ) (lo R : ℝ) (α β γ q i : ℕ) :
    |tableOffset f lo R α β γ q i - slope f lo R α (i / 2 ^ γ) * (i % 2 ^ γ : ℕ) * (R / 2 ^ (α + β + γ))| ≤ 1 / 2 ^ (q + 1) := by
  unfold tableOffset
  dsimp only
  split_ifs
  · rw [sub_self, abs_zero]; positivity
  · exact rn_err _ _

/-- **C102.** Whatever the function, the interval and the sizes, for every input the sum of the two table values is within the given bound of the function: half a step of the
initial values times the variation of the slope over a segment, plus half a unit of each table. -/
theorem C102_error {f f' : ℝ → ℝ} {lo R M : ℝ} (h : Smooth f f' lo R M) (hR : 0 < R) (hM : 0 ≤ M) (α β γ p q : ℕ) {X : ℕ} (hX : X < 2 ^ (α + β + γ)) :
    |approx f lo R α β γ p q X - f (point lo R (α + β + γ) X)| ≤
      M * (R / 2 ^ (α + β) / 2) * (R / 2 ^ α * (1 / 2 + 1 / 2 ^ 16)) + 1 / 2 ^ (p + 1) + 1 / 2 ^ (q + 1) := by
  obtain ⟨a, ha⟩ : ∃ a, a = alphaIndex β γ X := ⟨_, rfl⟩
  obtain ⟨b, hb⟩ : ∃ b, b = betaIndex β γ X := ⟨_, rfl⟩
  obtain ⟨g, hg⟩ : ∃ g, g = gammaIndex γ X := ⟨_, rfl⟩
  have hb1 : b + 1 ≤ 2 ^ β := hb ▸ betaIndex_lt β γ X
  have hg1 : g + 1 ≤ 2 ^ γ := hg ▸ gammaIndex_lt γ X
  have ha1 : a + 1 ≤ 2 ^ α := ha ▸ alphaIndex_lt hX
  have hXs : X = (a * 2 ^ β + b) * 2 ^ γ + g := by rw [ha, hb, hg]; exact index_split β γ X
  obtain ⟨A, hA⟩ : ∃ A : ℝ, A = 2 ^ α := ⟨_, rfl⟩
  obtain ⟨B, hB⟩ : ∃ B : ℝ, B = 2 ^ β := ⟨_, rfl⟩
  obtain ⟨G, hG⟩ : ∃ G : ℝ, G = 2 ^ γ := ⟨_, rfl⟩
  have cA : (1 : ℝ) ≤ A := hA ▸ one_le_pow₀ (by norm_num)
  have cB : (1 : ℝ) ≤ B := hB ▸ one_le_pow₀ (by norm_num)
  have cG : (1 : ℝ) ≤ G := hG ▸ one_le_pow₀ (by norm_num)
  have cb : (b : ℝ) + 1 ≤ B := by rw [hB]; exact_mod_cast hb1
  have cg : (g : ℝ) + 1 ≤ G := by rw [hG]; exact_mod_cast hg1
  have ca : (a : ℝ) + 1 ≤ A := by rw [hA]; exact_mod_cast ha1
  have b0 : (0 : ℝ) ≤ b := Nat.cast_nonneg b
  have g0 : (0 : ℝ) ≤ g := Nat.cast_nonneg g
  have a0 : (0 : ℝ) ≤ a := Nat.cast_nonneg a
  -- the step of the initial values and of the segments
  obtain ⟨s, hs⟩ : ∃ s, s = R / (A * B) := ⟨_, rfl⟩
  obtain ⟨H, hH⟩ : ∃ H, H = R / A := ⟨_, rfl⟩
  have hs0 : 0 < s := by rw [hs]; positivity
  have hH0 : 0 < H := by rw [hH]; positivity
  have hHs : H = s * B := by rw [hH, hs]; field_simp
  have hRH : R = H * A := by rw [hH]; field_simp
  obtain ⟨L0, hL0⟩ : ∃ L0, L0 = lo + a * H := ⟨_, rfl⟩
  have seg : ∀ x, L0 ≤ x → x ≤ L0 + H → x ∈ Set.Icc lo (lo + R) := by
    intro x h1 h2
    constructor
    · have : 0 ≤ a * H := mul_nonneg a0 hH0.le
      linarith
    · have : (a + 1) * H ≤ A * H := mul_le_mul_of_nonneg_right ca hH0.le
      linarith
  -- the input and the middle of its step
  obtain ⟨x, hx⟩ : ∃ x, x = point lo R (α + β + γ) X := ⟨_, rfl⟩
  have hx' : x = L0 + b * s + g * (s / G) := by
    rw [hx, hL0, hHs, hXs, hs]
    unfold point
    push_cast
    rw [pow_add, pow_add, ← hA, ← hB, ← hG]
    field_simp
    ring
  obtain ⟨c, hc⟩ : ∃ c, c = L0 + b * s + s / 2 := ⟨_, rfl⟩
  have hgs1 : 0 ≤ g * (s / G) := by positivity
  have hgs2 : g * (s / G) ≤ s := by
    have : g * (s / G) ≤ G * (s / G) := mul_le_mul_of_nonneg_right (by linarith) (by positivity)
    rwa [mul_div_cancel₀ _ (by linarith : G ≠ 0)] at this
  have hbs1 : 0 ≤ b * s := mul_nonneg b0 hs0.le
  have hbs2 : (b + 1) * s ≤ B * s := mul_le_mul_of_nonneg_right cb hs0.le
  have hxseg1 : L0 ≤ x := by linarith
  have hxseg2 : x ≤ L0 + H := by linarith
  have hcseg1 : L0 ≤ c := by linarith
  have hcseg2 : c ≤ L0 + H := by linarith
  obtain ⟨ξ, x1, x2, x3⟩ := mvt h (seg c hcseg1 hcseg2) (seg x hxseg1 hxseg2)
  have ξ1 : L0 ≤ ξ := le_trans (le_min hcseg1 hxseg1) x1
  have ξ2 : ξ ≤ L0 + H := le_trans x2 (max_le hcseg2 hxseg2)
  -- the slope
  obtain ⟨u, hu⟩ : ∃ u, u = H * (1 / 2 ^ 15) := ⟨_, rfl⟩
  have hu0 : 0 < u := by rw [hu]; positivity
  have huH : u ≤ H := by rw [hu]; nlinarith
  obtain ⟨c0, hc0⟩ : ∃ c0, c0 = L0 + H / 2 := ⟨_, rfl⟩
  obtain ⟨η, y1, y2, y3⟩ := mvt h (seg (c0 - u / 2) (by linarith) (by linarith)) (seg (c0 + u / 2) (by linarith) (by linarith))
  rw [min_eq_left (by linarith)] at y1
  rw [max_eq_right (by linarith)] at y2
  have hslope : slope f lo R α a = f' η := by
    unfold slope
    dsimp only
    have e1 : R * (1 / 2 ^ α) * (1 / 2 ^ 15) = u := by rw [hu, hH, hA]; ring
    have e2 : lo + ((a : ℝ) + 1 / 2) * R * (1 / 2 ^ α) = c0 := by rw [hc0, hL0, hH, hA]; ring
    rw [e1, e2, y3, show c0 + u / 2 - (c0 - u / 2) = u by ring, mul_comm, mul_div_cancel_right₀ _ hu0.ne']
  -- the two tables
  have hiv : |tableIv f lo R α β p (tivIndex β γ X) - (f c - s / 2 * f' η)| ≤ 1 / 2 ^ (p + 1) := by
    unfold tableIv
    dsimp only
    rw [tiv_div, ← ha, hslope]
    have e1 : lo + (tivIndex β γ X : ℝ) * (1 / 2 ^ (α + β)) * R + 1 / 2 * (1 / 2 ^ (α + β)) * R = c := by
      rw [hc, hL0, hHs, hs]
      unfold tivIndex
      rw [← ha, ← hb]
      push_cast
      rw [pow_add, ← hA, ← hB]
      field_simp
      ring
    have e2 : 1 / 2 * (1 / 2 ^ (α + β)) * R = s / 2 := by rw [hs, pow_add, ← hA, ← hB]; field_simp
    rw [e1, e2]
    exact rn_err _ _
  have hoff := offset_err f lo R α β γ q (toIndex β γ X)
  rw [to_div, to_mod, ← ha, ← hg, hslope] at hoff
  have e3 : f' η * (g : ℝ) * (R / 2 ^ (α + β + γ)) = f' η * (g * (s / G)) := by
    rw [hs, pow_add, pow_add, ← hA, ← hB, ← hG]; field_simp
  rw [e3] at hoff
  -- the linear approximation
  have hxc : x - c = g * (s / G) - s / 2 := by rw [hx', hc]; ring
  have hxc' : |x - c| ≤ s / 2 := by rw [hxc, abs_le]; constructor <;> linarith
  have hlin : |f c + (x - c) * f' η - f x| ≤ M * (s / 2) * (H * (1 / 2 + 1 / 2 ^ 16)) := by
    have e : f c + (x - c) * f' η - f x = (x - c) * (f' η - f' ξ) := by linarith
    rw [e, abs_mul]
    have hl := h.lip η (seg η (by linarith) (by linarith)) ξ (seg ξ ξ1 ξ2)
    have hd : |η - ξ| ≤ H * (1 / 2 + 1 / 2 ^ 16) := by
      have : u / 2 = H * (1 / 2 ^ 16) := by rw [hu]; ring
      rw [abs_le]; constructor <;> linarith
    calc |x - c| * |f' η - f' ξ| ≤ s / 2 * (M * (H * (1 / 2 + 1 / 2 ^ 16))) :=
          mul_le_mul hxc' (le_trans hl (mul_le_mul_of_nonneg_left hd hM)) (abs_nonneg _) (by positivity)
      _ = M * (s / 2) * (H * (1 / 2 + 1 / 2 ^ 16)) := by ring
  have e4 : R / 2 ^ (α + β) / 2 = s / 2 := by rw [hs, pow_add, ← hA, ← hB]
  have e5 : R / 2 ^ α = H := by rw [hH, hA]
  rw [e4, e5, ← hx]
  have e6 : approx f lo R α β γ p q X - f x = (tableIv f lo R α β p (tivIndex β γ X) - (f c - s / 2 * f' η)) +
      (tableOffset f lo R α β γ q (toIndex β γ X) - f' η * (g * (s / G))) + (f c + (x - c) * f' η - f x) := by
    unfold approx; rw [hxc]; ring
  rw [e6]
  have t1 := abs_add_le (tableIv f lo R α β p (tivIndex β γ X) - (f c - s / 2 * f' η) + (tableOffset f lo R α β γ q (toIndex β γ X) - f' η * (g * (s / G)))) (f c + (x - c) * f' η - f x)
  have t2 := abs_add_le (tableIv f lo R α β p (tivIndex β γ X) - (f c - s / 2 * f' η)) (tableOffset f lo R α β γ q (toIndex β γ X) - f' η * (g * (s / G)))
  linarith

theorem foldl_max_mono {ι : Type} (F : ℝ → ι → ℝ) (hF : ∀ e i, e ≤ F e i) : ∀ (l : List ι) (e : ℝ), e ≤ l.foldl F e
  | [], _ => le_refl _
  | i :: l, e => le_trans (hF e i) (foldl_max_mono F hF l (F e i))

theorem foldl_max_le {ι : Type} (F : ℝ → ι → ℝ) (hF : ∀ e i, e ≤ F e i) {v : ℝ} {i : ι} (hv : ∀ e, v ≤ F e i) : ∀ (l : List ι) (e : ℝ), i ∈ l → v ≤ l.foldl F e
  | [], _, h => by simp at h
  | j :: l, e, h => by
    rcases List.mem_cons.1 h with rfl | h
    · exact le_trans (hv e) (foldl_max_mono F hF l _)
    · exact foldl_max_le F hF hv l _ h

theorem foldl_zero {ι : Type} (F : ℝ → ι → ℝ) (hF : ∀ i, F 0 i = 0) : ∀ (l : List ι), l.foldl F 0 = 0
  | [] => rfl
  | i :: l => by rw [List.foldl_cons, hF i]; exact foldl_zero F hF l

/-- **C102.** The error the generator reports bounds the error of the sum of the two table values, for every input. -/
theorem C102_reported (f : ℝ → ℝ) (lo R : ℝ) (α β γ p q : ℕ) {X : ℕ} (hX : X < 2 ^ (α + β + γ)) :
    |f (point lo R (α + β + γ) X) - approx f lo R α β γ p q X| ≤ reported f lo R α β γ p q := by
  have hg : ∀ (T : ℕ → ℝ) (e : ℝ) (k : ℕ), e ≤ max e (T k) := fun T e k => le_max_left _ _
  have e1 : point lo R (α + β + γ) X = lo + R * ((alphaIndex β γ X * 2 ^ β + betaIndex β γ X) * 2 ^ γ + gammaIndex γ X : ℕ) / 2 ^ (α + β + γ) := by
    unfold point; rw [← index_split β γ X]
  have e2 : approx f lo R α β γ p q X = tableOffset f lo R α β γ q (alphaIndex β γ X * 2 ^ γ + gammaIndex γ X) + tableIv f lo R α β p (alphaIndex β γ X * 2 ^ β + betaIndex β γ X) := by
    unfold approx tivIndex toIndex; ring
  rw [e1, e2]
  unfold reported
  refine foldl_max_le _ ?_ (i := alphaIndex β γ X) ?_ _ _ (List.mem_range.2 (alphaIndex_lt hX))
  · intro e i
    refine foldl_max_mono _ (fun e j => ?_) _ _
    exact foldl_max_mono _ (fun e k => le_max_left _ _) _ _
  · intro e
    refine foldl_max_le _ (fun e j => foldl_max_mono _ (fun e k => le_max_left _ _) _ _) (i := betaIndex β γ X) ?_ _ _ (List.mem_range.2 (betaIndex_lt β γ X))
    intro e
    refine foldl_max_le _ (fun e k => le_max_left _ _) (i := gammaIndex γ X) ?_ _ _ (List.mem_range.2 (gammaIndex_lt γ X))
    intro e
    exact le_max_right _ _

/-- **C102, partial.** The output itself is at most one unit of the output format below the sum of the two table values: the bound on what the block delivers needs one more unit. -/
theorem C102_output_partial {f f' : ℝ → ℝ} {lo R M : ℝ} (h : Smooth f f' lo R M) (hR : 0 < R) (hM : 0 ≤ M) (α β γ p q o : ℕ) {X : ℕ} (hX : X < 2 ^ (α + β + γ)) :
    |output f lo R α β γ p q o X - f (point lo R (α + β + γ) X)| ≤
      M * (R / 2 ^ (α + β) / 2) * (R / 2 ^ α * (1 / 2 + 1 / 2 ^ 16)) + 1 / 2 ^ (p + 1) + 1 / 2 ^ (q + 1) + 1 / 2 ^ o := by
  have h1 := C102_error h hR hM α β γ p q hX
  have h2 : (0 : ℝ) < 2 ^ o := by positivity
  have h3 : |output f lo R α β γ p q o X - approx f lo R α β γ p q X| ≤ 1 / 2 ^ o := by
    unfold output
    generalize approx f lo R α β γ p q X = y
    have f1 := Int.floor_le (2 ^ o * y)
    have f2 := Int.lt_floor_add_one (2 ^ o * y)
    have e : (⌊2 ^ o * y⌋ : ℝ) / 2 ^ o - y = (⌊2 ^ o * y⌋ - 2 ^ o * y) / 2 ^ o := by field_simp
    rw [e, abs_div, abs_of_pos h2]
    apply div_le_div_of_nonneg_right _ h2.le
    rw [abs_le]; constructor <;> linarith
  have t := abs_add_le (output f lo R α β γ p q o X - approx f lo R α β γ p q X) (approx f lo R α β γ p q X - f (point lo R (α + β + γ) X))
  rw [sub_add_sub_cancel] at t
  linarith

theorem rn_int (p : ℕ) (k : ℤ) : rn p (k / 2 ^ p) = k / 2 ^ p := by
  unfold rn
  rw [mul_div_cancel₀ _ (by positivity), round_intCast]

/-- **C102, a disagreement.** The reported error does not bound the error of what the block delivers: for the constant function 1 - 2^-21, whose tables are exact, it is zero, and the
output, in the format `fixed_point(1, 15)`, is off by 2^-15 - 2^-21 for every input. -/
theorem C102_output_wrong (X : ℕ) : reported (fun _ => 1 - 1 / 2 ^ 21) 1 1 6 5 5 21 16 = 0 ∧
    |output (fun _ => 1 - 1 / 2 ^ 21) 1 1 6 5 5 21 16 15 X - (1 - 1 / 2 ^ 21)| = 1 / 2 ^ 15 - 1 / 2 ^ 21 := by
  have hs : ∀ i, slope (fun _ => (1 : ℝ) - 1 / 2 ^ 21) 1 1 6 i = 0 := by intro i; unfold slope; dsimp only; rw [sub_self, zero_div]
  have hiv : ∀ i, tableIv (fun _ => (1 : ℝ) - 1 / 2 ^ 21) 1 1 6 5 21 i = 1 - 1 / 2 ^ 21 := by
    intro i
    unfold tableIv
    dsimp only
    rw [hs, mul_zero, sub_zero, show (1 : ℝ) - 1 / 2 ^ 21 = ((2 ^ 21 - 1 : ℤ) : ℝ) / 2 ^ 21 by push_cast; norm_num]
    exact rn_int 21 _
  have hoff : ∀ i, tableOffset (fun _ => (1 : ℝ) - 1 / 2 ^ 21) 1 1 6 5 5 16 i = 0 := by
    intro i
    unfold tableOffset
    dsimp only
    rw [hs, zero_mul, zero_mul]
    split_ifs
    · rfl
    · have := rn_int 16 0
      simpa using this
  constructor
  · unfold reported
    simp only [hiv, hoff, zero_add, sub_self, abs_zero]
    refine foldl_zero _ (fun i => ?_) _
    refine foldl_zero _ (fun j => ?_) _
    refine foldl_zero _ (fun k => ?_) _
    exact max_self 0
  · unfold output approx
    rw [hiv, hoff, add_zero]
    have : ⌊(2 : ℝ) ^ 15 * (1 - 1 / 2 ^ 21)⌋ = 2 ^ 15 - 1 := by
      rw [Int.floor_eq_iff]; push_cast; constructor <;> norm_num
    rw [this]
    push_cast
    rw [abs_of_neg (by norm_num)]
    norm_num

/-- the hypotheses are met by the reciprocal on [1, 2], the default of the block: the second derivative is at most 2 -/
example : Smooth (fun x => x⁻¹) (fun x => -(x ^ 2)⁻¹) 1 1 2 := by
  refine ⟨fun x hx => hasDerivAt_inv (by linarith [hx.1] : x ≠ 0), ?_⟩
  intro x hx y hy
  obtain ⟨x1, x2⟩ := hx
  obtain ⟨y1, y2⟩ := hy
  have hxp : 0 < x := by linarith
  have hyp : 0 < y := by linarith
  have e : -(x ^ 2)⁻¹ - -(y ^ 2)⁻¹ = (x - y) * ((x + y) / (x ^ 2 * y ^ 2)) := by field_simp; ring
  rw [e, abs_mul, mul_comm]
  apply mul_le_mul_of_nonneg_right _ (abs_nonneg _)
  rw [abs_of_pos (by positivity), div_le_iff₀ (by positivity)]
  have h1 : x ≤ x ^ 2 * y ^ 2 := by
    have : 1 ≤ x * y ^ 2 := by nlinarith
    nlinarith
  have h2 : y ≤ x ^ 2 * y ^ 2 := by
    have : 1 ≤ y * x ^ 2 := by nlinarith
    nlinarith
  linarith

end Verif.Bipart
