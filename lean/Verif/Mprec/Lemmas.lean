import Verif.Mprec.Model
import Verif.Blocks.Dekker
import Verif.Blocks.Exist
import Verif.Blocks.Limbs
import Mathlib.Data.Nat.Factorization.Basic

/-! Lemmas: a format with gradual underflow rounds the multiples of its smallest number as if the
exponent were unbounded. -/

namespace Verif.Mprec

open Verif.Blocks

theorem mult_of_rep {p : ℕ} {q : ℤ} {x : ℚ} (h : Rep p (q : WithBot ℤ) x) : MultipleOf q x := by
  obtain ⟨m, e, -, he, rfl⟩ := h
  obtain ⟨k, hk⟩ := Int.eq_ofNat_of_zero_le (show 0 ≤ e - q by have := WithBot.coe_le_coe.1 he; omega)
  refine ⟨m * 2 ^ k, ?_⟩
  rw [show e = (k : ℤ) + q by omega, zpow_add₀ (by norm_num), zpow_natCast]
  push_cast; ring

theorem mult_mono {e f : ℤ} (h : e ≤ f) {x : ℚ} (hx : MultipleOf f x) : MultipleOf e x := by
  obtain ⟨n, rfl⟩ := hx
  obtain ⟨k, hk⟩ := Int.eq_ofNat_of_zero_le (show 0 ≤ f - e by omega)
  refine ⟨n * 2 ^ k, ?_⟩
  rw [show f = (k : ℤ) + e by omega, zpow_add₀ (by norm_num), zpow_natCast]
  push_cast; ring

theorem mult_add {e : ℤ} {x y : ℚ} (hx : MultipleOf e x) (hy : MultipleOf e y) : MultipleOf e (x + y) := by
  obtain ⟨n, rfl⟩ := hx
  obtain ⟨m, rfl⟩ := hy
  exact ⟨n + m, by push_cast; ring⟩

theorem mult_neg {e : ℤ} {x : ℚ} (hx : MultipleOf e x) : MultipleOf e (-x) := by
  obtain ⟨n, rfl⟩ := hx
  exact ⟨-n, by push_cast; ring⟩

theorem mult_sub {e : ℤ} {x y : ℚ} (hx : MultipleOf e x) (hy : MultipleOf e y) : MultipleOf e (x - y) := by
  rw [sub_eq_add_neg]; exact mult_add hx (mult_neg hy)

theorem mult_int {e : ℤ} {x : ℚ} (c : ℤ) (hx : MultipleOf e x) : MultipleOf e (c * x) := by
  obtain ⟨n, rfl⟩ := hx
  exact ⟨c * n, by push_cast; ring⟩

theorem mult_mul {e f : ℤ} {x y : ℚ} (hx : MultipleOf e x) (hy : MultipleOf f y) :
    MultipleOf (e + f) (x * y) := by
  obtain ⟨n, rfl⟩ := hx
  obtain ⟨m, rfl⟩ := hy
  exact ⟨n * m, by rw [zpow_add₀ (by norm_num)]; push_cast; ring⟩

theorem mult_rnd {p : ℕ} (hp : 1 ≤ p) {q : WithBot ℤ} {rnd : ℚ → ℚ} (hr : Nearest p q rnd) {e : ℤ}
    (he : q ≤ (e : WithBot ℤ)) {x : ℚ} (hx : MultipleOf e x) : MultipleOf e (rnd x) := by
  obtain ⟨n, rfl⟩ := hx
  obtain ⟨r, -, h⟩ := lift hp hr he
  exact ⟨r n, h n⟩

theorem rep_bot {p : ℕ} {q : WithBot ℤ} {x : ℚ} (h : Rep p q x) : Rep p ⊥ x := by
  obtain ⟨m, e, hm, -, rfl⟩ := h
  exact ⟨m, e, hm, bot_le, rfl⟩

/-- a number of the unbounded format that is a whole number of `2^q` is a number of the bounded one -/
theorem rep_of_mult {p : ℕ} {q : ℤ} {x : ℚ} (h : Rep p ⊥ x) (hm : MultipleOf q x) :
    Rep p (q : WithBot ℤ) x := by
  obtain ⟨m, e, hb, -, rfl⟩ := h
  rcases le_or_gt q e with he | he
  · exact ⟨m, e, hb, WithBot.coe_le_coe.2 he, rfl⟩
  · obtain ⟨n, hn⟩ := hm
    refine ⟨n, q, ?_, le_refl _, hn⟩
    have h1 : |(n:ℚ)| * 2 ^ q < 2 ^ p * 2 ^ q := by
      have : |(n:ℚ)| * 2 ^ q = |(m:ℚ)| * 2 ^ e := by
        rw [← abs_of_pos (zpow2_pos q), ← abs_mul, ← hn, abs_mul, abs_of_pos (zpow2_pos e)]
      rw [this]
      have hb' : |(m:ℚ)| < 2 ^ p := by exact_mod_cast hb
      have h2 : (2:ℚ) ^ e ≤ 2 ^ q := zpow_le_zpow_right₀ (by norm_num) he.le
      exact mul_lt_mul_of_lt_of_le_of_nonneg_of_pos hb' h2 (abs_nonneg _) (zpow2_pos q)
    have h3 := lt_of_mul_lt_mul_right h1 (zpow2_pos q).le
    exact_mod_cast h3

theorem extend {p : ℕ} (hp : 1 ≤ p) {q : ℤ} {rnd : ℚ → ℚ} (hr : Nearest p (q : WithBot ℤ) rnd) :
    ∃ rnd' : ℚ → ℚ, Nearest p ⊥ rnd' ∧ ∀ x, MultipleOf q x → rnd' x = rnd x := by
  classical
  refine ⟨fun x => if MultipleOf q x then rnd x else roundNearest p ⊥ x, ?_, fun x hx => if_pos hx⟩
  intro x
  by_cases hx : MultipleOf q x
  · simp only [if_pos hx]
    refine ⟨rep_bot (hr x).1, fun y hy => ?_⟩
    obtain ⟨m, e, hm, -, rfl⟩ := hy
    rcases le_or_gt q e with he | he
    · exact (hr x).2 _ ⟨m, e, hm, WithBot.coe_le_coe.2 he, rfl⟩
    obtain ⟨n, rfl⟩ := hx
    have hm' : |(m:ℚ)| < 2 ^ p := by exact_mod_cast hm
    have hy1 : |(m:ℚ) * 2 ^ e| < 2 ^ p * 2 ^ q := by
      rw [abs_mul, abs_of_pos (zpow2_pos e)]
      exact mul_lt_mul_of_lt_of_le_of_nonneg_of_pos hm'
        (zpow_le_zpow_right₀ (by norm_num) he.le) (abs_nonneg _) (zpow2_pos q)
    by_cases hn : |n| ≤ 2 ^ p
    · have hR : Rep p (q : WithBot ℤ) ((n:ℚ) * 2 ^ q) := Rep_of_FI hp (le_refl _) ⟨n, 0, hn, by simp⟩
      rw [rnd_exact hr hR, sub_self, abs_zero]; exact abs_nonneg _
    · have hn' : (2:ℚ) ^ p < |(n:ℚ)| := by exact_mod_cast not_le.1 hn
      have hP : (0:ℚ) < 2 ^ p * 2 ^ q := mul_pos (by positivity) (zpow2_pos q)
      have hx1 : (2:ℚ) ^ p * 2 ^ q < |(n:ℚ) * 2 ^ q| := by
        rw [abs_mul, abs_of_pos (zpow2_pos q)]
        exact mul_lt_mul_of_pos_right hn' (zpow2_pos q)
      have hz : Rep p (q : WithBot ℤ) ((2:ℚ) ^ p * 2 ^ q) := by
        have := Rep_of_FI (n := 2 ^ p) hp (le_refl (q : WithBot ℤ)) ⟨2 ^ p, 0, by rw [abs_of_pos (by positivity)], by simp⟩
        simpa using this
      have k1 := (hr ((n:ℚ) * 2 ^ q)).2 _ hz
      have k2 := (hr ((n:ℚ) * 2 ^ q)).2 _ (Rep_neg hz)
      generalize (n:ℚ) * 2 ^ q = X at *
      generalize (m:ℚ) * 2 ^ e = Y at *
      generalize (2:ℚ) ^ p * 2 ^ q = Z at *
      obtain ⟨y1, y2⟩ := abs_lt.1 hy1
      rcases le_or_gt 0 X with h0 | h0
      · rw [abs_of_nonneg h0] at hx1
        rw [abs_of_pos (by linarith : 0 < X - Z)] at k1
        refine k1.trans ?_
        rw [abs_of_pos (by linarith : 0 < X - Y)]; linarith
      · rw [abs_of_neg h0] at hx1
        rw [abs_of_neg (by linarith : X - -Z < 0)] at k2
        refine k2.trans ?_
        rw [abs_of_neg (by linarith : X - Y < 0)]; linarith
  · simp only [if_neg hx]
    exact roundNearest_nearest hp ⊥ x

theorem unit_rel {p : ℕ} (hp : 1 ≤ p) {q : ℤ} {rnd : ℚ → ℚ} (hr : Nearest p (q : WithBot ℤ) rnd) {x : ℚ}
    (hx : MultipleOf q x) :
    |x - rnd x| ≤ (2:ℚ) ^ (-(p:ℤ)) * |x| ∧ |x - rnd x| ≤ (2:ℚ) ^ (-(p:ℤ)) * |rnd x| := by
  obtain ⟨r', h1, h2⟩ := extend hp hr
  rw [← h2 x hx]
  exact rnd_rel hp h1 x

/-! ## the functions are those of `Verif/Blocks` -/

theorem splitConst_eq : splitConst = 2 ^ 27 + 1 := by norm_num [splitConst]

theorem splitD_eq (rnd : ℚ → ℚ) (x : ℚ) : splitD rnd x = split rnd (2 ^ 27 + 1) x := by
  simp only [splitD, split, splitConst_eq]
  rw [add_comm (rnd ((2 ^ 27 + 1) * x))]

theorem splitS_eq (rnd : ℚ → ℚ) (x : ℚ) : splitS rnd x = split rnd (2 ^ 12 + 1) x := by
  simp only [splitS, split]
  rw [show (2:ℚ) ^ 12 + 1 = 4097 by norm_num, add_comm (rnd (4097 * x))]

theorem multD_eq (rnd : ℚ → ℚ) (x y : ℚ) : multD rnd x y = mul211NoFma rnd (2 ^ 27 + 1) x y := by
  simp only [multD, mul211NoFma, splitD_eq]
  rw [show ∀ a b : ℚ, -a + b = b - a from fun a b => by ring]

theorem addD_eq (rnd : ℚ → ℚ) (x y : ℚ) : addD rnd x y = twoSum rnd x y := rfl

theorem addFast_eq (rnd : ℚ → ℚ) (x y : ℚ) : addFast rnd x y = fastTwoSum rnd x y := rfl

theorem split_agree {p : ℕ} (hp : 1 ≤ p) {q : ℤ} {rnd rnd' : ℚ → ℚ} (hr : Nearest p (q : WithBot ℤ) rnd)
    (h : ∀ x, MultipleOf q x → rnd' x = rnd x) (c : ℤ) {e : ℤ} (he : q ≤ e) {x : ℚ} (hx : MultipleOf e x) :
    split rnd' c x = split rnd c x ∧ MultipleOf e (split rnd c x).1 ∧ MultipleOf e (split rnd c x).2 := by
  have H : ∀ {x}, MultipleOf e x → rnd' x = rnd x := fun hx => h _ (mult_mono he hx)
  have R : ∀ {x}, MultipleOf e x → MultipleOf e (rnd x) := fun hx => mult_rnd hp hr (WithBot.coe_le_coe.2 he) hx
  have a1 := mult_int c hx
  have a2 := mult_sub hx (R a1)
  have a3 := mult_add (R a2) (R a1)
  have a4 := mult_sub hx (R a3)
  refine ⟨?_, R a3, R a4⟩
  simp only [split]
  rw [H a1, H a2, H a3, H a4]

theorem mul_agree {p : ℕ} (hp : 1 ≤ p) {q : ℤ} {rnd rnd' : ℚ → ℚ} (hr : Nearest p (q : WithBot ℤ) rnd)
    (h : ∀ x, MultipleOf q x → rnd' x = rnd x) (c : ℤ) {e f : ℤ} (he : q ≤ e) (hf : q ≤ f) (hef : q ≤ e + f)
    {x y : ℚ} (hx : MultipleOf e x) (hy : MultipleOf f y) :
    mul211NoFma rnd' c x y = mul211NoFma rnd c x y ∧ MultipleOf q (mul211NoFma rnd c x y).1 ∧
      MultipleOf q (mul211NoFma rnd c x y).2 := by
  obtain ⟨s1, s2, s3⟩ := split_agree hp hr h c he hx
  obtain ⟨u1, u2, u3⟩ := split_agree hp hr h c hf hy
  have H : ∀ {x}, MultipleOf q x → rnd' x = rnd x := fun hx => h _ hx
  have R : ∀ {x}, MultipleOf q x → MultipleOf q (rnd x) := fun hx => mult_rnd hp hr (le_refl _) hx
  have m0 := mult_mono hef (mult_mul hx hy)
  have m1 := mult_mono hef (mult_mul s2 u2)
  have m2 := mult_sub (R m1) (R m0)
  have m3 := mult_mono hef (mult_mul s2 u3)
  have m4 := mult_mono hef (mult_mul s3 u2)
  have m5 := mult_mono hef (mult_mul s3 u3)
  have m6 := mult_add (R m2) (R m3)
  have m7 := mult_add (R m6) (R m4)
  have m8 := mult_add (R m7) (R m5)
  refine ⟨?_, R m0, R m8⟩
  simp only [mul211NoFma]
  rw [s1, u1, H m0, H m1, H m2, H m3, H m4, H m5, H m6, H m7, H m8]

theorem addD_agree {p : ℕ} (hp : 1 ≤ p) {q : ℤ} {rnd rnd' : ℚ → ℚ} (hr : Nearest p (q : WithBot ℤ) rnd)
    (h : ∀ x, MultipleOf q x → rnd' x = rnd x) {x y : ℚ} (hx : MultipleOf q x) (hy : MultipleOf q y) :
    addD rnd' x y = addD rnd x y ∧ MultipleOf q (addD rnd x y).1 ∧ MultipleOf q (addD rnd x y).2 := by
  have H : ∀ {x}, MultipleOf q x → rnd' x = rnd x := fun hx => h _ hx
  have R : ∀ {x}, MultipleOf q x → MultipleOf q (rnd x) := fun hx => mult_rnd hp hr (le_refl _) hx
  have a1 := mult_add hx hy
  have a2 := mult_sub (R a1) hy
  have a3 := mult_sub (R a1) (R a2)
  have a4 := mult_sub hx (R a2)
  have a5 := mult_sub hy (R a3)
  have a6 := mult_add (R a4) (R a5)
  refine ⟨?_, R a1, R a6⟩
  simp only [addD]
  rw [H a1, H a2, H a3, H a4, H a5, H a6]

theorem addDDD_agree {p : ℕ} (hp : 1 ≤ p) {q : ℤ} {rnd rnd' : ℚ → ℚ} (hr : Nearest p (q : WithBot ℤ) rnd)
    (h : ∀ x, MultipleOf q x → rnd' x = rnd x) {x : ℚ} {y : ℚ × ℚ} (hx : MultipleOf q x)
    (hy : MultipleOf q y.1) (hy2 : MultipleOf q y.2) :
    addDDD rnd' x y = addDDD rnd x y ∧ MultipleOf q (addDDD rnd x y).1 ∧ MultipleOf q (addDDD rnd x y).2 := by
  have R : ∀ {x}, MultipleOf q x → MultipleOf q (rnd x) := fun hx => mult_rnd hp hr (le_refl _) hx
  obtain ⟨a1, a2, a3⟩ := addD_agree hp hr h hx hy
  have a4 := mult_add a3 hy2
  obtain ⟨b1, b2, b3⟩ := addD_agree hp hr h a2 (R a4)
  refine ⟨?_, b2, b3⟩
  simp only [addDDD]
  rw [a1, h _ a4, b1]

/-! ## sums -/

theorem addDDD_spec {p : ℕ} (hp : 3 ≤ p) {q : WithBot ℤ} {rnd : ℚ → ℚ} (hr : Nearest p q rnd)
    {x yh yl : ℚ} (hx : Rep p q x) (hy : Limbs2 p q yh yl) :
    Approx (localAdd221 p) (x + (yh + yl)) ((addDDD rnd x (yh, yl)).1 + (addDDD rnd x (yh, yl)).2) ∧
      rnd ((addDDD rnd x (yh, yl)).1 + (addDDD rnd x (yh, yl)).2) = (addDDD rnd x (yh, yl)).1 ∧
      Rep p q (addDDD rnd x (yh, yl)).1 ∧ Rep p q (addDDD rnd x (yh, yl)).2 := by
  have hp1 : 1 ≤ p := by omega
  obtain ⟨hyh, hyl, hl⟩ := hy
  obtain ⟨t1, t2, t3⟩ := C46_twosum hp hr hx hyh
  have hF := C46_twosum hp hr (x := (twoSum rnd x yh).1) (y := rnd ((twoSum rnd x yh).2 + yl))
    (by rw [t1]; exact (hr _).1) (hr _).1
  have hd : addDDD rnd x (yh, yl) = twoSum rnd (twoSum rnd x yh).1 (rnd ((twoSum rnd x yh).2 + yl)) := rfl
  rw [← hd] at hF
  obtain ⟨f1, f2, f3⟩ := hF
  refine ⟨?_, by rw [f3, f1], by rw [f1]; exact (hr _).1, f2⟩
  rw [f3]
  clear hd f1 f2 f3
  obtain ⟨e0, a, b, c, hq, ha, hb, hc, rfl, rfl, rfl⟩ := three_units hx hyh hyl
  obtain ⟨ri, hri, hrr⟩ := lift hp1 hr hq
  have hcore := core212 hp hri ha hb hc (limb_int hl)
  dsimp only at hcore
  obtain ⟨s, hs⟩ : ∃ s, s = ri (a + b) := ⟨_, rfl⟩
  rw [← hs] at hcore
  have es : (twoSum rnd ((a:ℚ) * 2 ^ e0) (b * 2 ^ e0)).1 = (s:ℚ) * 2 ^ e0 := by
    rw [t1, hs, ← hrr]; congr 1; push_cast; ring
  have ee : (twoSum rnd ((a:ℚ) * 2 ^ e0) (b * 2 ^ e0)).2 = ((a + b - s : ℤ):ℚ) * 2 ^ e0 := by
    rw [es] at t3; push_cast; linarith
  obtain ⟨w, hw⟩ : ∃ w, w = a + b - s + c := ⟨_, rfl⟩
  rw [← hw] at hcore
  have ew : rnd ((twoSum rnd ((a:ℚ) * 2 ^ e0) (b * 2 ^ e0)).2 + (c:ℚ) * 2 ^ e0)
      = (ri w : ℚ) * 2 ^ e0 := by
    rw [ee, ← hrr w, hw, ← add_mul]; push_cast; rfl
  rw [es, ew]
  unfold Approx localAdd221
  have h2 := scale_err (p := p) (K := 8) (w := w - ri w) (v := a + b + c) (e0 := e0) (k := 3)
    (by norm_num) hcore.2
  rw [← abs_neg] at h2
  convert h2 using 2
  · rw [hw]; push_cast; ring
  · congr 1; push_cast; ring

/-- a sum that is no larger than its operands needs no rounding -/
theorem rep_of_cancel {p : ℕ} {q : WithBot ℤ} {x y : ℚ} (hx : Rep p q x) (hy : Rep p q y)
    (h1 : |x + y| ≤ |x|) (h2 : |x + y| ≤ |y|) : Rep p q (x + y) := by
  have key : ∀ {m n e f : ℤ}, |m| < 2 ^ p → q ≤ (e : WithBot ℤ) → e ≤ f →
      |(m:ℚ) * 2 ^ e + (n:ℚ) * 2 ^ f| ≤ |(m:ℚ) * 2 ^ e| → Rep p q ((m:ℚ) * 2 ^ e + (n:ℚ) * 2 ^ f) := by
    intro m n e f hm hq hef hle
    obtain ⟨k, hk⟩ := Int.eq_ofNat_of_zero_le (show 0 ≤ f - e by omega)
    have hs : (m:ℚ) * 2 ^ e + (n:ℚ) * 2 ^ f = ((m + n * 2 ^ k : ℤ) : ℚ) * 2 ^ e := by
      rw [show f = (k : ℤ) + e by omega, zpow_add₀ (by norm_num), zpow_natCast]
      push_cast; ring
    rw [hs] at hle ⊢
    exact ⟨_, e, lt_of_le_of_lt (abs_le_scale.1 hle) hm, hq, rfl⟩
  obtain ⟨m, e, hm, he, rfl⟩ := hx
  obtain ⟨n, f, hn, hf, rfl⟩ := hy
  rcases le_total e f with h | h
  · exact key hm he h h1
  · rw [add_comm] at h2 ⊢
    exact key hn hf h h2

theorem twoSum_limbs {p : ℕ} (hp : 3 ≤ p) {q : ℤ} {rnd : ℚ → ℚ} (hr : Nearest p (q : WithBot ℤ) rnd) {x y : ℚ}
    (hx : Rep p (q : WithBot ℤ) x) (hy : Rep p (q : WithBot ℤ) y) :
    Limbs2 p (q : WithBot ℤ) (addD rnd x y).1 (addD rnd x y).2 := by
  obtain ⟨t1, t2, t3⟩ := C46_twosum hp hr hx hy
  rw [← addD_eq] at t1 t2 t3
  refine ⟨by rw [t1]; exact (hr _).1, t2, ?_⟩
  have := (unit_rel (by omega) hr (mult_add (mult_of_rep hx) (mult_of_rep hy))).2
  rw [← t1] at this
  rwa [show x + y - (addD rnd x y).1 = (addD rnd x y).2 by linarith] at this

theorem addDDD_limbs {p : ℕ} (hp : 3 ≤ p) {q : ℤ} {rnd : ℚ → ℚ} (hr : Nearest p (q : WithBot ℤ) rnd) {x yh yl : ℚ}
    (hx : Rep p (q : WithBot ℤ) x) (hy : Rep p (q : WithBot ℤ) yh) :
    Limbs2 p (q : WithBot ℤ) (addDDD rnd x (yh, yl)).1 (addDDD rnd x (yh, yl)).2 := by
  refine twoSum_limbs hp hr ?_ (hr _).1
  exact (hr _).1

/-- adding a pair whose low part is zero is exact -/
theorem addDDD_zero {p : ℕ} (hp : 3 ≤ p) {q : WithBot ℤ} {rnd : ℚ → ℚ} (hr : Nearest p q rnd) {x y : ℚ}
    (hx : Rep p q x) (hy : Rep p q y) :
    (addDDD rnd x (y, 0)).1 + (addDDD rnd x (y, 0)).2 = x + y := by
  obtain ⟨t1, t2, t3⟩ := C46_twosum hp hr hx hy
  have h := C46_twosum hp hr (x := (twoSum rnd x y).1) (y := (twoSum rnd x y).2) (by rw [t1]; exact (hr _).1) t2
  have hd : addDDD rnd x (y, 0) = twoSum rnd (twoSum rnd x y).1 (twoSum rnd x y).2 := by
    show twoSum rnd (twoSum rnd x y).1 (rnd ((twoSum rnd x y).2 + 0)) = _
    rw [add_zero, rnd_exact hr t2]
  rw [hd, h.2.2, t3]

theorem addPairs_bound {A M v e1 e2 xl yl s ε u : ℚ} (hu : u ≤ 1 / 64) (hu0 : 0 ≤ u) (hε : ε ≤ 1 / 64) (hε0 : 0 ≤ ε)
    (hA : A = |s|) (hM : M ≤ 2 * A) (hxl : |xl| ≤ u * M) (hyl : |yl| ≤ u * M) (hv : v = s + xl + yl)
    (h1 : |e1| ≤ ε * |s + xl|) (h2 : |e2| ≤ ε * |v + e1|) : |e1 + e2| ≤ 3 * ε * |v| := by
  have hA0 : 0 ≤ A := hA ▸ abs_nonneg _
  have huM : u * M ≤ A / 32 := by nlinarith
  have a1 : |s + xl| ≤ A + A / 32 := (abs_add_le _ _).trans (by rw [← hA]; linarith)
  have a2 : A ≤ |v| + A / 32 + A / 32 := by
    rw [hA]
    have : s = v + (-xl) + (-yl) := by rw [hv]; ring
    calc |s| = |v + (-xl) + (-yl)| := by rw [← this]
      _ ≤ |v| + |(-xl)| + |(-yl)| := abs_add_three _ _ _
      _ ≤ _ := by rw [abs_neg, abs_neg, ← hA]; linarith
  have a3 : |s + xl| ≤ 11 / 10 * |v| := by linarith
  have a4 : |e1| ≤ ε * (11 / 10 * |v|) := h1.trans (mul_le_mul_of_nonneg_left a3 hε0)
  have a5 : ε * |v| ≤ 1 / 64 * |v| := mul_le_mul_of_nonneg_right hε (abs_nonneg _)
  have a6 : |v + e1| ≤ 11 / 10 * |v| := (abs_add_le _ _).trans (by nlinarith [abs_nonneg v])
  have a7 : |e2| ≤ ε * (11 / 10 * |v|) := h2.trans (mul_le_mul_of_nonneg_left a6 hε0)
  have := abs_add_le e1 e2
  have hp : 0 ≤ ε * |v| := mul_nonneg hε0 (abs_nonneg _)
  nlinarith

theorem addPairs_spec {p : ℕ} (hp : 6 ≤ p) {q : ℤ} {rnd : ℚ → ℚ} (hr : Nearest p (q : WithBot ℤ) rnd)
    {xh xl yh yl : ℚ} (hx : Limbs2 p (q : WithBot ℤ) xh xl) (hy : Limbs2 p (q : WithBot ℤ) yh yl) :
    Approx (3 * localAdd221 p) ((xh + xl) + (yh + yl))
      ((addPairs rnd (xh, xl) (yh, yl)).1 + (addPairs rnd (xh, xl) (yh, yl)).2) ∧
    Limbs2 p (q : WithBot ℤ) (addPairs rnd (xh, xl) (yh, yl)).1 (addPairs rnd (xh, xl) (yh, yl)).2 := by
  have hp3 : 3 ≤ p := by omega
  obtain ⟨hxh, hxl, hxb⟩ := hx
  obtain ⟨hyh, hyl, hyb⟩ := hy
  have T := C46_twosum hp3 hr hxh hyh
  rw [← addD_eq] at T
  obtain ⟨t1, t2, t3⟩ := T
  have L1 := twoSum_limbs hp3 hr hxh hyh
  have S2 := addDDD_spec hp3 hr hxl L1
  have L2 := addDDD_limbs (yl := (addD rnd xh yh).2) hp3 hr hxl L1.1
  have S3 := addDDD_spec hp3 hr hyl L2
  have L3 := addDDD_limbs (yl := (addDDD rnd xl (addD rnd xh yh)).2) hp3 hr hyl L2.1
  refine ⟨?_, L3⟩
  have hd : addPairs rnd (xh, xl) (yh, yl) = addDDD rnd yl (addDDD rnd xl (addD rnd xh yh)) := rfl
  rw [hd]
  have hu : (2:ℚ) ^ (-(p:ℤ)) ≤ 1 / 64 := by
    calc (2:ℚ) ^ (-(p:ℤ)) ≤ 2 ^ (-6:ℤ) := zpow_le_zpow_right₀ (by norm_num) (by omega)
      _ = 1 / 64 := by norm_num
  have hε : localAdd221 p ≤ 1 / 64 := by
    unfold localAdd221
    calc (2:ℚ) ^ (-((p:ℤ) * 2 - 3)) ≤ 2 ^ (-6:ℤ) := zpow_le_zpow_right₀ (by norm_num) (by omega)
      _ = 1 / 64 := by norm_num
  have hu0 := (zpow2_pos (-(p:ℤ))).le
  have hε0 : 0 ≤ localAdd221 p := (zpow2_pos _).le
  have S2' := S2.1
  have S3' := S3.1
  by_cases hz : Rep p (q : WithBot ℤ) (xh + yh)
  · -- the first sum is exact
    have h1 : addD rnd xh yh = (xh + yh, 0) := by
      have e1 : (addD rnd xh yh).1 = xh + yh := t1.trans (rnd_exact hr hz)
      refine Prod.ext e1 ?_
      rw [e1] at t3; simpa using t3
    have h2 := addDDD_zero hp3 hr hxl hz
    rw [h1] at S3' ⊢
    unfold Approx at S3' ⊢
    rw [h2] at S3'
    rw [show xh + xl + (yh + yl) = yl + (xl + (xh + yh)) by ring]
    refine S3'.trans ?_
    have := mul_nonneg hε0 (abs_nonneg (yl + (xl + (xh + yh))))
    linarith
  · have hM : max |xh| |yh| ≤ 2 * |xh + yh| := by
      by_contra hc
      refine hz (rep_of_cancel hxh hyh ?_ ?_)
      · have := abs_sub_abs_le_abs_sub yh (-xh)
        rw [abs_neg, sub_neg_eq_add, add_comm yh] at this
        rcases max_cases |xh| |yh| with ⟨h, _⟩ | ⟨h, _⟩ <;> rw [h] at hc <;> linarith [abs_nonneg (xh + yh)]
      · have := abs_sub_abs_le_abs_sub xh (-yh)
        rw [abs_neg, sub_neg_eq_add] at this
        rcases max_cases |xh| |yh| with ⟨h, _⟩ | ⟨h, _⟩ <;> rw [h] at hc <;> linarith [abs_nonneg (xh + yh)]
    unfold Approx at S2' S3' ⊢
    rw [t3] at S2'
    obtain ⟨P, hP⟩ : ∃ P, P = (addDDD rnd xl (addD rnd xh yh)).1 + (addDDD rnd xl (addD rnd xh yh)).2 := ⟨_, rfl⟩
    change |(addDDD rnd xl (addD rnd xh yh)).1 + (addDDD rnd xl (addD rnd xh yh)).2 - _| ≤ _ at S2'
    change |(addDDD rnd yl (addDDD rnd xl (addD rnd xh yh))).1 +
      (addDDD rnd yl (addDDD rnd xl (addD rnd xh yh))).2 - _| ≤ _ at S3'
    rw [← hP] at S2' S3'
    generalize (addDDD rnd yl (addDDD rnd xl (addD rnd xh yh))).1 +
      (addDDD rnd yl (addDDD rnd xl (addD rnd xh yh))).2 = Q at S3' ⊢
    have key := addPairs_bound (A := |xh + yh|) (M := max |xh| |yh|) (v := xh + xl + (yh + yl))
      (e1 := P - (xl + (xh + yh))) (e2 := Q - (yl + P)) (xl := xl) (yl := yl) (s := xh + yh) hu hu0 hε hε0 rfl hM
      (hxb.trans (mul_le_mul_of_nonneg_left (le_max_left _ _) hu0))
      (hyb.trans (mul_le_mul_of_nonneg_left (le_max_right _ _) hu0)) (by ring)
      (by rw [add_comm (xh + yh) xl]; exact S2')
      (by rw [show xh + xl + (yh + yl) + (P - (xl + (xh + yh))) = yl + P by ring]; exact S3')
    rwa [show P - (xl + (xh + yh)) + (Q - (yl + P)) = Q - (xh + xl + (yh + yl)) by ring] at key

/-! ## products -/

theorem odd_form {p : ℕ} {q : ℤ} {x : ℚ} (hx : Rep p (q : WithBot ℤ) x) (h0 : x ≠ 0) :
    ∃ m e : ℤ, Odd m ∧ q ≤ e ∧ x = m * 2 ^ e := by
  obtain ⟨m, e, -, he, rfl⟩ := hx
  have hm0 : m.natAbs ≠ 0 := by
    intro h; rw [Int.natAbs_eq_zero] at h; subst h; simp at h0
  obtain ⟨k, n, hn, hk⟩ := Nat.exists_eq_two_pow_mul_odd hm0
  have hq := WithBot.coe_le_coe.1 he
  rcases Int.natAbs_eq m with h | h
  · refine ⟨n, e + k, by exact_mod_cast hn, by omega, ?_⟩
    rw [h, hk, zpow_add₀ (by norm_num), zpow_natCast]; push_cast; ring
  · refine ⟨-n, e + k, (Int.odd_coe_nat n |>.2 hn).neg, by omega, ?_⟩
    rw [h, hk, zpow_add₀ (by norm_num), zpow_natCast]; push_cast; ring

theorem exps_of_prod {q e f m n : ℤ} (hm : Odd m) (hn : Odd n)
    (h : MultipleOf q (((m:ℚ) * 2 ^ e) * (n * 2 ^ f))) : q ≤ e + f := by
  by_contra hc
  obtain ⟨k, hk⟩ := h
  obtain ⟨j, hj⟩ := Int.eq_ofNat_of_zero_le (show 0 ≤ q - (e + f) - 1 by omega)
  have hpos := zpow2_pos (e + f)
  have h1 : ((m * n : ℤ) : ℚ) * 2 ^ (e + f) = ((k * 2 ^ (j + 1) : ℤ) : ℚ) * 2 ^ (e + f) := by
    rw [show ((m * n : ℤ) : ℚ) * 2 ^ (e + f) = ((m:ℚ) * 2 ^ e) * (n * 2 ^ f) by
      rw [zpow_add₀ (by norm_num)]; push_cast; ring, hk, show q = ((j + 1 : ℕ) : ℤ) + (e + f) by push_cast; omega,
      zpow_add₀ (by norm_num) _ (e + f), zpow_natCast]
    push_cast; ring
  have h2 := mul_right_cancel₀ hpos.ne' h1
  have h3 : m * n = k * 2 ^ (j + 1) := by exact_mod_cast h2
  have h4 : Odd (m * n) := hm.mul hn
  rw [h3, pow_succ, ← mul_assoc] at h4
  exact (Int.not_even_iff_odd.2 h4) (even_two.mul_left _)

theorem mult_spec {p s : ℕ} (hs2 : p ≤ 2 * s) (hs3 : 2 * s ≤ p + 1) (hp : 4 ≤ p) {q : ℤ} {rnd : ℚ → ℚ}
    (hr : Nearest p (q : WithBot ℤ) rnd) {x y : ℚ} (hx : Rep p (q : WithBot ℤ) x) (hy : Rep p (q : WithBot ℤ) y)
    (hxy : MultipleOf q (x * y)) :
    ErrorFreeProd p (q : WithBot ℤ) rnd x y (mul211NoFma rnd (2 ^ s + 1) x y) := by
  have hp1 : 1 ≤ p := by omega
  obtain ⟨rnd', h1, h2⟩ := extend hp1 hr
  have hU := C64_mul211_nofma_unbounded hs2 hs3 hp h1 (rep_bot hx) (rep_bot hy)
  have hA : mul211NoFma rnd' (2 ^ s + 1) x y = mul211NoFma rnd (2 ^ s + 1) x y ∧
      MultipleOf q (mul211NoFma rnd (2 ^ s + 1) x y).2 := by
    have hc : ((2 ^ s + 1 : ℤ) : ℚ) = 2 ^ s + 1 := by push_cast; ring
    have fin : ∀ {e f : ℤ}, q ≤ e → q ≤ f → q ≤ e + f → MultipleOf e x → MultipleOf f y → _ :=
      fun he hf hef mx my => mul_agree hp1 hr h2 (2 ^ s + 1) he hf hef mx my
    rw [hc] at fin
    have Z : ∀ e : ℤ, MultipleOf e 0 := fun e => ⟨0, by simp⟩
    by_cases hx0 : x = 0
    · have := fin (e := max q 0) (f := max q 0) (le_max_left _ _) (le_max_left _ _) (by
        rcases max_cases q 0 with ⟨h, _⟩ | ⟨h, _⟩ <;> rw [h] <;> omega)
      by_cases hq : 0 ≤ q
      · have := fin (e := q) (f := q) le_rfl le_rfl (by omega) (by rw [hx0]; exact Z _) (mult_of_rep hy)
        exact ⟨this.1, this.2.2⟩
      · have := fin (e := 0) (f := q) (by omega) le_rfl (by omega) (by rw [hx0]; exact Z _) (mult_of_rep hy)
        exact ⟨this.1, this.2.2⟩
    by_cases hy0 : y = 0
    · by_cases hq : 0 ≤ q
      · have := fin (e := q) (f := q) le_rfl le_rfl (by omega) (mult_of_rep hx) (by rw [hy0]; exact Z _)
        exact ⟨this.1, this.2.2⟩
      · have := fin (e := q) (f := 0) le_rfl (by omega) (by omega) (mult_of_rep hx) (by rw [hy0]; exact Z _)
        exact ⟨this.1, this.2.2⟩
    obtain ⟨m, e, om, he, ex⟩ := odd_form hx hx0
    obtain ⟨n, f, on, hf, ey⟩ := odd_form hy hy0
    have hef : q ≤ e + f := exps_of_prod om on (by rw [← ex, ← ey]; exact hxy)
    have := fin he hf hef ⟨m, ex⟩ ⟨n, ey⟩
    exact ⟨this.1, this.2.2⟩
  rw [hA.1] at hU
  obtain ⟨u1, u2, u3⟩ := hU
  exact ⟨by rw [u1, h2 _ hxy], rep_of_mult u2 hA.2, u3⟩

theorem fma_spec {q : ℤ} {rnd : ℚ → ℚ} (hr : Nearest 53 (q : WithBot ℤ) rnd) {x y z : ℚ}
    (hx : Rep 53 (q : WithBot ℤ) x) (hy : Rep 53 (q : WithBot ℤ) y) (hz : Rep 53 (q : WithBot ℤ) z)
    (hxy : MultipleOf q (x * y)) :
    Approx (localAdd221 53) (x * y + z) ((fmaPair rnd x y z).1 + (fmaPair rnd x y z).2) ∧
      rnd ((fmaPair rnd x y z).1 + (fmaPair rnd x y z).2) = (fmaPair rnd x y z).1 ∧
      Limbs2 53 (q : WithBot ℤ) (fmaPair rnd x y z).1 (fmaPair rnd x y z).2 := by
  have M := mult_spec (s := 27) (by norm_num) (by norm_num) (by norm_num) hr hx hy hxy
  rw [← multD_eq] at M
  obtain ⟨m1, m2, m3⟩ := M
  have hl : Limbs2 53 (q : WithBot ℤ) (multD rnd x y).1 (multD rnd x y).2 := by
    refine ⟨by rw [m1]; exact (hr _).1, m2, ?_⟩
    have := (unit_rel (by norm_num) hr hxy).2
    rw [← m1] at this
    rwa [show x * y - (multD rnd x y).1 = (multD rnd x y).2 by linarith] at this
  have h := addDDD_spec (by norm_num) hr hz hl
  rw [m3, add_comm z] at h
  exact ⟨h.1, h.2.1, addDDD_limbs (by norm_num) hr hz hl.1⟩

/-! ## isolated values -/

theorem rnd_isolated {p : ℕ} (hp : 1 ≤ p) {q : WithBot ℤ} {rnd : ℚ → ℚ} (hr : Nearest p q rnd) {m e : ℤ} {x : ℚ}
    (h1 : 2 ^ (p - 1) ≤ |m|) (h2 : |m| < 2 ^ p) (hq : q ≤ (e : WithBot ℤ))
    (hx : |x - m * 2 ^ e| < 2 ^ (e - 2)) : rnd x = m * 2 ^ e := by
  by_contra hne
  obtain ⟨⟨n, f, hn, -, hf⟩, hb⟩ := hr x
  have hb := hb _ ⟨m, e, h2, hq, rfl⟩
  have hd : |rnd x - m * 2 ^ e| < 2 ^ (e - 1) := by
    have : rnd x - m * 2 ^ e = -(x - rnd x) + (x - m * 2 ^ e) := by ring
    have e1 : (2:ℚ) ^ (e - 1) = 2 * 2 ^ (e - 2) := by
      rw [show e - 1 = 1 + (e - 2) by ring, zpow_add₀ (by norm_num)]; norm_num
    rw [this, e1]
    calc _ ≤ |-(x - rnd x)| + |x - m * 2 ^ e| := abs_add_le _ _
      _ < _ := by rw [abs_neg]; linarith
  rw [hf] at hd hne
  rcases le_or_gt (e - 1) f with h | h
  · obtain ⟨j, hj⟩ := Int.eq_ofNat_of_zero_le (show 0 ≤ f - (e - 1) by omega)
    have hk : (n:ℚ) * 2 ^ f - m * 2 ^ e = ((n * 2 ^ j - 2 * m : ℤ) : ℚ) * 2 ^ (e - 1) := by
      rw [show f = (j:ℤ) + (e - 1) by omega, zpow_add₀ (by norm_num), zpow_natCast]
      conv_lhs => rw [show e = 1 + (e - 1) by ring, zpow_add₀ (by norm_num) 1]
      rw [show (1:ℤ) + (e - 1) - 1 = e - 1 by ring]
      push_cast; ring
    rw [hk, abs_mul, abs_of_pos (zpow2_pos (e - 1))] at hd
    have h3 : |((n * 2 ^ j - 2 * m : ℤ) : ℚ)| < 1 := by
      by_contra hc
      nlinarith [zpow2_pos (e - 1), not_lt.1 hc]
    have h4 : n * 2 ^ j - 2 * m = 0 := by
      have : |n * 2 ^ j - 2 * m| < 1 := by exact_mod_cast h3
      exact abs_eq_zero.1 (by have := abs_nonneg (n * 2 ^ j - 2 * m); omega)
    rw [h4] at hk
    apply hne; simpa [sub_eq_zero] using hk
  · have a1 : |(n:ℚ) * 2 ^ f| ≤ 2 ^ p * 2 ^ (e - 2) := by
      rw [abs_mul, abs_of_pos (zpow2_pos f)]
      have : |(n:ℚ)| ≤ 2 ^ p := by exact_mod_cast hn.le
      exact mul_le_mul this (zpow_le_zpow_right₀ (by norm_num) (by omega)) (zpow2_pos f).le (by positivity)
    have a2 : (2:ℚ) ^ (p - 1) * 2 ^ e ≤ |(m:ℚ) * 2 ^ e| := by
      rw [abs_mul, abs_of_pos (zpow2_pos e)]
      have : (2:ℚ) ^ (p - 1) ≤ |(m:ℚ)| := by exact_mod_cast h1
      exact mul_le_mul_of_nonneg_right this (zpow2_pos e).le
    have a3 : (2:ℚ) ^ p * 2 ^ (e - 2) = 2 ^ (p - 1) * 2 ^ (e - 1) := by
      rw [show p = (p - 1) + 1 by omega, pow_succ, show e - 1 = 1 + (e - 2) by ring, zpow_add₀ (by norm_num) 1]
      simp; ring
    have a4 : (2:ℚ) ^ e = 2 * 2 ^ (e - 1) := by
      rw [show e = 1 + (e - 1) by ring, zpow_add₀ (by norm_num) 1]; norm_num
    have a5 := abs_sub_abs_le_abs_sub ((m:ℚ) * 2 ^ e) (n * 2 ^ f)
    rw [abs_sub_comm] at a5
    have a6 : (1:ℚ) ≤ 2 ^ (p - 1) := one_le_pow₀ (by norm_num)
    have := zpow2_pos (e - 1)
    nlinarith

end Verif.Mprec
