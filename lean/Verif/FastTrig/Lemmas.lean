import Verif.FastTrig.Model
import Mathlib.Tactic

/-! # Lemmas for C119 -/

namespace Verif.FastTrig

open Verif.Fixed (Fmt)
open Verif.FixC

theorem cBit31 {i f : ℤ} (h : i + f = 31) : Fixed.cBitSize i f = some 32 := by
  simp only [Fixed.cBitSize, h]; decide

theorem cBit64 {i f : ℤ} (h : 33 ≤ i + f) (h' : i + f ≤ 64) : Fixed.cBitSize i f = some 64 := by
  simp only [Fixed.cBitSize]
  generalize i + f = b at *
  interval_cases b <;> decide

theorem support31 {f : Fmt} (h : f.int + f.frac = 31) (hs : f.signed = true) : support f = some i32 := by
  simp [support, cBit31 h, hs, i32]

theorem wrap_fits {w : ℕ} {n : ℤ} (h : -2 ^ (w - 1) ≤ n) (h' : n < 2 ^ (w - 1)) (hw : 1 ≤ w) : wrap ⟨w, true⟩ n = n := by
  simp only [wrap, if_true]
  have : (2 : ℤ) ^ w = 2 * 2 ^ (w - 1) := by rw [← pow_succ']; congr 1; omega
  rw [Int.emod_eq_of_lt (by omega) (by omega)]
  omega

theorem wrap32 {n : ℤ} (h : -2 ^ 31 ≤ n) (h' : n < 2 ^ 31) : wrap i32 n = n := wrap_fits (w := 32) h h' (by norm_num)

theorem wrap32_add (n k : ℤ) : wrap i32 (n + 2 ^ 32 * k) = wrap i32 n := by
  simp only [wrap, i32, if_true]
  norm_num
  omega

theorem wrap32_range (n : ℤ) : -2 ^ 31 ≤ wrap i32 n ∧ wrap i32 n < 2 ^ 31 := by
  simp only [wrap, i32, if_true]
  norm_num
  omega

theorem wrap32_mod (n : ℤ) : ∃ k, wrap i32 n = n + 2 ^ 32 * k := by
  refine ⟨-((n + 2 ^ 31) / 2 ^ 32), ?_⟩
  simp only [wrap, i32, if_true]
  norm_num
  omega

/-- The right shift of a 64-bit integer that is then stored in 32 bits. -/
theorem shift64 {p : ℤ} {s : ℕ} (hs : s ≤ 32) (hs1 : 1 ≤ s) (h : -2 ^ 63 ≤ p) (h' : p < 2 ^ 63) :
    ∃ z, srl ⟨64, true⟩ p s = some z ∧ wrap i32 z = wrap i32 (p / 2 ^ s) := by
  have hd : (0 : ℤ) < 2 ^ s := by positivity
  have h2 : (2 : ℤ) ≤ 2 ^ s := by calc (2:ℤ) = 2 ^ 1 := by norm_num
    _ ≤ 2 ^ s := pow_le_pow_right₀ (by norm_num) hs1
  refine ⟨p % 2 ^ 64 / 2 ^ s, ?_, ?_⟩
  · simp only [srl]
    rw [if_pos (by omega), wrap_fits]
    · have : 0 ≤ p % 2 ^ 64 / 2 ^ s := Int.ediv_nonneg (Int.emod_nonneg _ (by norm_num)) hd.le
      have h0 : (0:ℤ) ≤ 2 ^ (64 - 1) := by positivity
      linarith
    · apply Int.ediv_lt_of_lt_mul hd
      have : p % 2 ^ 64 < 2 ^ 64 := Int.emod_lt_of_pos _ (by norm_num)
      norm_num at *
      linarith
    · norm_num
  · have h64 : (2 : ℤ) ^ 64 = 2 ^ s * (2 ^ 32 * 2 ^ (32 - s)) := by rw [← pow_add, ← pow_add]; congr 1; omega
    have : p % 2 ^ 64 / 2 ^ s = p / 2 ^ s + 2 ^ 32 * (-(2 ^ (32 - s) * (p / 2 ^ 64))) := by
      rw [Int.emod_def]
      have : p - 2 ^ 64 * (p / 2 ^ 64) = p + 2 ^ s * (-(2 ^ 32 * 2 ^ (32 - s) * (p / 2 ^ 64))) := by
        conv_lhs => rw [h64]
        conv_rhs => rw [h64]
        ring
      rw [this, Int.add_mul_ediv_left _ _ hd.ne']
      ring
    rw [this, wrap32_add]

/-- The multiplications of the two schemes are rounded towards minus infinity. -/
theorem mul_eq {f0 f1 g : Fmt} (h0 : f0.int + f0.frac = 31) (h1 : f1.int + f1.frac = 31) (hg : g.int + g.frac = 31)
    (s0 : f0.signed = true) (s1 : f1.signed = true) (sg : g.signed = true)
    (hb1 : 33 ≤ min g.int (f0.int + f1.int) + (f0.frac + f1.frac)) (hb2 : min g.int (f0.int + f1.int) + (f0.frac + f1.frac) ≤ 64)
    {s : ℕ} (hs : f0.frac + f1.frac = g.frac + s) (hs1 : 1 ≤ s) (hs2 : s ≤ 32) {x0 x1 : ℤ} (hx0 : |x0| ≤ 2 ^ 31) (hx1 : |x1| ≤ 2 ^ 31) :
    mul f0 f1 g x0 x1 = some (wrap i32 (x0 * x1 / 2 ^ s)) := by
  have e64 : support ⟨min g.int (f0.int + f1.int), f0.frac + f1.frac, f0.signed || f1.signed⟩ = some ⟨64, true⟩ := by
    simp [support, cBit64 hb1 hb2, s0]
  have b0 := abs_le.1 hx0
  have b1 := abs_le.1 hx1
  have hp : |x0 * x1| ≤ 2 ^ 62 := by
    rw [abs_mul]
    calc |x0| * |x1| ≤ 2 ^ 31 * 2 ^ 31 := mul_le_mul hx0 hx1 (abs_nonneg _) (by norm_num)
      _ = 2 ^ 62 := by norm_num
  have bp := abs_le.1 hp
  have w64 : ∀ n : ℤ, -2 ^ 63 ≤ n → n < 2 ^ 63 → wrap ⟨64, true⟩ n = n := fun n h h' => wrap_fits (w := 64) h h' (by norm_num)
  have hi : imul ⟨64, true⟩ i32 i32 x0 x1 = x0 * x1 := by
    have hne : i32 ≠ ⟨64, true⟩ := by decide
    simp only [imul, if_neg (fun h : i32 = ⟨64, true⟩ ∧ i32 = ⟨64, true⟩ => hne h.1), if_pos hne]
    rw [w64 x0 (by linarith) (by linarith), w64 x1 (by linarith) (by linarith), w64 _ (by linarith) (by linarith)]
  have hfg : (⟨min g.int (f0.int + f1.int), f0.frac + f1.frac, f0.signed || f1.signed⟩ : Fmt) ≠ g := by
    intro h
    have := congrArg Fmt.frac h
    simp only at this
    omega
  obtain ⟨z, hz, hw⟩ := shift64 hs2 hs1 (p := x0 * x1) (by linarith) (by linarith)
  simp only [mul, support31 h0 s0, support31 h1 s1, Option.bind_some]
  rw [e64]
  simp only [Option.bind_some, hi, conv, if_neg hfg]
  rw [e64, support31 hg sg]
  simp only [Option.bind_some, i32]
  rw [if_neg (by norm_num)]
  have ha : align ⟨64, true⟩ (g.frac - (f0.frac + f1.frac)) (x0 * x1) = some z := by
    simp only [align]
    rw [if_neg (by omega), if_pos (by omega), ← hz]
    congr 1
    omega
  rw [ha]
  simp only [Option.map_some, finish, sg, if_true]
  exact congrArg some hw

theorem div_abs {p d M : ℤ} (hd : 0 < d) (h : |p| ≤ M * d) : |p / d| ≤ M := by
  have := abs_le.1 h
  rw [abs_le]
  constructor
  · exact (Int.le_ediv_iff_mul_le hd).2 (by linarith)
  · calc p / d ≤ (M * d) / d := Int.ediv_le_ediv hd this.2
      _ = M := Int.mul_ediv_cancel _ hd.ne'

theorem mul_abs {x y X Y : ℤ} (hx : |x| ≤ X) (hy : |y| ≤ Y) : |x * y| ≤ X * Y := by
  rw [abs_mul]
  exact mul_le_mul hx hy (abs_nonneg _) (le_trans (abs_nonneg _) hx)

theorem floor_real {p d : ℤ} (hd : 0 < d) : (((p / d : ℤ) : ℝ) ≤ p / d) ∧ ((p : ℝ) / d - 1 ≤ ((p / d : ℤ) : ℝ)) := by
  have hd' : (0 : ℝ) < d := by exact_mod_cast hd
  constructor
  · rw [le_div_iff₀ hd']
    have := Int.ediv_mul_le p hd.ne'
    exact_mod_cast this
  · have := Int.lt_ediv_add_one_mul_self p hd
    have h2 : (p : ℝ) < ((p / d : ℤ) + 1) * d := by exact_mod_cast this
    have := (div_lt_iff₀ hd').2 h2
    linarith

/-- The integers that the schemes compute, with `A` for the function itself and `B` for the other one. -/
structure Ints (K A B c2 s2 U a u2 bu au w b3 : ℤ) : Prop where
  ha : a = A * c2 / 2 ^ 30
  hu2 : u2 = U * U / K
  hbu : bu = B * U / 2 ^ 30
  hau : au = a * u2 / 2 ^ 32
  hw : w = s2 * u2 / K
  hb3 : b3 = w * bu / 2 ^ 32

/-- The bounds that rule out overflows. -/
theorem Ints.bounds {K A B c2 s2 U a u2 bu au w b3 : ℤ} (h : Ints K A B c2 s2 U a u2 bu au w b3) (hK : 4 ≤ K)
    (hA : |A| ≤ 2 ^ 30) (hB : |B| ≤ 2 ^ 30) (hc : |c2| < 2 ^ 31) (hs : |s2| < 2 ^ 31)
    (hU : 0 ≤ U) (hU' : 4 * U ≤ K) : |a| ≤ 2 ^ 31 - 1 ∧ 0 ≤ u2 ∧ 16 * u2 ≤ K ∧ |bu| ≤ U ∧ |au| ≤ u2 ∧ |w| ≤ 2 ^ 31 - 1 ∧ |b3| ≤ U := by
  have ha : |a| ≤ 2 ^ 31 - 1 := by
    rw [h.ha]
    apply div_abs (by norm_num)
    have := mul_abs hA (by omega : |c2| ≤ 2 ^ 31 - 1)
    linarith
  have hu0 : 0 ≤ u2 := by rw [h.hu2]; exact Int.ediv_nonneg (by positivity) (by linarith)
  have hu1 : u2 * K ≤ U * U := by rw [h.hu2]; exact Int.ediv_mul_le _ (by linarith)
  have hu3 : 16 * u2 ≤ K := by
    by_contra hc
    push Not at hc
    nlinarith
  have hu4 : |u2| ≤ u2 := by rw [abs_of_nonneg hu0]
  have hbu : |bu| ≤ U := by
    rw [h.hbu]
    apply div_abs (by norm_num)
    have := mul_abs hB (by rw [abs_of_nonneg hU] : |U| ≤ U)
    linarith
  have hau : |au| ≤ u2 := by
    rw [h.hau]
    apply div_abs (by norm_num)
    have := mul_abs ha hu4
    nlinarith
  have hw : |w| ≤ 2 ^ 31 - 1 := by
    rw [h.hw]
    apply div_abs (by linarith)
    have := mul_abs (by omega : |s2| ≤ 2 ^ 31 - 1) hu4
    nlinarith
  have hb3 : |b3| ≤ U := by
    rw [h.hb3]
    apply div_abs (by norm_num)
    have := mul_abs hw hbu
    nlinarith
  exact ⟨ha, hu0, hu3, hbu, hau, hw, hb3⟩

/-- The error of the scheme, in real numbers. -/
theorem scheme_err {A B c2 s2 u a u2 bu au w b3 e q A' σ : ℝ} (hA : |A| ≤ 1) (hB : |B| ≤ 1) (hc : |c2| ≤ 1 / 2) (hs : |s2| ≤ 1 / 2)
    (hu : 0 ≤ u) (hu' : u ≤ 1 / 4) (he : e ≤ 1 / 4) (hq : 0 ≤ q) (hqe : q ≤ e / 2)
    (ha : a ≤ A * c2 ∧ A * c2 - q ≤ a) (hu2 : u2 ≤ u * u ∧ u * u - e ≤ u2) (hu20 : 0 ≤ u2) (hbu : bu ≤ B * u ∧ B * u - e ≤ bu)
    (hau : au ≤ a * u2 ∧ a * u2 - e ≤ au) (hw : w ≤ s2 * u2 ∧ s2 * u2 - q ≤ w) (hb3 : b3 ≤ w * bu ∧ w * bu - e ≤ b3)
    (hA' : A' ≤ A ∧ A - e ≤ A') (hσ : |σ| = 1) :
    |A' + au + σ * (bu + b3) - (A * (1 + c2 * u ^ 2) + σ * (B * (u + s2 * u ^ 3)))| ≤ 8 * e := by
  have he0 : 0 ≤ e := by linarith
  have da : |a - A * c2| ≤ q := by rw [abs_le]; constructor <;> linarith
  have du : |u2 - u * u| ≤ e := by rw [abs_le]; constructor <;> linarith
  have db : |bu - B * u| ≤ e := by rw [abs_le]; constructor <;> linarith
  have dau : |au - a * u2| ≤ e := by rw [abs_le]; constructor <;> linarith
  have dw : |w - s2 * u2| ≤ q := by rw [abs_le]; constructor <;> linarith
  have db3 : |b3 - w * bu| ≤ e := by rw [abs_le]; constructor <;> linarith
  have dA : |A' - A| ≤ e := by rw [abs_le]; constructor <;> linarith
  have huu : u * u ≤ 1 / 16 := by nlinarith
  have huu0 : 0 ≤ u * u := by positivity
  have hAc : |A * c2| ≤ 1 / 2 := by
    rw [abs_mul]
    calc |A| * |c2| ≤ 1 * (1 / 2) := mul_le_mul hA hc (abs_nonneg _) (by norm_num)
      _ = 1 / 2 := by norm_num
  have hBu : |B * u| ≤ 1 / 4 := by
    rw [abs_mul, abs_of_nonneg hu]
    calc |B| * u ≤ 1 * (1 / 4) := mul_le_mul hB hu' hu (by norm_num)
      _ = 1 / 4 := by norm_num
  have hu2b : |u2| ≤ 1 / 16 := by rw [abs_of_nonneg hu20]; linarith
  -- the term in `A`
  have t1 : |a * u2 - A * c2 * (u * u)| ≤ e := by
    have : a * u2 - A * c2 * (u * u) = (a - A * c2) * u2 + A * c2 * (u2 - u * u) := by ring
    rw [this]
    calc |(a - A * c2) * u2 + A * c2 * (u2 - u * u)| ≤ |a - A * c2| * |u2| + |A * c2| * |u2 - u * u| := by
          rw [← abs_mul, ← abs_mul]; exact abs_add_le _ _
      _ ≤ q * (1 / 16) + 1 / 2 * e := add_le_add (mul_le_mul da hu2b (abs_nonneg _) hq) (mul_le_mul hAc du (abs_nonneg _) (by norm_num))
      _ ≤ e := by linarith
  -- the term in `B`
  have hbub : |bu| ≤ 1 := by
    have : bu = (bu - B * u) + B * u := by ring
    rw [this]
    exact le_trans (abs_add_le _ _) (by linarith)
  have hsu : |s2 * (u * u)| ≤ 1 / 2 := by
    rw [abs_mul, abs_of_nonneg huu0]
    calc |s2| * (u * u) ≤ 1 / 2 * 1 := mul_le_mul hs (by linarith) huu0 (by norm_num)
      _ = 1 / 2 := by norm_num
  have dw2 : |w - s2 * (u * u)| ≤ e := by
    have : w - s2 * (u * u) = (w - s2 * u2) + s2 * (u2 - u * u) := by ring
    rw [this]
    calc |(w - s2 * u2) + s2 * (u2 - u * u)| ≤ |w - s2 * u2| + |s2| * |u2 - u * u| := by rw [← abs_mul]; exact abs_add_le _ _
      _ ≤ q + 1 / 2 * e := add_le_add dw (mul_le_mul hs du (abs_nonneg _) (by norm_num))
      _ ≤ e := by linarith
  have t2 : |w * bu - s2 * (u * u) * (B * u)| ≤ 2 * e := by
    have : w * bu - s2 * (u * u) * (B * u) = (w - s2 * (u * u)) * bu + s2 * (u * u) * (bu - B * u) := by ring
    rw [this]
    calc |(w - s2 * (u * u)) * bu + s2 * (u * u) * (bu - B * u)| ≤ |w - s2 * (u * u)| * |bu| + |s2 * (u * u)| * |bu - B * u| := by
          rw [← abs_mul, ← abs_mul]; exact abs_add_le _ _
      _ ≤ e * 1 + 1 / 2 * e := add_le_add (mul_le_mul dw2 hbub (abs_nonneg _) he0) (mul_le_mul hsu db (abs_nonneg _) (by norm_num))
      _ ≤ 2 * e := by linarith
  have hB3 : |bu + b3 - B * (u + s2 * u ^ 3)| ≤ 4 * e := by
    have : bu + b3 - B * (u + s2 * u ^ 3) = (bu - B * u) + (b3 - w * bu) + (w * bu - s2 * (u * u) * (B * u)) := by ring
    rw [this]
    exact le_trans (abs_add_three _ _ _) (by linarith)
  have hA3 : |A' + au - A * (1 + c2 * u ^ 2)| ≤ 3 * e := by
    have : A' + au - A * (1 + c2 * u ^ 2) = (A' - A) + (au - a * u2) + (a * u2 - A * c2 * (u * u)) := by ring
    rw [this]
    exact le_trans (abs_add_three _ _ _) (by linarith)
  have : A' + au + σ * (bu + b3) - (A * (1 + c2 * u ^ 2) + σ * (B * (u + s2 * u ^ 3))) =
      (A' + au - A * (1 + c2 * u ^ 2)) + σ * (bu + b3 - B * (u + s2 * u ^ 3)) := by ring
  rw [this]
  refine le_trans (abs_add_le _ _) ?_
  rw [abs_mul, hσ]
  linarith

/-- The error with respect to the function `f (x + u) = f x * cos u + σ * g x * sin u`. -/
theorem total_err {A B c2 s2 u v e ec es cx sx cu su σ : ℝ} (hσ : |σ| = 1) (hu : 0 ≤ u) (hu' : u ≤ 1 / 4) (hc : |c2| ≤ 1 / 2) (hs : |s2| ≤ 1 / 2)
    (hv : |v - (A * (1 + c2 * u ^ 2) + σ * (B * (u + s2 * u ^ 3)))| ≤ 8 * e) (hA : |A - cx| ≤ e) (hB : |B - sx| ≤ e)
    (hcx : |cx| ≤ 1) (hsx : |sx| ≤ 1) (hcu : |1 + c2 * u ^ 2 - cu| ≤ ec) (hsu : |u + s2 * u ^ 3 - su| ≤ es) :
    |v - (cx * cu + σ * (sx * su))| ≤ ec + es + 11 * e := by
  have he : 0 ≤ e := le_trans (abs_nonneg _) hA
  have hec : 0 ≤ ec := le_trans (abs_nonneg _) hcu
  have hes : 0 ≤ es := le_trans (abs_nonneg _) hsu
  have huu : 0 ≤ u ^ 2 ∧ u ^ 2 ≤ 1 := ⟨by positivity, by nlinarith⟩
  have h3 : 0 ≤ u ^ 3 ∧ u ^ 3 ≤ 1 := ⟨by positivity, by nlinarith [sq_nonneg u, huu.1, huu.2]⟩
  have p1 : |1 + c2 * u ^ 2| ≤ 3 / 2 := by
    have h := abs_mul c2 (u ^ 2)
    rw [abs_of_nonneg huu.1] at h
    have : |c2| * u ^ 2 ≤ 1 / 2 * 1 := mul_le_mul hc huu.2 huu.1 (by norm_num)
    have h1 := abs_add_le 1 (c2 * u ^ 2)
    rw [abs_one] at h1
    linarith
  have p2 : |u + s2 * u ^ 3| ≤ 3 / 2 := by
    have h := abs_mul s2 (u ^ 3)
    rw [abs_of_nonneg h3.1] at h
    have : |s2| * u ^ 3 ≤ 1 / 2 * 1 := mul_le_mul hs h3.2 h3.1 (by norm_num)
    have h1 := abs_add_le u (s2 * u ^ 3)
    rw [abs_of_nonneg hu] at h1
    linarith
  have e1 : |A * (1 + c2 * u ^ 2) - cx * cu| ≤ 3 / 2 * e + ec := by
    have : A * (1 + c2 * u ^ 2) - cx * cu = (A - cx) * (1 + c2 * u ^ 2) + cx * (1 + c2 * u ^ 2 - cu) := by ring
    rw [this]
    calc _ ≤ |A - cx| * |1 + c2 * u ^ 2| + |cx| * |1 + c2 * u ^ 2 - cu| := by rw [← abs_mul, ← abs_mul]; exact abs_add_le _ _
      _ ≤ e * (3 / 2) + 1 * ec := add_le_add (mul_le_mul hA p1 (abs_nonneg _) he) (mul_le_mul hcx hcu (abs_nonneg _) (by norm_num))
      _ = _ := by ring
  have e2 : |B * (u + s2 * u ^ 3) - sx * su| ≤ 3 / 2 * e + es := by
    have : B * (u + s2 * u ^ 3) - sx * su = (B - sx) * (u + s2 * u ^ 3) + sx * (u + s2 * u ^ 3 - su) := by ring
    rw [this]
    calc _ ≤ |B - sx| * |u + s2 * u ^ 3| + |sx| * |u + s2 * u ^ 3 - su| := by rw [← abs_mul, ← abs_mul]; exact abs_add_le _ _
      _ ≤ e * (3 / 2) + 1 * es := add_le_add (mul_le_mul hB p2 (abs_nonneg _) he) (mul_le_mul hsx hsu (abs_nonneg _) (by norm_num))
      _ = _ := by ring
  have : v - (cx * cu + σ * (sx * su)) = (v - (A * (1 + c2 * u ^ 2) + σ * (B * (u + s2 * u ^ 3)))) +
      (A * (1 + c2 * u ^ 2) - cx * cu) + σ * (B * (u + s2 * u ^ 3) - sx * su) := by ring
  rw [this]
  refine le_trans (abs_add_three _ _ _) ?_
  rw [abs_mul, hσ]
  linarith

theorem wrap_add_left (x y : ℤ) : wrap i32 (wrap i32 x + y) = wrap i32 (x + y) := by
  obtain ⟨k, hk⟩ := wrap32_mod x
  rw [hk, show x + 2 ^ 32 * k + y = x + y + 2 ^ 32 * k by ring, wrap32_add]

theorem wrap_sub_left (x y : ℤ) : wrap i32 (wrap i32 x - y) = wrap i32 (x - y) := by
  rw [sub_eq_add_neg, wrap_add_left, sub_eq_add_neg]

theorem comp_bits (m : ℤ) : (comp m).int + (comp m).frac = 31 := by simp [comp]

theorem addsub_comp (op : ℤ → ℤ → ℤ) (m x y : ℤ) : addsub op (comp m) (comp m) (comp m) x y = some (wrap i32 (op x y)) := by
  have h : (⟨(comp m).int, max (min (comp m).frac (comp m).frac) (comp m).frac, (comp m).signed⟩ : Fmt) = comp m := by simp [comp]
  simp only [addsub]
  rw [h, support31 (comp_bits m) rfl]
  simp [conv]

theorem add_store (m x y : ℤ) : add store (comp m) (comp m) x y = (conv store (comp m) x).bind fun a => some (wrap i32 (a + y)) := by
  have h : (⟨(comp m).int, max (min store.frac (comp m).frac) (comp m).frac, (comp m).signed⟩ : Fmt) = comp m := by
    simp [comp]
  simp only [add, addsub]
  rw [h, support31 (comp_bits m) rfl]
  simp [conv]

theorem srl32 (x : ℤ) {s : ℕ} (h : s < 32) : srl i32 x s = some (wrap i32 (x % 2 ^ 32 / 2 ^ s)) := by
  unfold srl
  exact if_pos h

theorem align_neg (t : CInt) {s : ℤ} (h : s < 0) (n : ℤ) : align t s n = srl t n (-s).toNat := by
  unfold align
  rw [if_neg (by omega), if_pos h]

/-- The conversion of a table value, for `m = 1`. -/
theorem conv_one (x : ℤ) : conv store (comp ((1 : ℕ) : ℤ)) x = some x := by
  have : store = comp ((1 : ℕ) : ℤ) := by simp [store, comp]
  simp [conv, this]

/-- The conversion of a table value, for larger `m`. -/
theorem conv_more {m : ℕ} (hm : 2 ≤ m) (hm' : m ≤ 29) (x : ℤ) :
    conv store (comp m) x = some (wrap i32 (x % 2 ^ 32 / 2 ^ (m - 1))) ∨ (wrap i32 x ≠ x) := by
  by_cases hx : wrap i32 x = x
  · left
    have hne : store ≠ comp (m : ℤ) := by
      intro h
      have := congrArg Fmt.int h
      simp [store, comp] at this
      omega
    simp only [conv, if_neg hne]
    rw [support31 (f := store) rfl rfl, support31 (comp_bits _) rfl]
    simp only [Option.bind_some, le_refl, if_true, hx]
    have : align i32 ((comp (m : ℤ)).frac - store.frac) x = srl i32 x (m - 1) := by
      rw [align_neg _ (by show (31 - (m : ℤ)) - 30 < 0; omega)]
      congr 1
      show (-((31 - (m : ℤ)) - 30)).toNat = m - 1
      omega
    rw [this, srl32 _ (by omega)]
    simp [finish, comp]
  · exact Or.inr hx

/-- The two schemes in integers. -/
theorem schemes {m : ℕ} (hm : 1 ≤ m) (hm' : m ≤ 29) {A B c2 s2 u a u2 bu au w b3 : ℤ}
    (h : Ints (2 ^ (31 - m)) A B c2 s2 u a u2 bu au w b3)
    (hA : |A| ≤ 2 ^ 30) (hB : |B| ≤ 2 ^ 30) (hc : |c2| < 2 ^ 31) (hs : |s2| < 2 ^ 31) (hu : 0 ≤ u) (hu' : 4 * u ≤ 2 ^ (31 - m))
    {A' : ℤ} (hconv : conv store (comp m) A = some A') :
    cosScheme m ⟨c2, s2⟩ A B u = some (wrap i32 (A' + au - bu - b3)) ∧
    sinScheme m ⟨c2, s2⟩ B A u = some (wrap i32 (A' + bu + au + b3)) := by
  have hK : (4 : ℤ) ≤ 2 ^ (31 - m) := by
    calc (4 : ℤ) = 2 ^ 2 := by norm_num
      _ ≤ 2 ^ (31 - m) := pow_le_pow_right₀ (by norm_num) (by omega)
  have hK' : (2 : ℤ) ^ (31 - m) ≤ 2 ^ 30 := pow_le_pow_right₀ (by norm_num) (by omega)
  obtain ⟨ba, b20, b2, bb, bau, bw, bb3⟩ := h.bounds hK hA hB hc hs hu hu'
  have hsto : store.int + store.frac = 31 := rfl
  have hcoe : coef.int + coef.frac = 31 := rfl
  have ha31 : |a| ≤ 2 ^ 31 := le_trans ba (by norm_num)
  have hw31 : |w| ≤ 2 ^ 31 := le_trans bw (by norm_num)
  have hu31 : |u| ≤ 2 ^ 31 := by rw [abs_of_nonneg hu]; linarith
  have hu231 : |u2| ≤ 2 ^ 31 := by rw [abs_of_nonneg b20]; linarith
  have hbu31 : |bu| ≤ 2 ^ 31 := by linarith
  have fit : ∀ {z M : ℤ}, |z| ≤ M → M < 2 ^ 31 → wrap i32 z = z := by
    intro z M hz hM
    have := abs_le.1 hz
    exact wrap32 (by linarith) (by linarith)
  have m1 : mul store coef coef A c2 = some a := by
    rw [mul_eq (s := 30) hsto hcoe hcoe rfl rfl rfl (by decide) (by decide) (by decide) (by norm_num) (by norm_num) (by linarith) hc.le, ← h.ha,
      fit ba (by norm_num)]
  have hmi : (comp (m : ℤ)).int = m := rfl
  have hmf : (comp (m : ℤ)).frac = 31 - m := rfl
  have m2 : mul (comp m) (comp m) (comp m) u u = some u2 := by
    rw [mul_eq (s := 31 - m) (comp_bits _) (comp_bits _) (comp_bits _) rfl rfl rfl (by rw [hmi, hmf]; omega) (by rw [hmi, hmf]; omega)
      (by rw [hmf]; omega) (by omega) (by omega) hu31 hu31, ← h.hu2, fit (M := u2) (by rw [abs_of_nonneg b20]) (by linarith)]
  have m3 : mul store (comp m) (comp m) B u = some bu := by
    rw [mul_eq (s := 30) hsto (comp_bits _) (comp_bits _) rfl rfl rfl (by rw [hmi, hmf]; simp only [store]; omega)
      (by rw [hmi, hmf]; simp only [store]; omega)
      (by rw [hmf]; simp only [store]; omega) (by norm_num) (by norm_num) (by linarith) hu31, ← h.hbu, fit bb (by linarith)]
  have m4 : mul coef (comp m) (comp m) a u2 = some au := by
    rw [mul_eq (s := 32) hcoe (comp_bits _) (comp_bits _) rfl rfl rfl (by rw [hmi, hmf]; simp only [coef]; omega)
      (by rw [hmi, hmf]; simp only [coef]; omega)
      (by rw [hmf]; simp only [coef]; omega) (by norm_num) (by norm_num) ha31 hu231, ← h.hau, fit bau (by linarith)]
  have m5 : mul coef (comp m) coef s2 u2 = some w := by
    rw [mul_eq (s := 31 - m) hcoe (comp_bits _) hcoe rfl rfl rfl (by rw [hmi, hmf]; simp only [coef]; omega)
      (by rw [hmi, hmf]; simp only [coef]; omega)
      (by rw [hmf]; simp only [coef]; omega) (by omega) (by omega) hs.le hu231, ← h.hw, fit bw (by norm_num)]
  have m6 : mul coef (comp m) (comp m) w bu = some b3 := by
    rw [mul_eq (s := 32) hcoe (comp_bits _) (comp_bits _) rfl rfl rfl (by rw [hmi, hmf]; simp only [coef]; omega)
      (by rw [hmi, hmf]; simp only [coef]; omega)
      (by rw [hmf]; simp only [coef]; omega) (by norm_num) (by norm_num) hw31 hbu31, ← h.hb3, fit bb3 (by linarith)]
  constructor
  · simp only [cosScheme, m1, m2, m3, m4, m5, m6, Option.bind_some, add_store, hconv, sub, addsub_comp, wrap_sub_left, sub_sub]
  · simp only [sinScheme, m1, m2, m3, m4, m5, m6, Option.bind_some, add_store, hconv]
    simp only [add, addsub_comp, Option.bind_some, wrap_add_left]

/-- The reduction of a nonnegative input. -/
theorem reduction {m : ℤ} {t : ℕ} (ht : t ≤ 31) {n : ℤ} (hn : 0 ≤ n) (hn' : n < 2 ^ 31) :
    low m t n = some (n % 2 ^ (31 - t)) ∧ index t n = some (n / 2 ^ (31 - t)) := by
  have hd : (0 : ℤ) < 2 ^ (31 - t) := by positivity
  have h0 := Int.emod_nonneg n hd.ne'
  have h1 := Int.emod_lt_of_pos n hd
  have hle : n % 2 ^ (31 - t) ≤ n := by
    have := Int.mul_ediv_add_emod n (2 ^ (31 - t))
    have : 0 ≤ 2 ^ (31 - t) * (n / 2 ^ (31 - t)) := mul_nonneg hd.le (Int.ediv_nonneg hn hd.le)
    linarith
  constructor
  · simp only [low, sub, addsub_comp, high]
    rw [wrap32 (n := n - n % 2 ^ (31 - t)) (by linarith) (by linarith), sub_sub_cancel, wrap32 (by linarith) (by linarith)]
  · simp only [index, if_pos ht]
    rw [srl32 _ (by omega), Int.emod_eq_of_lt hn (by norm_num; linarith)]
    have := Int.ediv_nonneg hn hd.le
    have h2 : n / 2 ^ (31 - t) ≤ n := Int.ediv_le_self _ hn
    rw [wrap32 (by linarith) (by linarith)]

/-- From the integers to the function, with `Q = 2 ^ (m - 1)` and `K = 2 ^ (31 - m)`. -/
theorem core {m : ℕ} (hm : 1 ≤ m) (hm' : m ≤ 29) {A B c2 s2 u a u2 bu au w b3 : ℤ}
    (h : Ints (2 ^ (31 - m)) A B c2 s2 u a u2 bu au w b3)
    (hA : |A| ≤ 2 ^ 30) (hB : |B| ≤ 2 ^ 30) (hc : |c2| < 2 ^ 31) (hs : |s2| < 2 ^ 31) (hu : 0 ≤ u) (hu' : 4 * u ≤ 2 ^ (31 - m))
    {σ : ℤ} (hσ : σ = 1 ∨ σ = -1) {cx sx cu su ec es : ℝ} (hcx : |cx| ≤ 1) (hsx : |sx| ≤ 1)
    (hAx : |(A : ℝ) / 2 ^ 30 - cx| ≤ 1 / 2 ^ 30) (hBx : |(B : ℝ) / 2 ^ 30 - sx| ≤ 1 / 2 ^ 30)
    (hcu : |1 + (c2 : ℝ) / 2 ^ 32 * ((u : ℝ) / 2 ^ (31 - m)) ^ 2 - cu| ≤ ec)
    (hsu : |(u : ℝ) / 2 ^ (31 - m) + (s2 : ℝ) / 2 ^ 32 * ((u : ℝ) / 2 ^ (31 - m)) ^ 3 - su| ≤ es) :
    |A / 2 ^ (m - 1) + au + σ * (bu + b3)| < 2 ^ 31 ∧
    |((A / 2 ^ (m - 1) + au + σ * (bu + b3) : ℤ) : ℝ) / 2 ^ (31 - m) - (cx * cu + σ * (sx * su))| ≤ ec + es + 11 * (1 / 2 ^ (31 - m)) := by
  obtain ⟨K, hKd⟩ : ∃ K : ℤ, K = 2 ^ (31 - m) := ⟨_, rfl⟩
  obtain ⟨Q, hQd⟩ : ∃ Q : ℤ, Q = 2 ^ (m - 1) := ⟨_, rfl⟩
  have hKr : (2 : ℝ) ^ (31 - m) = (K : ℝ) := by rw [hKd]; push_cast; rfl
  rw [hKr] at hcu hsu
  rw [← hKd] at h hu'
  rw [hKr, ← hQd]
  have hK : (4 : ℤ) ≤ K := by
    rw [hKd]
    calc (4 : ℤ) = 2 ^ 2 := by norm_num
      _ ≤ 2 ^ (31 - m) := pow_le_pow_right₀ (by norm_num) (by omega)
  have hK' : K ≤ 2 ^ 30 := by rw [hKd]; exact pow_le_pow_right₀ (by norm_num) (by omega)
  have hQK : Q * K = 2 ^ 30 := by rw [hKd, hQd, ← pow_add]; congr 1; omega
  have hQ : 0 < Q := by rw [hQd]; positivity
  have hK0 : (0 : ℝ) < K := by have : (0:ℤ) < K := by linarith
                               exact_mod_cast this
  have hKr4 : (4 : ℝ) ≤ K := by exact_mod_cast hK
  have hKr30 : (K : ℝ) ≤ 2 ^ 30 := by exact_mod_cast hK'
  obtain ⟨ba, b20, b2, bb, bau, bw, bb3⟩ := h.bounds hK hA hB hc hs hu hu'
  have bA : |A / Q| ≤ K := div_abs hQ (by rw [mul_comm, hQK]; exact hA)
  have hσ1 : |σ| = 1 := by rcases hσ with rfl | rfl <;> rfl
  constructor
  · have h1 := abs_add_three (A / Q) au (σ * (bu + b3))
    have h2 := abs_add_le bu b3
    rw [abs_mul, hσ1] at h1
    have : 16 * (K + u2 + (u + u)) < 16 * 2 ^ 31 := by linarith
    linarith
  · have r30 : |(A : ℝ)| ≤ 2 ^ 30 := by exact_mod_cast hA
    have r30' : |(B : ℝ)| ≤ 2 ^ 30 := by exact_mod_cast hB
    have rc : |(c2 : ℝ)| ≤ 2 ^ 31 := by exact_mod_cast hc.le
    have rs : |(s2 : ℝ)| ≤ 2 ^ 31 := by exact_mod_cast hs.le
    have nA : |(A : ℝ) / 2 ^ 30| ≤ 1 := by rw [abs_div, abs_of_pos (by positivity : (0:ℝ) < 2 ^ 30), div_le_one (by positivity)]; exact r30
    have nB : |(B : ℝ) / 2 ^ 30| ≤ 1 := by rw [abs_div, abs_of_pos (by positivity : (0:ℝ) < 2 ^ 30), div_le_one (by positivity)]; exact r30'
    have nc : |(c2 : ℝ) / 2 ^ 32| ≤ 1 / 2 := by
      rw [abs_div, abs_of_pos (by positivity : (0:ℝ) < 2 ^ 32), div_le_iff₀ (by positivity)]; norm_num at *; linarith
    have ns : |(s2 : ℝ) / 2 ^ 32| ≤ 1 / 2 := by
      rw [abs_div, abs_of_pos (by positivity : (0:ℝ) < 2 ^ 32), div_le_iff₀ (by positivity)]; norm_num at *; linarith
    have nu : (0 : ℝ) ≤ (u : ℝ) / K := div_nonneg (by exact_mod_cast hu) hK0.le
    have nu' : (u : ℝ) / K ≤ 1 / 4 := by
      rw [div_le_iff₀ hK0]
      have : (4 : ℝ) * u ≤ K := by exact_mod_cast hu'
      linarith
    have ne : (1 : ℝ) / K ≤ 1 / 4 := by rw [div_le_div_iff₀ hK0 (by norm_num)]; linarith
    have ne30 : (1 : ℝ) / 2 ^ 30 ≤ 1 / K := by rw [div_le_div_iff₀ (by positivity) hK0]; linarith
    have fl : ∀ (p d : ℤ) (D : ℝ), 0 < d → 0 < D → (((p / d : ℤ) : ℝ) / D ≤ (p : ℝ) / d / D ∧ (p : ℝ) / d / D - 1 / D ≤ ((p / d : ℤ) : ℝ) / D) := by
      intro p d D hd hD
      obtain ⟨f1, f2⟩ := floor_real (p := p) hd
      constructor
      · gcongr
      · rw [← sub_div]; gcongr
    have ca := fl (A * c2) (2 ^ 30) (2 ^ 32) (by norm_num) (by positivity)
    have cu2 := fl (u * u) K K (by linarith) hK0
    have cbu := fl (B * u) (2 ^ 30) K (by norm_num) hK0
    have cau := fl (a * u2) (2 ^ 32) K (by norm_num) hK0
    have cw := fl (s2 * u2) K (2 ^ 32) (by linarith) (by positivity)
    have cb3 := fl (w * bu) (2 ^ 32) K (by norm_num) hK0
    have cA := fl A Q K hQ hK0
    rw [← h.ha] at ca
    rw [← h.hu2] at cu2
    rw [← h.hbu] at cbu
    rw [← h.hau] at cau
    rw [← h.hw] at cw
    rw [← h.hb3] at cb3
    have hQr : (Q : ℝ) * K = 2 ^ 30 := by exact_mod_cast hQK
    have eA : (A : ℝ) / Q / K = A / 2 ^ 30 := by rw [div_div, hQr]
    rw [eA] at cA
    push_cast at ca cu2 cbu cau cw cb3
    rw [show (1073741824 : ℝ) = 2 ^ 30 by norm_num] at ca cbu
    rw [show (4294967296 : ℝ) = 2 ^ 32 by norm_num] at cau cb3
    have hq : (1 : ℝ) / 2 ^ 32 ≤ 1 / K / 2 := by
      have : (1 : ℝ) / 2 ^ 32 ≤ 1 / 2 ^ 30 / 2 := by norm_num
      linarith
    have key := scheme_err (A := (A : ℝ) / 2 ^ 30) (B := (B : ℝ) / 2 ^ 30) (c2 := (c2 : ℝ) / 2 ^ 32) (s2 := (s2 : ℝ) / 2 ^ 32)
      (u := (u : ℝ) / K) (a := (a : ℝ) / 2 ^ 32) (u2 := (u2 : ℝ) / K) (bu := (bu : ℝ) / K) (au := (au : ℝ) / K) (w := (w : ℝ) / 2 ^ 32)
      (b3 := (b3 : ℝ) / K) (e := 1 / K) (q := 1 / 2 ^ 32) (A' := ((A / Q : ℤ) : ℝ) / K) (σ := (σ : ℝ)) nA nB nc ns nu nu' ne (by positivity) hq
      (by rw [show (A : ℝ) / 2 ^ 30 * (c2 / 2 ^ 32) = A * c2 / 2 ^ 30 / 2 ^ 32 by ring]; exact ca)
      (by rw [show (u : ℝ) / K * (u / K) = u * u / K / K by ring]; exact cu2) (div_nonneg (by exact_mod_cast b20) hK0.le)
      (by rw [show (B : ℝ) / 2 ^ 30 * (u / K) = B * u / 2 ^ 30 / K by ring]; exact cbu)
      (by rw [show (a : ℝ) / 2 ^ 32 * (u2 / K) = a * u2 / 2 ^ 32 / K by ring]; exact cau)
      (by rw [show (s2 : ℝ) / 2 ^ 32 * (u2 / K) = s2 * u2 / K / 2 ^ 32 by ring]; exact cw)
      (by rw [show (w : ℝ) / 2 ^ 32 * (bu / K) = w * bu / 2 ^ 32 / K by ring]; exact cb3) cA (by exact_mod_cast hσ1)
    have sσ : |(σ : ℝ)| = 1 := by exact_mod_cast hσ1
    have fin := total_err sσ nu nu' nc ns key (le_trans hAx ne30) (le_trans hBx ne30) hcx hsx hcu hsu
    have : ((A / Q + au + σ * (bu + b3) : ℤ) : ℝ) / K = ((A / Q : ℤ) : ℝ) / K + (au : ℝ) / K + σ * ((bu : ℝ) / K + (b3 : ℝ) / K) := by
      push_cast
      ring
    rw [this]
    exact fin

end Verif.FastTrig
