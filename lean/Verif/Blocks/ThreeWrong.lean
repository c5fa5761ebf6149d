import Verif.Blocks.ThreeProds
import Verif.Blocks.Exist

/-! # Three-limb blocks: operands that meet the hypotheses, and operands that exceed the declared bounds -/

namespace Verif.Blocks

/-! ## Operands meeting the hypotheses of the C67 theorems -/

example : Result3 (localAdd333 53 53 53 53) (factorAdd333 53 53) (((3) + (5 * 2 ^ (-56 : ℤ)) + (7 * 2 ^ (-111 : ℤ))) + ((7 * 2 ^ (-2 : ℤ)) + ((-3) * 2 ^ (-56 : ℤ)) + (9 * 2 ^ (-112 : ℤ))))
    (add333 (roundNearest 53 ⊥) (3) (5 * 2 ^ (-56 : ℤ)) (7 * 2 ^ (-111 : ℤ)) (7 * 2 ^ (-2 : ℤ)) ((-3) * 2 ^ (-56 : ℤ)) (9 * 2 ^ (-112 : ℤ))) :=
  C67_add333_partial (roundNearest_nearest (by norm_num) _) (by norm_num) (by norm_num) (by norm_num) (by norm_num) (by norm_num) (by norm_num)
    ⟨⟨3, 0, by norm_num, bot_le, by norm_num⟩, ⟨5, -56, by norm_num, bot_le, by norm_num⟩, ⟨7, -111, by norm_num, bot_le, by norm_num⟩, by decide +kernel, by decide +kernel⟩
    ⟨⟨7, -2, by norm_num, bot_le, by norm_num⟩, ⟨-3, -56, by norm_num, bot_le, by norm_num⟩, ⟨9, -112, by norm_num, bot_le, by norm_num⟩, by decide +kernel, by decide +kernel⟩ (by decide +kernel)

example : Result3 (2 * localAdd332 53 53) (factorAdd332 53 53) (((3) + (5 * 2 ^ (-56 : ℤ)) + (7 * 2 ^ (-111 : ℤ))) + ((7 * 2 ^ (-2 : ℤ)) + ((-3) * 2 ^ (-56 : ℤ))))
    (add332 (roundNearest 53 ⊥) (3) (5 * 2 ^ (-56 : ℤ)) (7 * 2 ^ (-111 : ℤ)) (7 * 2 ^ (-2 : ℤ)) ((-3) * 2 ^ (-56 : ℤ))) :=
  C67_add332_partial (roundNearest_nearest (by norm_num) _) (by norm_num) (by norm_num)
    ⟨⟨3, 0, by norm_num, bot_le, by norm_num⟩, ⟨5, -56, by norm_num, bot_le, by norm_num⟩, ⟨7, -111, by norm_num, bot_le, by norm_num⟩, by decide +kernel, by decide +kernel⟩
    ⟨⟨7, -2, by norm_num, bot_le, by norm_num⟩, ⟨-3, -56, by norm_num, bot_le, by norm_num⟩, by decide +kernel⟩ (by decide +kernel)

example : Result3 localAdd322 (2 ^ (-51 : ℤ)) (((3) + (5 * 2 ^ (-56 : ℤ))) + (((-5) * 2 ^ (-4 : ℤ)) + (9 * 2 ^ (-112 : ℤ))))
    (add322 (roundNearest 53 ⊥) (3) (5 * 2 ^ (-56 : ℤ)) ((-5) * 2 ^ (-4 : ℤ)) (9 * 2 ^ (-112 : ℤ))) :=
  (C67_add322 (roundNearest_nearest (by norm_num) _) (lx := 2) (hx := 4) (ly := -1 / 2) (hy := 1 / 4)
    ⟨⟨3, 0, by norm_num, bot_le, by norm_num⟩, ⟨5, -56, by norm_num, bot_le, by norm_num⟩, by decide +kernel⟩
    ⟨⟨-5, -4, by norm_num, bot_le, by norm_num⟩, ⟨9, -112, by norm_num, bot_le, by norm_num⟩, by decide +kernel⟩
    (by decide +kernel) (by decide +kernel) (by decide +kernel) (by decide +kernel) (by decide +kernel)).1

example : Result3 (localAdd331 53 53) (2 ^ (max (-47 : ℤ) (max (3 - 53) (1 - 53 - 53)))) (((3) + (5 * 2 ^ (-56 : ℤ)) + (7 * 2 ^ (-111 : ℤ))) + (-100))
    (add331 (roundNearest 53 ⊥) (3) (5 * 2 ^ (-56 : ℤ)) (7 * 2 ^ (-111 : ℤ)) (-100)) :=
  C67_add331_partial (roundNearest_nearest (by norm_num) _) (by norm_num) (by norm_num) (by norm_num) (lx := 2) (hx := 4) (ly := -200) (hy := -50)
    ⟨⟨3, 0, by norm_num, bot_le, by norm_num⟩, ⟨5, -56, by norm_num, bot_le, by norm_num⟩, ⟨7, -111, by norm_num, bot_le, by norm_num⟩, by decide +kernel, by decide +kernel⟩
    ⟨-25, 2, by norm_num, bot_le, by norm_num⟩ (by decide +kernel) (by decide +kernel) (by decide +kernel) (by decide +kernel) (by decide +kernel)

example : Result3 localMul322 factorMul322 (((3) + (5 * 2 ^ (-56 : ℤ))) * ((7 * 2 ^ (-2 : ℤ)) + ((-3) * 2 ^ (-56 : ℤ))))
    (mul322 (roundNearest 53 ⊥) (3) (5 * 2 ^ (-56 : ℤ)) (7 * 2 ^ (-2 : ℤ)) ((-3) * 2 ^ (-56 : ℤ))) :=
  C67_mul322 (roundNearest_nearest (by norm_num) _)
    ⟨⟨3, 0, by norm_num, bot_le, by norm_num⟩, ⟨5, -56, by norm_num, bot_le, by norm_num⟩, by decide +kernel⟩
    ⟨⟨7, -2, by norm_num, bot_le, by norm_num⟩, ⟨-3, -56, by norm_num, bot_le, by norm_num⟩, by decide +kernel⟩

example : Result3 localMul321 factorMul321 (((3) + (5 * 2 ^ (-56 : ℤ))) * (7 * 2 ^ (-2 : ℤ)))
    (mul321 (roundNearest 53 ⊥) (3) (5 * 2 ^ (-56 : ℤ)) (7 * 2 ^ (-2 : ℤ))) :=
  C67_mul321_partial (roundNearest_nearest (by norm_num) _)
    ⟨⟨3, 0, by norm_num, bot_le, by norm_num⟩, ⟨5, -56, by norm_num, bot_le, by norm_num⟩, by decide +kernel⟩
    ⟨7, -2, by norm_num, bot_le, by norm_num⟩

example : Result3 (localMul332 53 53) (factorMul332 53 53) (((3) + (5 * 2 ^ (-56 : ℤ)) + (7 * 2 ^ (-111 : ℤ))) * ((7 * 2 ^ (-2 : ℤ)) + ((-3) * 2 ^ (-56 : ℤ))))
    (mul332 (roundNearest 53 ⊥) (3) (5 * 2 ^ (-56 : ℤ)) (7 * 2 ^ (-111 : ℤ)) (7 * 2 ^ (-2 : ℤ)) ((-3) * 2 ^ (-56 : ℤ))) :=
  C67_mul332_partial (roundNearest_nearest (by norm_num) _) (by norm_num) (by norm_num)
    ⟨⟨3, 0, by norm_num, bot_le, by norm_num⟩, ⟨5, -56, by norm_num, bot_le, by norm_num⟩, ⟨7, -111, by norm_num, bot_le, by norm_num⟩, by decide +kernel, by decide +kernel⟩
    ⟨⟨7, -2, by norm_num, bot_le, by norm_num⟩, ⟨-3, -56, by norm_num, bot_le, by norm_num⟩, by decide +kernel⟩

example : Result3 (localMul333 53 53 53 53) (2 ^ (1 - 53 : ℤ) + 2 ^ (1 - 53 : ℤ) + 2 ^ (-51 : ℤ))
    (((3) + (5 * 2 ^ (-56 : ℤ)) + (7 * 2 ^ (-111 : ℤ))) * ((7 * 2 ^ (-2 : ℤ)) + ((-3) * 2 ^ (-56 : ℤ)) + (9 * 2 ^ (-112 : ℤ))))
    (mul333 (roundNearest 53 ⊥) (3) (5 * 2 ^ (-56 : ℤ)) (7 * 2 ^ (-111 : ℤ)) (7 * 2 ^ (-2 : ℤ)) ((-3) * 2 ^ (-56 : ℤ)) (9 * 2 ^ (-112 : ℤ))) :=
  C67_mul333 (roundNearest_nearest (by norm_num) _) (by norm_num) (by norm_num) (by norm_num) (by norm_num)
    ⟨⟨3, 0, by norm_num, bot_le, by norm_num⟩, ⟨5, -56, by norm_num, bot_le, by norm_num⟩, ⟨7, -111, by norm_num, bot_le, by norm_num⟩, by decide +kernel, by decide +kernel⟩
    ⟨⟨7, -2, by norm_num, bot_le, by norm_num⟩, ⟨-3, -56, by norm_num, bot_le, by norm_num⟩, ⟨9, -112, by norm_num, bot_le, by norm_num⟩, by decide +kernel, by decide +kernel⟩

example : Result3 (localMul313 53 53) (factorMul313 53 53) ((3) * ((7 * 2 ^ (-2 : ℤ)) + ((-3) * 2 ^ (-56 : ℤ)) + (9 * 2 ^ (-112 : ℤ))))
    (mul313 (roundNearest 53 ⊥) (3) (7 * 2 ^ (-2 : ℤ)) ((-3) * 2 ^ (-56 : ℤ)) (9 * 2 ^ (-112 : ℤ))) :=
  C67_mul313 (roundNearest_nearest (by norm_num) _) (by norm_num) (by norm_num)
    ⟨3, 0, by norm_num, bot_le, by norm_num⟩
    ⟨⟨7, -2, by norm_num, bot_le, by norm_num⟩, ⟨-3, -56, by norm_num, bot_le, by norm_num⟩, ⟨9, -112, by norm_num, bot_le, by norm_num⟩, by decide +kernel, by decide +kernel⟩

/-! ## Where the declared bounds do not hold -/

/-- **C67**: `Add333`, leading gaps 53 and 4 bits, heads of the same sign: the declared error, whose second term ignores `b_o`, is exceeded. -/
theorem C67_add333_wrong :
    ∃ xh xm xl yh ym yl : ℚ, Limbs3 53 ⊥ 53 53 xh xm xl ∧ Limbs3 53 ⊥ 4 102 yh ym yl ∧ |xh + yh| = |xh| + |yh| ∧
      ¬ Approx (localAdd333 53 53 4 102) ((xh + xm + xl) + (yh + ym + yl))
        (let r := add333 (roundNearest 53 ⊥) xh xm xl yh ym yl; r.1 + r.2.1 + r.2.2) := by
  refine ⟨(-4991259147398449) * 2 ^ (-52 : ℤ), (-4349774975403189) * 2 ^ (-110 : ℤ), 0, (-2336115879686021) * 2 ^ (-51 : ℤ), (-9007199254740991) * 2 ^ (-57 : ℤ), 0, ⟨⟨-4991259147398449, -52, by norm_num, bot_le, by norm_num⟩, ⟨-4349774975403189, -110, by norm_num, bot_le, by norm_num⟩, ⟨0, 0, by norm_num, bot_le, by norm_num⟩, by decide +kernel, by decide +kernel⟩, ⟨⟨-2336115879686021, -51, by norm_num, bot_le, by norm_num⟩, ⟨-9007199254740991, -57, by norm_num, bot_le, by norm_num⟩, ⟨0, 0, by norm_num, bot_le, by norm_num⟩, by decide +kernel, by decide +kernel⟩, by decide +kernel, ?_⟩
  unfold Approx; decide +kernel

/-- **C67**: `Add333`, heads of opposite signs: the declared error is exceeded (the relative error is above `2^-53`). -/
theorem C67_add333_cancellation_wrong :
    ∃ xh xm xl yh ym yl : ℚ, Limbs3 53 ⊥ 53 10 xh xm xl ∧ Limbs3 53 ⊥ 53 10 yh ym yl ∧
      (xh + xm + xl) + (yh + ym + yl) ≠ 0 ∧
      ¬ Approx (localAdd333 53 10 53 10) ((xh + xm + xl) + (yh + ym + yl))
        (let r := add333 (roundNearest 53 ⊥) xh xm xl yh ym yl; r.1 + r.2.1 + r.2.2) := by
  refine ⟨1, (-1) * 2 ^ (-53 : ℤ), 1 * 2 ^ (-63 : ℤ), (-9007199254740991) * 2 ^ (-53 : ℤ), 3 * 2 ^ (-117 : ℤ), 0, ⟨⟨1, 0, by norm_num, bot_le, by norm_num⟩, ⟨-1, -53, by norm_num, bot_le, by norm_num⟩, ⟨1, -63, by norm_num, bot_le, by norm_num⟩, by decide +kernel, by decide +kernel⟩, ⟨⟨-9007199254740991, -53, by norm_num, bot_le, by norm_num⟩, ⟨3, -117, by norm_num, bot_le, by norm_num⟩, ⟨0, 0, by norm_num, bot_le, by norm_num⟩, by decide +kernel, by decide +kernel⟩, by decide +kernel, ?_⟩
  unfold Approx; decide +kernel

/-- **C67**: `Add332`, heads of opposite signs: the declared error is exceeded. -/
theorem C67_add332_cancellation_wrong :
    ∃ xh xm xl yh yl : ℚ, Limbs3 53 ⊥ 53 10 xh xm xl ∧ Limbs2 53 ⊥ yh yl ∧ (xh + xm + xl) + (yh + yl) ≠ 0 ∧
      ¬ Approx (localAdd332 53 10) ((xh + xm + xl) + (yh + yl))
        (let r := add332 (roundNearest 53 ⊥) xh xm xl yh yl; r.1 + r.2.1 + r.2.2) := by
  refine ⟨1, (-1) * 2 ^ (-53 : ℤ), 1 * 2 ^ (-63 : ℤ), (-9007199254740991) * 2 ^ (-53 : ℤ), 3 * 2 ^ (-117 : ℤ), ⟨⟨1, 0, by norm_num, bot_le, by norm_num⟩, ⟨-1, -53, by norm_num, bot_le, by norm_num⟩, ⟨1, -63, by norm_num, bot_le, by norm_num⟩, by decide +kernel, by decide +kernel⟩, ⟨⟨-9007199254740991, -53, by norm_num, bot_le, by norm_num⟩, ⟨3, -117, by norm_num, bot_le, by norm_num⟩, by decide +kernel⟩, by decide +kernel, ?_⟩
  unfold Approx; decide +kernel

/-- **C67**: `Add322`: the declared factor `2^-52` of the middle limb is exceeded by operands the block accepts. -/
theorem C67_add322_factor_wrong :
    ∃ xh xl yh yl : ℚ, Limbs2 53 ⊥ xh xl ∧ Limbs2 53 ⊥ yh yl ∧ |yh + yl| ≤ 1 / 4 * |xh + xl| ∧
      let r := add322 (roundNearest 53 ⊥) xh xl yh yl
      ¬ |r.2.1| ≤ factorAdd32 * |r.1| := by
  refine ⟨140737488355335 * 2 ^ (-47 : ℤ), (-9007199254740985) * 2 ^ (-106 : ℤ), (-4503599627370493) * 2 ^ (-54 : ℤ), (-2251799813685245) * 2 ^ (-106 : ℤ), ⟨⟨140737488355335, -47, by norm_num, bot_le, by norm_num⟩, ⟨-9007199254740985, -106, by norm_num, bot_le, by norm_num⟩, by decide +kernel⟩, ⟨⟨-4503599627370493, -54, by norm_num, bot_le, by norm_num⟩, ⟨-2251799813685245, -106, by norm_num, bot_le, by norm_num⟩, by decide +kernel⟩, by decide +kernel, ?_⟩
  decide +kernel

/-- **C67**: `Add321`: the declared factor `2^-52` of the middle limb is exceeded by operands the block accepts. -/
theorem C67_add321_factor_wrong :
    ∃ xh xl y : ℚ, Limbs2 53 ⊥ xh xl ∧ Rep 53 ⊥ y ∧ |y| < 1 / 4 * |xh + xl| ∧
      let r := add321 (roundNearest 53 ⊥) xh xl y
      ¬ |r.2.1| ≤ factorAdd32 * |r.1| := by
  refine ⟨6012739971510129 * 2 ^ (-52 : ℤ), (-1503184992876165) * 2 ^ (-103 : ℤ), (-2993110915581619) * 2 ^ (-53 : ℤ), ⟨⟨6012739971510129, -52, by norm_num, bot_le, by norm_num⟩, ⟨-1503184992876165, -103, by norm_num, bot_le, by norm_num⟩, by decide +kernel⟩, ⟨-2993110915581619, -53, by norm_num, bot_le, by norm_num⟩, by decide +kernel, ?_⟩
  decide +kernel

/-- **C67**: `Add322` on binary32 limbs: the declared error, a constant made for binary64, is exceeded. -/
theorem C67_add322_binary32_wrong :
    ∃ xh xl yh yl : ℚ, Limbs2 24 ⊥ xh xl ∧ Limbs2 24 ⊥ yh yl ∧ |yh + yl| ≤ 1 / 4 * |xh + xl| ∧
      ¬ Approx localAdd322 ((xh + xl) + (yh + yl))
        (let r := add322 (roundNearest 24 ⊥) xh xl yh yl; r.1 + r.2.1 + r.2.2) := by
  refine ⟨8816209 * 2 ^ (-23 : ℤ), 2846873 * 2 ^ (-46 : ℤ), 9974823 * 2 ^ (-46 : ℤ), 16388009 * 2 ^ (-72 : ℤ), ⟨⟨8816209, -23, by norm_num, bot_le, by norm_num⟩, ⟨2846873, -46, by norm_num, bot_le, by norm_num⟩, by decide +kernel⟩, ⟨⟨9974823, -46, by norm_num, bot_le, by norm_num⟩, ⟨16388009, -72, by norm_num, bot_le, by norm_num⟩, by decide +kernel⟩, by decide +kernel, ?_⟩
  unfold Approx; decide +kernel

/-- **C67**: `Add331`, low limb far below the middle one: the declared error is exceeded. -/
theorem C67_add331_wrong :
    ∃ xh xm xl y : ℚ, Limbs3 53 ⊥ 10 106 xh xm xl ∧ Rep 53 ⊥ y ∧ |xh + xm + xl| < 1 / 4 * |y| ∧
      ¬ Approx (localAdd331 10 106) ((xh + xm + xl) + y)
        (let r := add331 (roundNearest 53 ⊥) xh xm xl y; r.1 + r.2.1 + r.2.2) := by
  refine ⟨5028728016654667 * 2 ^ (-52 : ℤ), 9007199254740991 * 2 ^ (-63 : ℤ), 4525454377975279 * 2 ^ (-169 : ℤ), 4505140458999385 * 2 ^ (-49 : ℤ), ⟨⟨5028728016654667, -52, by norm_num, bot_le, by norm_num⟩, ⟨9007199254740991, -63, by norm_num, bot_le, by norm_num⟩, ⟨4525454377975279, -169, by norm_num, bot_le, by norm_num⟩, by decide +kernel, by decide +kernel⟩, ⟨4505140458999385, -49, by norm_num, bot_le, by norm_num⟩, by decide +kernel, ?_⟩
  unfold Approx; decide +kernel

/-- **C67**: `Add331`: the declared factor of the middle limb (`2^-105` here) is exceeded: the code takes the smallest of its three terms. -/
theorem C67_add331_factor_wrong :
    ∃ xh y : ℚ, Limbs3 53 ⊥ 53 53 xh 0 0 ∧ Rep 53 ⊥ y ∧ |xh| < 1 / 4 * |y| ∧
      let r := add331 (roundNearest 53 ⊥) xh 0 0 y
      ¬ |r.2.1| ≤ factorAdd331 53 53 * |r.1| := by
  refine ⟨1193596326544985 * 2 ^ (-50 : ℤ), 717692673923079 * 2 ^ (-46 : ℤ), ⟨⟨1193596326544985, -50, by norm_num, bot_le, by norm_num⟩, ⟨0, 0, by norm_num, bot_le, by norm_num⟩, ⟨0, 0, by norm_num, bot_le, by norm_num⟩, by decide +kernel, by decide +kernel⟩, ⟨717692673923079, -46, by norm_num, bot_le, by norm_num⟩, by decide +kernel, ?_⟩
  decide +kernel

/-- **C67**: `Mul322` on binary32 limbs: the declared error, a constant made for binary64, is exceeded. -/
theorem C67_mul322_binary32_wrong :
    ∃ xh xl yh yl : ℚ, Limbs2 24 ⊥ xh xl ∧ Limbs2 24 ⊥ yh yl ∧
      ¬ Approx localMul322 ((xh + xl) * (yh + yl))
        (let r := mul322 (roundNearest 24 ⊥) xh xl yh yl; r.1 + r.2.1 + r.2.2) := by
  refine ⟨10460933 * 2 ^ (-23 : ℤ), 11514295 * 2 ^ (-48 : ℤ), 12797451 * 2 ^ (-23 : ℤ), 7737963 * 2 ^ (-47 : ℤ), ⟨⟨10460933, -23, by norm_num, bot_le, by norm_num⟩, ⟨11514295, -48, by norm_num, bot_le, by norm_num⟩, by decide +kernel⟩, ⟨⟨12797451, -23, by norm_num, bot_le, by norm_num⟩, ⟨7737963, -47, by norm_num, bot_le, by norm_num⟩, by decide +kernel⟩, ?_⟩
  unfold Approx; decide +kernel

/-- **C67**: `Mul321`, overlapping limbs, which the block does not refuse: the declared error is exceeded. -/
theorem C67_mul321_wrong :
    ∃ xh xl y : ℚ, Rep 53 ⊥ xh ∧ Rep 53 ⊥ xl ∧ Rep 53 ⊥ y ∧ |xl| ≤ 1 / 8 * |xh| ∧
      ¬ Approx localMul321 ((xh + xl) * y) (let r := mul321 (roundNearest 53 ⊥) xh xl y; r.1 + r.2.1 + r.2.2) := by
  refine ⟨(-13) * 2 ^ (-3 : ℤ), (-9007199254740991) * 2 ^ (-56 : ℤ), 9007199254740991 * 2 ^ (-52 : ℤ), ⟨-13, -3, by norm_num, bot_le, by norm_num⟩, ⟨-9007199254740991, -56, by norm_num, bot_le, by norm_num⟩, ⟨9007199254740991, -52, by norm_num, bot_le, by norm_num⟩, by decide +kernel, ?_⟩
  unfold Approx; decide +kernel

/-- **C67**: `Mul332`, leading gap of one bit, which the block accepts: the declared error is negative. -/
theorem C67_mul332_wrong :
    ∃ xh xm xl yh yl : ℚ, Limbs3 53 ⊥ 1 53 xh xm xl ∧ Limbs2 53 ⊥ yh yl ∧ localMul332 1 53 < 0 ∧
      ¬ Approx (localMul332 1 53) ((xh + xm + xl) * (yh + yl))
        (let r := mul332 (roundNearest 53 ⊥) xh xm xl yh yl; r.1 + r.2.1 + r.2.2) := by
  refine ⟨1, 1 * 2 ^ (-1 : ℤ), 0, 1, 0, ⟨⟨1, 0, by norm_num, bot_le, by norm_num⟩, ⟨1, -1, by norm_num, bot_le, by norm_num⟩, ⟨0, 0, by norm_num, bot_le, by norm_num⟩, by decide +kernel, by decide +kernel⟩, ⟨⟨1, 0, by norm_num, bot_le, by norm_num⟩, ⟨0, 0, by norm_num, bot_le, by norm_num⟩, by decide +kernel⟩, by decide +kernel, ?_⟩
  unfold Approx; decide +kernel

end Verif.Blocks
