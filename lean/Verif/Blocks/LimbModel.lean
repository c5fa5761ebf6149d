import Verif.Blocks.Model
import Verif.Blocks.LimbSpec

/-! Model of limb-wise comparison, min, max, abs and constants:
`metalibm_core/core/multi_precision.py`, `metalibm_core/opt/p_expand_multi_precision.py`.
Limbs are finite numbers (ℚ); NaN, infinities and signed zeros are left out. -/

namespace Verif.Blocks

/-- multi_precision.py:89-94, 141-146 `strict_specifier` (dictionary of the four order specifiers;
the other two do not reach it) -/
def Cmp.strict : Cmp → Cmp
  | .lt => .lt
  | .gt => .gt
  | .le => .lt
  | .ge => .gt
  | c => c

/-- multi_precision.py:69-105 `legalize_mp_2elt_comparison` -/
def cmp2 (c : Cmp) (lhs rhs : ℚ × ℚ) : Bool :=
  match c with
  | .eq => Cmp.eq.eval lhs.1 rhs.1 && Cmp.eq.eval lhs.2 rhs.2
  | .ne => Cmp.ne.eval lhs.1 rhs.1 || Cmp.ne.eval lhs.2 rhs.2
  | c => c.strict.eval lhs.1 rhs.1 || (Cmp.eq.eval lhs.1 rhs.1 && c.eval lhs.2 rhs.2)

/-- multi_precision.py:116-117,129-130,148-149: an operand that is not a constant goes through
`Normalize_33` -/
def renorm (rnd : ℚ → ℚ) (isConst : Bool) (x : ℚ × ℚ × ℚ) : ℚ × ℚ × ℚ :=
  if isConst then x else normalize33 rnd x.1 x.2.1 x.2.2

/-- multi_precision.py:107-168 `legalize_mp_3elt_comparison`; the Booleans are
`is_constant(lhs)`, `is_constant(rhs)` -/
def cmp3 (rnd : ℚ → ℚ) (c : Cmp) (cl cr : Bool) (lhs rhs : ℚ × ℚ × ℚ) : Bool :=
  let l := renorm rnd cl lhs
  let r := renorm rnd cr rhs
  match c with
  | .eq => Cmp.eq.eval l.1 r.1 && (Cmp.eq.eval l.2.1 r.2.1 && Cmp.eq.eval l.2.2 r.2.2)
  | .ne => Cmp.ne.eval l.1 r.1 || (Cmp.ne.eval l.2.1 r.2.1 || Cmp.ne.eval l.2.2 r.2.2)
  | c => c.strict.eval l.1 r.1 || (Cmp.eq.eval l.1 r.1 &&
      (c.strict.eval l.2.1 r.2.1 || (Cmp.eq.eval l.2.1 r.2.1 && c.eval l.2.2 r.2.2)))

/-- p_expand_multi_precision.py:312-314 (`expand_max`), 337-339 (`expand_min`): the loop over the
remaining limbs, with its two predicates as accumulators -/
def predLoop (gt eq : Bool) : List ℚ → List ℚ → Bool
  | a :: as, b :: bs =>
      predLoop (gt || (eq && Cmp.gt.eval a b)) (eq && Cmp.eq.eval a b) as bs
  | _, _ => gt

/-- p_expand_multi_precision.py:310-314, 335-339: the predicate `predGt` of `expand_max`/`expand_min`; both operands have at least one limb -/
def predGt : List ℚ → List ℚ → Bool
  | a :: as, b :: bs => predLoop (Cmp.gt.eval a b) (Cmp.eq.eval a b) as bs
  | _, _ => false

/-- p_expand_multi_precision.py:302-315 `expand_max` -/
def expandMax (l r : List ℚ) : List ℚ :=
  List.zipWith (fun a b => if predGt l r then a else b) l r

/-- p_expand_multi_precision.py:327-340 `expand_min` -/
def expandMin (l r : List ℚ) : List ℚ :=
  List.zipWith (fun a b => if predGt l r then b else a) l r

/-- p_expand_multi_precision.py:217-223 `expand_abs` (2 limbs: multi_precision.py:52-57
`legalize_mp_2elt_abs`) -/
def expandAbs : List ℚ → List ℚ
  | [] => []
  | a :: as => |a| :: as.map fun b => if Cmp.ge.eval a 0 then b else -b

/-- p_expand_multi_precision.py:280-289 `expand_negation` -/
def expandNeg (l : List ℚ) : List ℚ := l.map fun a => -a

/-- p_expand_multi_precision.py:111-122 `expand_cst`: one rounding function per limb format
(`round_sollya_object`); the second component is the residue left in `cst_value`. -/
def expandCst : List (ℚ → ℚ) → ℚ → List ℚ × ℚ
  | [], v => ([], v)
  | f :: fs, v =>
      let sub := f v
      let r := expandCst fs (v - sub)
      (sub :: r.1, r.2)

/-- p_expand_multi_precision.py:378-384 `expand_conversion` to a format with more limbs: pad with
zeros -/
def padLimbs (n : ℕ) (l : List ℚ) : List ℚ := l ++ List.replicate (n - l.length) 0

/-- p_expand_multi_precision.py:385-394 `expand_conversion` from 3 to 2 limbs -/
def narrow32 (rnd : ℚ → ℚ) (x : ℚ × ℚ × ℚ) : ℚ × ℚ :=
  let r := normalize33 rnd x.1 x.2.1 x.2.2
  (r.1, r.2.1)

end Verif.Blocks
