import Verif.Fuse.Spec

/-! # Model of the fusion of multiplications and additions, of its lowering and of the support of the result by the C backend -/

namespace Verif.Fuse

open Verif.Float (Fmt Val)
open Verif.Elem

/-- metalibm_core/opt/p_function_std.py:130-230 `fuse_multiply_add`, with `dot_product_enabled` as the first argument.
Simplifications: the graph is a tree (a shared node is memoized in the code); additions have two operands; the in-place update of the operands of a node that is kept
is the construction of a new node; `silent`, `index`, `handle`, the tag and `commutated` are not modelled. -/
def fuse (d : Bool) : Expr → Expr
  | .sum s p u ex (.mul p0 n0 g0 e0 a0 a1) (.mul p1 n1 g1 e1 b0 b1) =>
    if u then .sum s p u ex (.mul p0 n0 g0 e0 (fuse d a0) (fuse d a1)) (.mul p1 n1 g1 e1 (fuse d b0) (fuse d b1))
    else if g0 || g1 then .sum s p u ex (.mul p0 n0 g0 e0 (fuse d a0) (fuse d a1)) (.mul p1 n1 g1 e1 (fuse d b0) (fuse d b1))
    else if d && !n0 && !n1 then .dot s p (e0 && e1 && ex) (fuse d a0) (fuse d a1) (fuse d b0) (fuse d b1)
    else if !n0 then .fma (if s then .subtract else .standard) p (e0 && ex) (fuse d a0) (fuse d a1) (.mul p1 n1 g1 e1 (fuse d b0) (fuse d b1))
    else if !n1 then .fma (if s then .subtractNegate else .standard) p (e1 && ex) (fuse d b0) (fuse d b1) (.mul p0 n0 g0 e0 (fuse d a0) (fuse d a1))
    else .sum s p u ex (.mul p0 n0 g0 e0 (fuse d a0) (fuse d a1)) (.mul p1 n1 g1 e1 (fuse d b0) (fuse d b1))
  | .sum s p u ex (.mul p0 n0 g0 e0 a0 a1) b =>
    if u then .sum s p u ex (.mul p0 n0 g0 e0 (fuse d a0) (fuse d a1)) (fuse d b)
    else if g0 then .sum s p u ex (.mul p0 n0 g0 e0 (fuse d a0) (fuse d a1)) (fuse d b)
    else if !n0 then .fma (if s then .subtract else .standard) p (e0 && ex) (fuse d a0) (fuse d a1) (fuse d b)
    else .sum s p u ex (.mul p0 n0 g0 e0 (fuse d a0) (fuse d a1)) (fuse d b)
  | .sum s p u ex a (.mul p1 n1 g1 e1 b0 b1) =>
    if u then .sum s p u ex (fuse d a) (.mul p1 n1 g1 e1 (fuse d b0) (fuse d b1))
    else if g1 then .sum s p u ex (fuse d a) (.mul p1 n1 g1 e1 (fuse d b0) (fuse d b1))
    else if !n1 then .fma (if s then .subtractNegate else .standard) p (e1 && ex) (fuse d b0) (fuse d b1) (fuse d a)
    else .sum s p u ex (fuse d a) (.mul p1 n1 g1 e1 (fuse d b0) (fuse d b1))
  | .sum s p u ex a b => .sum s p u ex (fuse d a) (fuse d b)
  | .leaf n p => .leaf n p
  | .mul p n g e a b => .mul p n g e (fuse d a) (fuse d b)
  | .fma s p e a b c => .fma s p e (fuse d a) (fuse d b) (fuse d c)
  | .dot s p e a b c f => .dot s p e (fuse d a) (fuse d b) (fuse d c) (fuse d f)
  | .op1 f p a => .op1 f p (fuse d a)
  | .op2 f p a b => .op2 f p (fuse d a) (fuse d b)

/-- the floating-point format of a precision; that of an integer has no meaning here -/
def fm : Prec → Fmt
  | .b32 => ⟨8, 23⟩
  | .b64 => ⟨11, 52⟩
  | .int _ => ⟨11, 52⟩

/-- metalibm_core/code_generation/generic_processor.py:502-528 the C expression of a fused operation, with the C function `fma` -/
noncomputable def fmaC (F : Fmt) : Spec → Val → Val → Val → Val
  | .standard, a, b, c => ffma F a b c
  | .negate, a, b, c => fneg (ffma F a b c)
  | .subtractNegate, a, b, c => ffma F (fneg a) b c
  | .subtract, a, b, c => ffma F a b (fneg c)

/-- metalibm_core/core/legalizer.py:713-741 `legalize_fma_to_std`, the lowering of a fused operation to the standard one and to negations (`op1 0`), used by the LLVM-IR
backend -/
def toStd : Spec → Prec → Expr → Expr → Expr → Expr
  | .standard, p, a, b, c => .fma .standard p false a b c
  | .negate, p, a, b, c => .op1 0 p (.fma .standard p false a b c)
  | .subtract, p, a, b, c => .fma .standard p false a b (.op1 0 p c)
  | .subtractNegate, p, a, b, c => .fma .standard p false (.op1 0 p a) b c

/-- the value computed by the generated C program, rounding every operation to nearest in its format; no backend of the repository implements
the dot products, that are given here the value of a fused operation on the rounded second product; `o1` and `o2` are the other operations -/
noncomputable def evalF (env : ℕ → Val) (o1 : ℕ → Prec → Val → Val) (o2 : ℕ → Prec → Val → Val → Val) : Expr → Val
  | .leaf n _ => env n
  | .mul p _ _ _ a b => fmul (fm p) (evalF env o1 o2 a) (evalF env o1 o2 b)
  | .sum s p _ _ a b => if s then fsub (fm p) (evalF env o1 o2 a) (evalF env o1 o2 b) else fadd (fm p) (evalF env o1 o2 a) (evalF env o1 o2 b)
  | .fma s p _ a b c => fmaC (fm p) s (evalF env o1 o2 a) (evalF env o1 o2 b) (evalF env o1 o2 c)
  | .dot s p _ a b c d =>
    ffma (fm p) (evalF env o1 o2 a) (evalF env o1 o2 b) (if s then fneg (fmul (fm p) (evalF env o1 o2 c) (evalF env o1 o2 d)) else fmul (fm p) (evalF env o1 o2 c) (evalF env o1 o2 d))
  | .op1 f p a => o1 f p (evalF env o1 o2 a)
  | .op2 f p a b => o2 f p (evalF env o1 o2 a) (evalF env o1 o2 b)

/-- the format of a node -/
def prec : Expr → Prec
  | .leaf _ p => p
  | .mul p .. => p
  | .sum _ p .. => p
  | .fma _ p .. => p
  | .dot _ p .. => p
  | .op1 _ p _ => p
  | .op2 _ p _ _ => p

/-- metalibm_core/code_generation/generic_processor.py:460-528 `type_strict_match` of the additions, subtractions, multiplications and fused operations of the C backend
(the mixed formats of the multiplications are not modelled); there is no entry for the dot products; the other operations are supported -/
def supported : Expr → Bool
  | .leaf _ _ => true
  | .mul p _ _ _ a b => decide (prec a = p) && decide (prec b = p) && supported a && supported b
  | .sum _ p _ _ a b => decide (prec a = p) && decide (prec b = p) && supported a && supported b
  | .fma _ p _ a b c => (decide (p = .b32) || decide (p = .b64)) && decide (prec a = p) && decide (prec b = p) && decide (prec c = p) && supported a && supported b && supported c
  | .dot .. => false
  | .op1 _ _ a => supported a
  | .op2 _ _ a b => supported a && supported b

/-- metalibm_core/opt/ml_blocks.py:425-436 `Split` of the leaf 0 by the constant of the leaf 1: the high part -/
def splitHi : Expr :=
  let a : Expr := .leaf 0 .b64
  let t : Expr := .mul .b64 false false false (.leaf 1 .b64) a
  let tmp : Expr := .sum true .b64 false false a t
  .sum false .b64 false false tmp t

end Verif.Fuse
