import Verif.X86.Spec

/-! # Model of the lowering of vector comparisons and selections to SSE and AVX2 intrinsics

Every operation works lane by lane: the model is that of one lane, of any width. -/

namespace Verif.X86

open Verif.Float (Fmt Val)
open Verif.Special

/-- instruction sets: the tables `sse_c_code_generation_table` and `sse2_…` on one side, `avx_…` and `avx2_…` on the other -/
inductive Target
  | sse | avx2
  deriving DecidableEq, Repr

/-- outcomes other than code -/
inductive Err
  | noIndex | unsupported | keyError | recursion
  deriving DecidableEq, Repr

/-- the intrinsics of the comparisons: `_mm*_cmpeq_epi*`, `_mm*_cmpgt_epi*`, `_mm_cmplt_epi32`, `_mm_cmp*_ps` and `_mm256_cmp_ps` with an immediate -/
inductive Prim
  | eqI | gtI | ltI | ps (c : Cmp) | imm (n : ℕ)
  deriving DecidableEq, Repr

/-- vector code, on the vectors of an environment -/
inductive V
  | arg (n : ℕ)
  | prim (p : Prim) (a b : V)
  | and (a b : V)
  | or (a b : V)
  | not (a : V)
  deriving Repr

/-- Intel 64 manual, table of the predicates of CMPPS: the lower four bits of the immediate; the fifth is about signaling.  The arguments are: less, equal, greater,
unordered -/
def hwPred (n : ℕ) (lt eq gt un : Bool) : Bool :=
  match n % 16 with
  | 0 => eq
  | 1 => lt
  | 2 => lt || eq
  | 3 => un
  | 4 => lt || gt || un
  | 5 => eq || gt || un
  | 6 => gt || un
  | 7 => lt || eq || gt
  | 8 => eq || un
  | 9 => lt || un
  | 10 => lt || eq || un
  | 11 => false
  | 12 => lt || gt
  | 13 => eq || gt
  | 14 => gt
  | _ => true

/-- the intrinsics (external): the integer comparisons are signed -/
def Prim.holds (F : Fmt) {w : ℕ} (p : Prim) (x y : BitVec w) : Bool :=
  match p with
  | .eqI => decide (x = y)
  | .gtI => y.slt x
  | .ltI => x.slt y
  | .ps c => c.flt (F.decode x.toNat) (F.decode y.toNat)
  | .imm n =>
    let a := F.decode x.toNat
    let b := F.decode y.toNat
    hwPred n (decide (ltSpec a b = .yes)) (decide (eqSpec a b = .yes)) (decide (ltSpec b a = .yes)) (decide (IsNaN a ∨ IsNaN b))

/-- value of a lane; a comparison returns a mask.  `BitLogicNegate` and `LogicalNot` are `_mm*_andnot(a, -1)`; the casts do not change the bits -/
def V.eval (F : Fmt) {w : ℕ} (env : ℕ → BitVec w) : V → BitVec w
  | .arg n => env n
  | .prim p a b => mask w (p.holds F (a.eval F env) (b.eval F env))
  | .and a b => a.eval F env &&& b.eval F env
  | .or a b => a.eval F env ||| b.eval F env
  | .not a => ~~~ (a.eval F env) &&& BitVec.allOnes w

/-- metalibm_core/targets/intel/x86_processor.py:671-681 `specifier_code`, the immediate of `_mm256_cmp_ps` -/
def immCode : Cmp → ℕ
  | .eq => 16
  | .lt => 1
  | .le => 2
  | .ne => 20
  | .gt => 14
  | .ge => 13

/-- x86_processor.py:594-706 `generate_sse_avx_select_boolean_value`, for the comparisons the tables give to it (x86_processor.py:1038-1135 and 2342-2460): the integer
comparisons of every signedness use the signed intrinsics; the format of four unsigned 64-bit integers is not in its maps; the formats of binary64 are not modelled -/
def direct (t : Target) (k : Kind) (c : Cmp) (a b : V) : Except Err V :=
  match k, t with
  | .f32, .sse => .ok (.prim (.ps c) a b)
  | .f32, .avx2 => .ok (.prim (.imm (immCode c)) a b)
  | .u64, _ => .error .keyError
  | .i64, .sse => .error .unsupported
  | _, _ =>
    match c, t with
    | .eq, _ => .ok (.prim .eqI a b)
    | .gt, _ => .ok (.prim .gtI a b)
    | .lt, .sse => .ok (.prim .ltI a b)
    | _, _ => .error .unsupported

/-- x86_processor.py:892-919 `expand_sse_comparison`, called by the table for the integers -/
def sseCmp (k : Kind) (c : Cmp) (a b : V) : Except Err V :=
  match c with
  | .le => do return .or (← direct .sse k .lt a b) (← direct .sse k .eq a b)
  | .ne => do return .or (← direct .sse k .lt a b) (← direct .sse k .gt a b)
  | .ge => do return .or (← direct .sse k .gt a b) (← direct .sse k .eq a b)
  | c => direct .sse k c a b

/-- x86_processor.py:921-957 `expand_avx2_comparison`, called by the table for the integers and for `!=` of floating-point numbers; equality of unsigned 64-bit
integers has no entry -/
def avxCmp (k : Kind) (c : Cmp) (a b : V) : Except Err V :=
  let eq : Except Err V := if k = .u64 then .error .unsupported else direct .avx2 k .eq a b
  let lt : Except Err V := direct .avx2 k .gt b a
  match c with
  | .le => if k = .u64 then .error .unsupported else do return .or (← lt) (← eq)
  | .lt => lt
  | .ne => do return .not (← eq)
  | .ge => if k = .u64 then .error .unsupported else do return .or (← direct .avx2 k .gt a b) (← eq)
  | .gt => direct .avx2 k .gt a b
  | .eq => eq

/-- x86_processor.py:1038-1135 and 2342-2460 the comparisons of the tables, with the numerical format for the result -/
def cmpV (t : Target) (k : Kind) (c : Cmp) (a b : V) : Except Err V :=
  match t, k, c with
  | .sse, .f32, c => direct .sse .f32 c a b
  | .sse, k, c => sseCmp k c a b
  | .avx2, .f32, .ne => avxCmp .f32 .ne a b
  | .avx2, .f32, c => direct .avx2 .f32 c a b
  | .avx2, k, c => avxCmp k c a b

/-- x86_processor.py:708-719 `expand_sse_avx_bool_comparison`, a comparison whose result is a vector of booleans: the AVX2 table lacks `!=` of floating-point numbers and `==`, `!=`, `<=` of
64-bit integers -/
def boolCmp (t : Target) (k : Kind) (c : Cmp) (a b : V) : Except Err V :=
  match t, k, c with
  | .avx2, .f32, .ne => .error .unsupported
  | .avx2, .i64, .eq | .avx2, .i64, .ne | .avx2, .i64, .le => .error .unsupported
  | t, k, c => cmpV t k c a b

/-- a condition that is not at the top of a selection, with the entries of the logical operations -/
def condV (t : Target) : Cond → Except Err V
  | .cmp k c a b => boolCmp t k c (.arg a) (.arg b)
  | .not a => do return .not (← condV t a)
  | .and a b => do return .and (← condV t a) (← condV t b)
  | .or a b => do return .or (← condV t a) (← condV t b)
  | .var n => .ok (.arg n)

/-- x86_processor.py:542-555 `is_cond_comparison_tree` -/
def isTree : Cond → Bool
  | .cmp .. => true
  | .not a => isTree a
  | .and a b => isTree a && isTree b
  | .or a b => isTree a && isTree b
  | .var _ => false

/-- x86_processor.py:582-592 `invert_comp_specifier` -/
def invert : Cmp → Cmp
  | .eq => .ne
  | .lt => .ge
  | .le => .gt
  | .ne => .eq
  | .gt => .le
  | .ge => .lt

/-- x86_processor.py:724-776 `squash_sse_avx_cst_select` of the selection between the masks -1 and 0, or 0 and -1 if `neg`.  The second operand of the condition is read
first, which fails on a negation.  The format of the result of a logical operation is that of a vector of booleans, which is not that of the selection: a cast is inserted. -/
def squash (t : Target) (cond : Cond) (neg : Bool) : Except Err V :=
  match cond with
  | .cmp k c a b => cmpV t k (if neg then invert c else c) (.arg a) (.arg b)
  | .not _ => .error .noIndex
  | .and a b => if neg then do return .not (← condV t (.and a b)) else condV t (.and a b)
  | .or a b => if neg then do return .not (← condV t (.or a b)) else condV t (.or a b)
  | .var _ => .error .noIndex

/-- x86_processor.py:803-851 `convert_select_to_logic` and the choice of the tables (x86_processor.py:1018-1033, 2601-2632) between it and the function above, by the
predicate of x86_processor.py:557-580; `fuel` is the depth of the recursion of the code generator.  The vector formats the tables have no entry for are not modelled. -/
def select (t : Target) : ℕ → Cond → V → V → Except Err V
  | 0, _, _, _ => .error .recursion
  | fuel + 1, cond, a, b => do
    let m1 ← maskSel fuel cond false
    let m2 ← maskSel fuel cond true
    return .or (.and m1 a) (.and m2 b)
where
  /-- the selection between masks: the table gives it to `squash_sse_avx_cst_select` if the condition is made of comparisons, to `convert_select_to_logic` otherwise
  (its value is never reached) -/
  maskSel : ℕ → Cond → Bool → Except Err V
  | fuel, cond, neg =>
    if isTree cond then squash t cond neg
    else match fuel with
      | 0 => .error .recursion
      | fuel + 1 => do
        let m1 ← maskSel fuel cond false
        let m2 ← maskSel fuel cond true
        return if neg then m2 else m1

/-- x86_processor.py:1660-1665, 1746-1751: `_mm_testz_si128` and `_mm256_testz_si256` of the register and itself: whether their conjunction is zero.  The register is the
list of its lanes. -/
def allZero {w : ℕ} (l : List (BitVec w)) : Bool := l.all fun x => x &&& x == 0

/-- x86_processor.py:1727-1734 `legalize_test_IsMaskNotAnyZero`: the test that the complement of the mask is zero (AVX).  The SSE4.1 entry (x86_processor.py:1654-1659)
gives `_mm_test_all_ones`, which has one operand, two arguments, and is not modelled: that code does not compile. -/
def notAnyZero {w : ℕ} (l : List (BitVec w)) : Bool := allZero (l.map fun x => ~~~x)

end Verif.X86
