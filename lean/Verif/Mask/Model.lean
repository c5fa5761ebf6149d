import Verif.Mask.Spec

/-!
# Model of the generated code for vectors of booleans (property C120)

Files: metalibm_core/targets/common/vector_backend.py, metalibm_core/support_lib/ml_support_lib.h,
metalibm_core/opt/p_vector_mask_test_legalization.py, metalibm_core/opt/opt_utils.py.

A lane of a mask is a machine integer (`ml_bool4_t`: 32 bits, `ml_lbool4_t`: 64 bits).  What the C compiler makes of an operator on
vectors is taken from its documentation: a comparison gives all ones (-1) or 0 in each lane, `~`, `&` and `|` are bitwise.
-/

namespace Verif.Mask

/-- The two code generation tables for vectors: C with the vector extensions of the compiler, and OpenCL C. -/
inductive Target
  | c | opencl
  deriving DecidableEq, Repr

/-- The symbols of the comparison operators. -/
inductive Sym
  | eqeq | noteq | le | lt | gt | ge
  deriving DecidableEq, Repr

/-- ml_operations.py:1664-1675 `symbol` of the comparison specifiers -/
def ownSymbol : Comp → Sym
  | .eq => .eqeq
  | .ne => .noteq
  | .lt => .lt
  | .le => .le
  | .gt => .gt
  | .ge => .ge

/-- vector_backend.py:74-81 `COMPARATOR_SYMBOL_MAP` -/
def symbolMap : Comp → Sym
  | .eq => .eqeq
  | .ne => .eqeq
  | .le => .le
  | .lt => .lt
  | .gt => .gt
  | .ge => .ge

/-- vector_backend.py:1545-1584 (C: `COMPARATOR_SYMBOL_MAP`) and 451-482 (OpenCL: `comp_specifier.symbol`) -/
def symbol : Target → Comp → Sym
  | .c, s => symbolMap s
  | .opencl, s => ownSymbol s

/-- What an operator of C computes on two elements; `<=` and `>=` are false when the elements are not ordered. -/
def Sym.run {α : Type} (o : Order α) : Sym → α → α → Bool
  | .eqeq, a, b => o.eq a b
  | .noteq, a, b => !(o.eq a b)
  | .le, a, b => o.lt a b || o.eq a b
  | .lt, a, b => o.lt a b
  | .gt, a, b => o.lt b a
  | .ge, a, b => o.lt b a || o.eq a b

/-- A lane of the result of a comparison of vectors (C compiler and OpenCL: -1 or 0), and of ml_support_lib.h:739-747
`DEF_ML_VECTOR_TEST_FUNC_OP1` (`? -1 : 0`) -/
def lane (w : ℕ) (b : Bool) : BitVec w := if b then BitVec.allOnes w else 0#w

/-- ml_support_lib.h:871-908 `ml_vec_assembling_1_2_bool`, `_1_4_bool`, `_1_8_bool`: the arguments are of type `bool`, hence 0 or 1,
and are stored in the lanes -/
def scalLane (w : ℕ) (b : Bool) : BitVec w := if b then 1#w else 0#w

/-- vector_backend.py:1515-1523 `~` (C), 421-430 `!` (OpenCL: -1 where the lane is 0, and 0 elsewhere) -/
def notLane (t : Target) {w : ℕ} (a : BitVec w) : BitVec w :=
  match t with
  | .c => ~~~a
  | .opencl => lane w (a == 0#w)

/-- vector_backend.py:1534-1544 `&` (C), 431-440 `&&` (OpenCL) -/
def andLane (t : Target) {w : ℕ} (a b : BitVec w) : BitVec w :=
  match t with
  | .c => a &&& b
  | .opencl => lane w (a != 0#w && b != 0#w)

/-- vector_backend.py:1524-1533 `|` (C), 441-450 `||` (OpenCL) -/
def orLane (t : Target) {w : ℕ} (a b : BitVec w) : BitVec w :=
  match t with
  | .c => a ||| b
  | .opencl => lane w (a != 0#w || b != 0#w)

/-- The generated code for a vector of booleans.  `join` is ml_support_lib.h:890-906 `ml_vec_assembling_2_4_bool`,
`_4_8_bool`, `_4_8_lbool`: the lanes of the first vector and then those of the second.  Simplification: the widths of all masks of one expression are the same. -/
def code {α : Type} (t : Target) (w : ℕ) (v : Env α) : BExpr → List (BitVec w)
  | .cmp c i j => List.zipWith (fun a b => lane w ((symbol t c).run v.order a b)) (v.vec i) (v.vec j)
  | .test k i => (v.vec i).map fun a => lane w (v.tests k a)
  | .scal l => l.map fun i => scalLane w (v.scal i)
  | .not a => (code t w v a).map (notLane t)
  | .and a b => List.zipWith (andLane t) (code t w v a) (code t w v b)
  | .or a b => List.zipWith (orLane t) (code t w v a) (code t w v b)
  | .join a b => code t w v a ++ code t w v b

/-- How the generated code reads a lane: ml_support_lib.h:1109-1110 `ML_VSELECT` (`(test)[k] ? ... : ...`) and the mask tests
(`vop[0] == 0`) -/
def isTrue {w : ℕ} (a : BitVec w) : Bool := a != 0#w

/-- ml_support_lib.h:1109-1110 `ML_VSELECT` with the size of the vectors -/
def select {w : ℕ} {β : Type} (m : List (BitVec w)) (a b : List β) : List β :=
  List.zipWith (fun c p => if isTrue c then p.1 else p.2) m (a.zip b)

/-! ## Functions of the support library for the tests of a mask -/

/-- `vop[i] == 0` -/
def z {w : ℕ} (v : List (BitVec w)) (i : ℕ) : Bool := v.getD i 0#w == 0#w

/-- `vop[i] != 0` -/
def nz {w : ℕ} (v : List (BitVec w)) (i : ℕ) : Bool := v.getD i 0#w != 0#w

/-- vector_backend.py:1585-1617 for the formats, ml_support_lib.h:789-867 for the functions.  There are entries for the 32-bit masks
only, and the functions for three lanes do not exist.  `none`: no implementation. -/
def libTest (w n : ℕ) (t : MaskTest) : Option (List (BitVec w) → Bool) :=
  if w = 32 then
    match t, n with
    | .allZero, 2 => some fun v => z v 0 && z v 1
    | .allZero, 4 => some fun v => z v 0 && z v 1 && z v 2 && z v 3
    | .allZero, 8 => some fun v => z v 0 && z v 1 && z v 2 && z v 3 && z v 4 && z v 5 && z v 6 && z v 7
    | .anyZero, 2 => some fun v => z v 0 || z v 1
    | .anyZero, 4 => some fun v => z v 0 || z v 1 || z v 2 || z v 3
    | .anyZero, 8 => some fun v => z v 0 || z v 1 || z v 2 || z v 3 || z v 4 || z v 5 || z v 6 || z v 7
    | .notAnyZero, 2 => some fun v => nz v 0 && nz v 1
    | .notAnyZero, 4 => some fun v => nz v 0 && nz v 1 && nz v 2 && nz v 3
    | .notAnyZero, 8 => some fun v => nz v 0 && nz v 1 && nz v 2 && nz v 3 && nz v 4 && nz v 5 && nz v 6 && nz v 7
    | .notAllZero, 2 => some fun v => nz v 0 || nz v 1
    | .notAllZero, 4 => some fun v => nz v 0 || nz v 1 || nz v 2 || nz v 3
    | .notAllZero, 8 => some fun v => nz v 0 || nz v 1 || nz v 2 || nz v 3 || nz v 4 || nz v 5 || nz v 6 || nz v 7
    | _, _ => none
  else none

/-! ## The pass that expands the tests -/

/-- The scalar code the pass builds: `VectorElementSelection`, `LogicalNot`, `Equal` and `NotEqual` with the constant 0, `LogicalAnd`, `LogicalOr` -/
inductive SExpr
  | elt (i : ℕ)
  | not (a : SExpr)
  | eq0 (a : SExpr)
  | ne0 (a : SExpr)
  | and (a b : SExpr)
  | or (a b : SExpr)

/-- The value of scalar code in C: `!`, `==`, `!=`, `&&` and `||` give 0 or 1 -/
def SExpr.eval {w : ℕ} (v : List (BitVec w)) : SExpr → BitVec w
  | .elt i => v.getD i 0#w
  | .not a => scalLane w (a.eval v == 0#w)
  | .eq0 a => scalLane w (a.eval v == 0#w)
  | .ne0 a => scalLane w (a.eval v != 0#w)
  | .and a b => scalLane w (a.eval v != 0#w && b.eval v != 0#w)
  | .or a b => scalLane w (a.eval v != 0#w || b.eval v != 0#w)

/-- opt_utils.py:157-169 `logical_reduce`: the first two elements are removed and their combination is appended; `none`: `local_list[0]` of an
empty list.  The list has one element less at each step, so its length bounds the number of steps (`fuel`). -/
def reduceLoop (f : SExpr → SExpr → SExpr) : ℕ → List SExpr → Option SExpr
  | _, [] => none
  | _, [x] => some x
  | 0, _ :: _ :: _ => none
  | fuel + 1, a :: b :: rest => reduceLoop f fuel (rest ++ [f a b])

/-- opt_utils.py:157-169 -/
def reduce (f : SExpr → SExpr → SExpr) (l : List SExpr) : Option SExpr := reduceLoop f l.length l

/-- p_vector_mask_test_legalization.py:88-92 `check_true`; `isBool`: the elements have the format `ML_Bool` (the 32-bit masks) -/
def checkTrue (isBool : Bool) (a : SExpr) : SExpr := if isBool then a else .ne0 a

/-- p_vector_mask_test_legalization.py:94-98 `check_false` -/
def checkFalse (isBool : Bool) (a : SExpr) : SExpr := if isBool then .not a else .eq0 a

/-- p_vector_mask_test_legalization.py:69-136 `expand_node` for a mask of `n` lanes -/
def expand (t : MaskTest) (isBool : Bool) (n : ℕ) : Option SExpr :=
  match t with
  | .allZero => reduce .and ((List.range n).map fun i => checkFalse isBool (.elt i))
  | .anyZero => reduce .or ((List.range n).map fun i => checkFalse isBool (.elt i))
  | .notAllZero => reduce .or ((List.range n).map fun i => checkTrue isBool (.elt i))
  | .notAnyZero => reduce .and ((List.range n).map fun i => checkTrue isBool (.elt i))

end Verif.Mask
