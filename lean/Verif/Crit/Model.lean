import Verif.Crit.Spec

/-! # Model of metalibm_core/opt/p_auto_pipeline.py, the combinatorial critical path

Latencies are real numbers (the code uses floating-point); the statement is a list of assignments; the pipelined (stage-aware) mode is not modelled. -/

namespace Verif.Crit

noncomputable section

/-- 72-74 `cp_log2` -/
def cpLog2 (v : ℝ) : ℝ := Real.logb 2 v

/-- 197-200 `add_cp_eval_value`, with the level of 179 -/
def addCp (n : ℕ) : ℝ := 2 * cpLog2 n

/-- 209-218 `mul_cp_eval_value` -/
def mulCp (n m o : ℕ) : ℝ := 1 + cpLog2 (min m n : ℕ) * (7 / 2) + addCp o

/-- 187-190 `tree_cp_eval_value`, to one bit -/
def treeCp (n : ℕ) (level : ℝ) : ℝ := level * (cpLog2 n - cpLog2 1)

/-- 220-232 `cmp_cp_eval_optree`: the sizes are those of the comparison itself -/
def cmpCp (eq : Bool) (result : ℕ) : ℝ := if eq then 3 / 2 + treeCp result 1 else addCp result

/-- 234-239 `shift_cp_eval_value` -/
def shiftCp (output data amount : ℕ) : ℝ := 3 / 2 * min (amount : ℝ) (cpLog2 (max data output : ℕ))

/-- the delay of an operation; a shift is evaluated with the size of its data for the three sizes (241-249) -/
def delay : Kind → ℝ
  | .add n => addCp n
  | .mul n m o => mulCp n m o
  | .cmp eq _ result => cmpCp eq result
  | .shift data _ => shiftCp data data data
  | .level d => d

/-- 409-419 the memoization map: the operations, the signals; and the greatest latency stored (517-527) -/
structure M where
  op : ℕ → Option ℝ
  sig : ℕ → Option ℝ
  best : ℝ

/-- 409-411 -/
def M.init : M := ⟨fun _ => none, fun _ => none, 0⟩

/-- the greatest of the latencies of the operands (266-270, 288-290) -/
def maxL : List ℝ → ℝ
  | [] => 0
  | l :: ls => ls.foldl max l

mutual
/-- 421-478 `evaluate_critical_path_node` on an expression -/
def ev : N → M → M × ℝ
  | .cst, m => (m, 0)
  -- 424-425, 430-431: not memoized
  | .sig x, m => (m, (m.sig x).getD 0)
  -- 424-425, 470-474 with 262-291
  | .op i k args, m =>
    match m.op i with
    | some l => (m, l)
    | none =>
      let r := evL args m
      let l := delay k + maxL r.2
      ({ r.1 with op := Function.update r.1.op i (some l), best := max r.1.best l }, l)
def evL : List N → M → M × List ℝ
  | [], m => (m, [])
  | e :: es, m =>
    let r := ev e m
    let q := evL es r.1
    (q.1, r.2 :: q.2)
end

/-- 446-451 an assignment: the latency of the value is that of the signal -/
def evAssign (m : M) (p : ℕ × N) : M :=
  let r := ev p.2 m
  { r.1 with sig := Function.update r.1.sig p.1 (some r.2), best := max r.1.best r.2 }

/-- the operands of a node -/
def N.inputs : N → List N
  | .op _ _ args => args
  | _ => []

/-- is a node in a list? (by identity) -/
def N.isIn (a : N) (l : List N) : Bool := l.any fun b => match a, b with
  | .sig x, .sig y => x == y
  | .op i _ _, .op j _ _ => i == j
  | _, _ => false

/-- 385-402 `linearize_graph`, once the assignments are popped: breadth first; `fuel` bounds the number of nodes popped -/
def bfs : ℕ → List N → List N → List N
  | 0, _, done => done
  | _ + 1, [], done => done
  | n + 1, a :: q, done => if a.isIn done then bfs n q done else bfs n (q ++ a.inputs) (done ++ [a])

mutual
/-- number of nodes of an expression -/
def N.size : N → ℕ
  | .op _ _ args => 1 + N.sizeL args
  | _ => 1
def N.sizeL : List N → ℕ
  | [] => 0
  | e :: es => N.size e + N.sizeL es
end

/-- the nodes below the assignments, in the order they are popped -/
def below (C : Circuit) : List N :=
  let q := C.flatMap fun p => [.sig p.1, p.2]
  bfs (N.sizeL q + 1) q []

/-- 480-484 `evaluate_critical_path_graph`: from the last node to the first, the assignments at the end -/
def report (C : Circuit) : M :=
  C.reverse.foldl evAssign ((below C).reverse.foldl (fun m a => (ev a m).1) M.init)

end

end Verif.Crit
