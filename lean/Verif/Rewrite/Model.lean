import Verif.Rewrite.Spec

/-! # Model of the memoized graph rewriters: metalibm_core/opt/generic_lowering.py and opt/node_transformation.py -/

namespace Verif.Rewrite

variable {Op : Type}

/-! ## What a lowering action does

A lowering action builds new nodes from the inputs of the node it lowers. -/

/-- Operand of a new node: the `i`-th input of the lowered node or the `j`-th new node. -/
inductive Ref where
  | inp (i : ℕ)
  | loc (j : ℕ)
deriving DecidableEq, Repr

/-- The new nodes built by an action, in order of construction, and the node it returns. -/
structure Recipe (Op : Type) where
  prog : List (Op × List Ref)
  result : Ref

/-- identifier of an operand; `base` is the identifier of the first new node -/
def Ref.resolve (ins : List ℕ) (base : ℕ) : Ref → ℕ
  | .inp i => ins.getD i 0
  | .loc j => base + j

/-- Construction of the new nodes (`lowering_action(node)`, generic_lowering.py:82). -/
def instantiate (h : Heap Op) (ins : List ℕ) (r : Recipe Op) : Heap Op × ℕ :=
  (h ++ r.prog.map (fun x => ⟨x.1, x.2.map (Ref.resolve ins h.length)⟩), r.result.resolve ins h.length)

/-- core/ml_operations.py:324-328 `set_input` -/
def setInput (h : Heap Op) (n idx m : ℕ) : Heap Op :=
  match h[n]? with
  | none => h
  | some nd => h.set n { nd with ins := nd.ins.set idx m }

/-- State of a `LoweringEngine`: the graph, `lowered_nodes` (generic_lowering.py:64) and, for the specification only, the nodes on
which an action was applied. -/
structure St (Op : Type) where
  heap : Heap Op
  memo : List (ℕ × ℕ)
  log : List ℕ
deriving DecidableEq

/-- The loop `for index, op in enumerate(node.inputs): node.set_input(index, self.lower_node(op))` (generic_lowering.py:78-79);
`f` is `self.lower_node`. -/
def lowerInputs (f : St Op → ℕ → Option (St Op × ℕ)) (n : ℕ) : ℕ → List ℕ → St Op → Option (St Op)
  | _, [], s => some s
  | idx, op :: ops, s =>
    match f s op with
    | none => none
    | some (s1, m) => lowerInputs f n (idx + 1) ops { s1 with heap := setInput s1.heap n idx m }

/-- generic_lowering.py:66-87 `LoweringEngine.lower_node`.  `act` is `get_lowering_action`: the action is selected by the operation
key of the node (class, formats, code generation key: 96-109), which is part of `op`.  Simplification: the formats of the inputs
that are part of the key are those at the construction of the node.  `fuel` bounds the depth of the recursion; a leaf node has no
inputs. -/
def lowerNode (act : Op → Option (Recipe Op)) : ℕ → St Op → ℕ → Option (St Op × ℕ)
  | 0, _, _ => none
  | fuel + 1, s, n =>
    match s.memo.lookup n with
    | some m => some (s, m)
    | none =>
      match s.heap[n]? with
      | none => none
      | some nd =>
        match act nd.op with
        | none =>
          match lowerInputs (lowerNode act fuel) n 0 nd.ins { s with memo := (n, n) :: s.memo } with
          | none => none
          | some s1 => some (s1, n)
        | some r =>
          lowerNode act fuel ⟨(instantiate s.heap nd.ins r).1, (n, (instantiate s.heap nd.ins r).2) :: s.memo, s.log ++ [n]⟩
            (instantiate s.heap nd.ins r).2

/-- generic_lowering.py:129-132 `Pass_GenericLowering.execute_on_graph`: a new engine for each graph. -/
def executeOnGraph (act : Op → Option (Recipe Op)) (fuel : ℕ) (h : Heap Op) (n : ℕ) : Option (St Op × ℕ) :=
  lowerNode act fuel ⟨h, [], []⟩ n

/-! ## `Pass_NodeTransformation` -/

/-- The methods a concrete pass defines: `can_be_transformed`, `transform_node` and `reconstruct_from_transformed`
(node_transformation.py:74-86).  The last two append new nodes to the graph.  A tuple of nodes (multi-precision expansion) is
one node here. -/
structure Methods (Op : Type) where
  can : Heap Op → ℕ → Bool
  transform : Heap Op → ℕ → List (Option ℕ) → List (Node Op) × Option ℕ
  reconstruct : Heap Op → ℕ → ℕ → List (Node Op) × ℕ

/-- State of the pass: the graph, `memoization_map` and, for the specification only, the nodes given to `transform_node`. -/
structure TSt (Op : Type) where
  heap : Heap Op
  memo : List (ℕ × Option ℕ)
  log : List ℕ
deriving DecidableEq

/-- node_transformation.py:98-103: the inputs of a node that is kept are replaced by reconstructed ones. -/
def keepInputs (M : Methods Op) (f : TSt Op → ℕ → Option (TSt Op × Option ℕ)) (n : ℕ) : ℕ → List ℕ → TSt Op → Option (TSt Op)
  | _, [], s => some s
  | idx, op :: ops, s =>
    match f s op with
    | none => none
    | some (s1, none) => keepInputs M f n (idx + 1) ops s1
    | some (s1, some t) =>
      let r := M.reconstruct s1.heap op t
      keepInputs M f n (idx + 1) ops { s1 with heap := setInput (s1.heap ++ r.1) n idx r.2 }

/-- node_transformation.py:110: `[self.transform_graph(op_input) for op_input in node.get_inputs()]` -/
def mapInputs (f : TSt Op → ℕ → Option (TSt Op × Option ℕ)) : List ℕ → TSt Op → Option (TSt Op × List (Option ℕ))
  | [], s => some (s, [])
  | op :: ops, s =>
    match f s op with
    | none => none
    | some (s1, t) =>
      match mapInputs f ops s1 with
      | none => none
      | some (s2, ts) => some (s2, t :: ts)

/-- node_transformation.py:89-113 `transform_graph(node, root)`; the outer `Option` is the end of `fuel`, the inner one is Python's
`None`. -/
def transformGraph (M : Methods Op) : ℕ → Bool → TSt Op → ℕ → Option (TSt Op × Option ℕ)
  | 0, _, _, _ => none
  | fuel + 1, root, s, n =>
    match s.memo.lookup n with
    | some r => some (s, r)
    | none =>
      match s.heap[n]? with
      | none => none
      | some nd =>
        if M.can s.heap n then
          match mapInputs (transformGraph M fuel false) nd.ins s with
          | none => none
          | some (s1, ts) =>
            let r := M.transform s1.heap n ts
            some (⟨s1.heap ++ r.1, (n, r.2) :: s1.memo, s1.log ++ [n]⟩, r.2)
        else
          match keepInputs M (transformGraph M fuel false) n 0 nd.ins { s with memo := (n, none) :: s.memo } with
          | none => none
          | some s1 => some (s1, if root then some n else none)

/-- node_transformation.py:115-118 `execute_on_optree` -/
def executeOnOptree (M : Methods Op) (fuel : ℕ) (h : Heap Op) (n : ℕ) : Option (TSt Op × Option ℕ) :=
  transformGraph M fuel true ⟨h, [], []⟩ n

/-- `execute` of the concrete passes (p_basic_legalization.py:134-136, p_simplify_rtl.py:133-135, p_vbool_legalization.py:
150-152): `root` is left at its default. -/
def execute (M : Methods Op) (fuel : ℕ) (h : Heap Op) (n : ℕ) : Option (TSt Op × Option ℕ) :=
  transformGraph M fuel false ⟨h, [], []⟩ n

end Verif.Rewrite
