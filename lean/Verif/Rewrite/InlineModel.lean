import Verif.Rewrite.InlineSpec
import Verif.Rewrite.Model

/-! # Model of `inline_function` (metalibm_core/opt/p_function_inlining.py:36-64) -/

namespace Verif.Rewrite.Inline

variable {F : Type}

/-- The graph and `memoization_map` (p_function_inlining.py:40). -/
structure St (F : Type) where
  heap : Heap (Op F)
  memo : List (ℕ × ℕ)

/-- p_function_inlining.py:60-61: `for i, op in enumerate(node.inputs): node.set_input(i, recursive_inline(op))` -/
def inlineInputs (f : St F → ℕ → Option (St F × ℕ)) (n : ℕ) : ℕ → List ℕ → St F → Option (St F)
  | _, [], s => some s
  | idx, op :: ops, s =>
    match f s op with
    | none => none
    | some (s1, m) => inlineInputs f n (idx + 1) ops { s1 with heap := setInput s1.heap n idx m }

/-- p_function_inlining.py:41-63 `recursive_inline`.  `args` is `inputs_var2value`, `dst` is `dst_var`.  `fuel` bounds the depth of the
recursion; `none` is an exception (a return without value) or the end of `fuel`. -/
def recursiveInline (dst : ℕ) (args : List (ℕ × ℕ)) : ℕ → St F → ℕ → Option (St F × ℕ)
  | 0, _, _ => none
  | fuel + 1, s, n =>
    match s.memo.lookup n with
    | some m => some (s, m)
    | none =>
      match args.lookup n with
      | some a => some ({ s with memo := (n, a) :: s.memo }, a)
      | none =>
        match s.heap[n]? with
        | none => none
        | some ⟨.ret, []⟩ => none
        | some ⟨.ret, a :: _⟩ =>
          match recursiveInline dst args fuel s a with
          | none => none
          | some (s1, v) =>
            if v = dst then some (s1, v)
            else some (⟨s1.heap ++ [⟨.assign, [dst, v]⟩], (n, s1.heap.length) :: s1.memo⟩, s1.heap.length)
        | some ⟨.var, _⟩ => some ({ s with memo := (n, n) :: s.memo }, n)
        | some ⟨_, ins⟩ =>
          match inlineInputs (recursiveInline dst args fuel) n 0 ins s with
          | none => none
          | some s1 => some ({ s1 with memo := (n, n) :: s1.memo }, n)

/-- p_function_inlining.py:36-64 `inline_function` -/
def inlineFunction (fuel : ℕ) (h : Heap (Op F)) (scheme dst : ℕ) (args : List (ℕ × ℕ)) : Option (Heap (Op F) × ℕ) :=
  (recursiveInline dst args fuel ⟨h, []⟩ scheme).map (fun r => (r.1.heap, r.2))

end Verif.Rewrite.Inline
