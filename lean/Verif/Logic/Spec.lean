import Mathlib.Data.List.Perm.Basic

/-!
# Boolean expressions and n-ary reductions
-/

namespace Verif.Logic

/-- Boolean expressions; `atom` stands for any other node, `op` for any other operation on two boolean operands. -/
inductive Expr where
  | atom (n : ℕ)
  | not (a : Expr)
  | and (a b : Expr)
  | or (a b : Expr)
  | op (k : ℕ) (a b : Expr)
  deriving DecidableEq, Repr

/-- Meaning of an assignment: values of the atoms and meaning of the other operations. -/
structure Env where
  atom : ℕ → Bool
  op : ℕ → Bool → Bool → Bool

/-- Truth value. -/
def eval (ρ : Env) : Expr → Bool
  | .atom n => ρ.atom n
  | .not a => !eval ρ a
  | .and a b => eval ρ a && eval ρ b
  | .or a b => eval ρ a || eval ρ b
  | .op k a b => ρ.op k (eval ρ a) (eval ρ b)

/-- Binary trees over operands: what a reduction builds. -/
inductive Tree (α : Type) where
  | leaf (a : α)
  | node (l r : Tree α)
  deriving DecidableEq, Repr

/-- The operands used by a tree, from left to right, with repetitions. -/
def Tree.leaves {α : Type} : Tree α → List α
  | .leaf a => [a]
  | .node l r => l.leaves ++ r.leaves

/-- Value of a tree when the nodes mean `f` and the operands `v`. -/
def Tree.value {α β : Type} (f : β → β → β) (v : α → β) : Tree α → β
  | .leaf a => v a
  | .node l r => f (l.value f v) (r.value f v)

end Verif.Logic
