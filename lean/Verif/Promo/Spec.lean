import Mathlib.Data.Nat.Notation

/-! # Specification: operation graphs with formats, and what a target makes of them

`T` is the type of the formats, `K` of the operation classes with their keys, `V` of the values. A graph is its tree of operands. -/

namespace Verif.Promo

/-- an operation class: the conversions, the two classes that are never promoted, and the others -/
inductive Cls (K : Type) where
  | conversion | elementSelection | call
  | other (k : K)
  deriving DecidableEq

/-- expressions, with the format of each node -/
inductive Expr (T K V : Type) where
  | var (name : ℕ) (f : T)
  | table (name : ℕ) (f : T)
  | const (v : V) (f : T)
  | op (c : Cls K) (f : T) (args : List (Expr T K V))

/-- statements -/
inductive Stmt (T K V : Type) where
  | ret (e : Expr T K V)
  | assign (name : ℕ) (f : T) (e : Expr T K V)
  | block (l : List (Stmt T K V))
  | cond (c : Expr T K V) (branches : List (Stmt T K V))
  | loop (init : Stmt T K V) (c : Expr T K V) (body : Stmt T K V)

variable {T K V : Type}

/-- the format of a node -/
def Expr.fmt : Expr T K V → T
  | .var _ f | .table _ f | .const _ f | .op _ f _ => f

/-- the meaning of the operations: on the formats of the result and of the operands -/
structure Sem (T K V : Type) where
  op : Cls K → T → List T → List V → V
  const : T → V → V

/-- the value of an expression; `env` gives those of the variables and tables -/
def Expr.den (S : Sem T K V) (env : ℕ → V) : Expr T K V → V
  | .var x _ => env x
  | .table x _ => env x
  | .const v f => S.const f v
  | .op c f args => S.op c f (args.map Expr.fmt) (args.attach.map fun ⟨a, _⟩ => a.den S env)

/-- an operation with its formats; constants are operations without operands -/
abbrev Use (T K : Type) := Option (Cls K) × T × List T

/-- the operations of an expression -/
def Expr.uses : Expr T K V → List (Use T K)
  | .var _ _ | .table _ _ => []
  | .const _ f => [(none, f, [])]
  | .op c f args => (some c, f, args.map Expr.fmt) :: (args.attach.flatMap fun ⟨a, _⟩ => a.uses)

/-- the formats of the nodes of an expression -/
def Expr.fmts : Expr T K V → List T
  | .var _ f | .table _ f | .const _ f => [f]
  | .op _ f args => f :: (args.attach.flatMap fun ⟨a, _⟩ => a.fmts)

/-- the description of a target: the formats it promotes to, the formats of tables, the operations it implements -/
structure Target (T K : Type) where
  trans : T → Option T
  isTable : T → Bool
  supports : Use T K → Bool

/-- the promoted format: that of a table is left as it is -/
def Target.up (G : Target T K) (f : T) : T := if G.isTable f then f else (G.trans f).getD f

/-- the format has a promoted format -/
def Target.Has (G : Target T K) (f : T) : Prop := G.isTable f = true ∨ (G.trans f).isSome = true

/-- the operation may be promoted: not an element selection nor a call, every format has a promoted format, and the target implements the operation on these -/
def Target.Promotable (G : Target T K) (u : Use T K) : Prop :=
  u.1 ≠ some .elementSelection ∧ u.1 ≠ some .call ∧ G.Has u.2.1 ∧ (∀ f ∈ u.2.2, G.Has f) ∧
    G.supports (u.1, G.up u.2.1, u.2.2.map G.up) = true

/-- the target means by the promoted formats what the generic ones mean: the lanes are the same -/
structure Target.Faithful (G : Target T K) (S : Sem T K V) : Prop where
  op : ∀ c f fs vs, G.Promotable (some c, f, fs) → S.op c (G.up f) (fs.map G.up) vs = S.op c f fs vs
  const : ∀ f v, G.Promotable (none, f, []) → S.const (G.up f) v = S.const f v
  promote : ∀ f v, G.Has f → S.op .conversion (G.up f) [f] [v] = v
  back : ∀ f v, G.Has f → S.op .conversion f [G.up f] [v] = v

/-- tables have formats of tables -/
def Expr.Wf (G : Target T K) : Expr T K V → Prop
  | .table _ f => G.isTable f = true
  | .var _ _ | .const _ _ => True
  | .op _ _ args => ∀ a, a ∈ args → a.Wf G

/-- what the user relies on for an expression: same format, same values; each of its operations is one of the initial ones, promoted exactly if it may be, or a conversion between a format and its promoted format -/
structure Refines (G : Target T K) (S : Sem T K V) (e e' : Expr T K V) : Prop where
  fmt : e'.fmt = e.fmt
  value : ∀ env, e'.den S env = e.den S env
  uses : ∀ u ∈ e'.uses, (∃ w ∈ e.uses, (G.Promotable w ∧ u = (w.1, G.up w.2.1, w.2.2.map G.up)) ∨ (¬ G.Promotable w ∧ u = w)) ∨
    ∃ f ∈ e.fmts, G.Has f ∧ (u = (some .conversion, G.up f, [f]) ∨ u = (some .conversion, f, [G.up f]))

/-- for a statement: the same statement on refined expressions -/
inductive RefinesS (G : Target T K) (S : Sem T K V) : Stmt T K V → Stmt T K V → Prop
  | ret {e e'} : Refines G S e e' → RefinesS G S (.ret e) (.ret e')
  | assign {x f e e'} : Refines G S e e' → RefinesS G S (.assign x f e) (.assign x f e')
  | nil : RefinesS G S (.block []) (.block [])
  | cons {s s' l l'} : RefinesS G S s s' → RefinesS G S (.block l) (.block l') → RefinesS G S (.block (s :: l)) (.block (s' :: l'))
  | cond {c c' l l'} : Refines G S c c' → RefinesS G S (.block l) (.block l') → RefinesS G S (.cond c l) (.cond c' l')
  | loop {i i' c c' b b'} : RefinesS G S i i' → Refines G S c c' → RefinesS G S b b' → RefinesS G S (.loop i c b) (.loop i' c' b')

/-- the expressions of a statement are well formed -/
inductive WfS (G : Target T K) : Stmt T K V → Prop
  | ret {e} : e.Wf G → WfS G (.ret e)
  | assign {x f e} : e.Wf G → WfS G (.assign x f e)
  | block {l} : (∀ s ∈ l, WfS G s) → WfS G (.block l)
  | cond {c l} : c.Wf G → (∀ s ∈ l, WfS G s) → WfS G (.cond c l)
  | loop {i c b} : WfS G i → c.Wf G → WfS G b → WfS G (.loop i c b)

end Verif.Promo
