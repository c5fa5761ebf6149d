import Mathlib.Data.Nat.Notation

/-!
# Functions given by an expression: what the generated code must compute

A user of `function_expr.py` gives an expression over the variables `x`, `y`,
`z`, `t`, the arithmetic operators and the function names of `FUNCTION_MAP`.
The specification is made of the meaning of an operation graph and of the
meaning of a list of statements.  It does not mention the transformation.
-/

namespace Verif.FctExpr

/-- The kinds of node of a graph.  `res` is a local variable, which gets its
value from the execution of a statement. -/
inductive Kind (O : Type) where
  /-- the `i`-th argument of the function -/
  | input (i : ℕ)
  /-- the `i`-th constant -/
  | const (i : ℕ)
  /-- a local variable -/
  | res
  /-- an operation other than the division -/
  | op (o : O)
  /-- a division -/
  | div
  /-- a call to the function named `f` -/
  | call (f : String)
deriving DecidableEq

/-- A node and the numbers of its operands. -/
structure Node (O : Type) where
  kind : Kind O
  args : List ℕ

/-- The values of the constants, of the operations and of the functions. -/
structure Meaning (O V : Type) where
  const : ℕ → V
  op : O → List V → V
  div : List V → V
  /-- number of parameters of a function -/
  arity : String → ℕ
  fct : String → List V → V

/-- What the graphs of a language may contain. -/
structure Lang where
  calls : Bool
  divs : Bool

/-- The graphs a user writes. -/
def source : Lang := ⟨true, true⟩

/-- The graphs of the generated code: no call and, when divisions are expanded,
no division. -/
def target (expand : Bool) : Lang := ⟨false, !expand⟩

/-- What a local variable holds. -/
inductive Slot (V : Type) where
  | undeclared
  | declared
  | value (v : V)

/-- Values of lists of nodes, position by position. -/
def Each {V : Type} (R : ℕ → V → Prop) (ns : List ℕ) (vs : List V) : Prop :=
  ns.length = vs.length ∧ ∀ (i : ℕ) n v, ns[i]? = some n → vs[i]? = some v → R n v

/-- `Val L M h inp σ n v`: in the graph `h`, written in the language `L`, the
node `n` has the value `v` when the arguments are `inp` and the local variables
hold `σ`. -/
inductive Val {O V : Type} (L : Lang) (M : Meaning O V) (h : ℕ → Node O) (inp : ℕ → V)
    (σ : ℕ → Slot V) : ℕ → V → Prop
  | input {n i} : (h n).kind = .input i → Val L M h inp σ n (inp i)
  | const {n i} : (h n).kind = .const i → Val L M h inp σ n (M.const i)
  | res {n v} : (h n).kind = .res → σ n = .value v → Val L M h inp σ n v
  | op {n o} (vs : List V) : (h n).kind = .op o → (h n).args.length = vs.length →
      (∀ (i : ℕ) a v, (h n).args[i]? = some a → vs[i]? = some v → Val L M h inp σ a v) →
      Val L M h inp σ n (M.op o vs)
  | div {n} (vs : List V) : L.divs = true → (h n).kind = .div →
      (h n).args.length = vs.length →
      (∀ (i : ℕ) a v, (h n).args[i]? = some a → vs[i]? = some v → Val L M h inp σ a v) →
      Val L M h inp σ n (M.div vs)
  | call {n f} (vs : List V) : L.calls = true → (h n).kind = .call f →
      (h n).args.length = vs.length →
      (∀ (i : ℕ) a v, (h n).args[i]? = some a → vs[i]? = some v → Val L M h inp σ a v) →
      Val L M h inp σ n (M.fct f (vs.take (M.arity f)))

/-- The statements of the generated function. -/
inductive Stmt where
  /-- declaration of a local variable -/
  | decl (v : ℕ)
  /-- the implementation of `f`, inlined: it stores in `v` the value of `f` at
  the nodes `args` -/
  | scheme (v : ℕ) (f : String) (args : List ℕ)
  /-- evaluation of a node -/
  | node (n : ℕ)
deriving DecidableEq

def update {V : Type} (σ : ℕ → Slot V) (v : ℕ) (x : Slot V) : ℕ → Slot V :=
  fun m => if m = v then x else σ m

/-- Execution of statements in order.  A variable is declared once, before its
only assignment, and every node used has a value when it is used: a node which
depends on a variable not yet assigned has none. -/
inductive Exec {O V : Type} (L : Lang) (M : Meaning O V) (h : ℕ → Node O) (inp : ℕ → V) :
    List Stmt → (ℕ → Slot V) → (ℕ → Slot V) → Prop
  | nil {σ} : Exec L M h inp [] σ σ
  | decl {v rest σ σ'} : σ v = .undeclared →
      Exec L M h inp rest (update σ v .declared) σ' → Exec L M h inp (.decl v :: rest) σ σ'
  | scheme {v f args vs rest σ σ'} : σ v = .declared → Each (Val L M h inp σ) args vs →
      Exec L M h inp rest (update σ v (.value (M.fct f vs))) σ' →
      Exec L M h inp (.scheme v f args :: rest) σ σ'
  | node {n x rest σ σ'} : Val L M h inp σ n x → Exec L M h inp rest σ σ' →
      Exec L M h inp (.node n :: rest) σ σ'

/-- No variable declared. -/
def none₀ {V : Type} : ℕ → Slot V := fun _ => .undeclared

/-- The generated function, statements then `return final`, returns `v`. -/
def Returns {O V : Type} (L : Lang) (M : Meaning O V) (h : ℕ → Node O) (inp : ℕ → V)
    (stmts : List Stmt) (final : ℕ) (v : V) : Prop :=
  ∃ σ, Exec L M h inp stmts none₀ σ ∧ Val L M h inp σ final v

/-- The graph of a well-formed expression: operands come before, a call has an
operand for every parameter, a division has two operands, leaves have none and
there is no local variable. -/
structure Wf {O V : Type} (M : Meaning O V) (g : ℕ → Node O) : Prop where
  before : ∀ n a, a ∈ (g n).args → a < n
  nores : ∀ n, (g n).kind ≠ .res
  callArgs : ∀ n f, (g n).kind = .call f → M.arity f ≤ (g n).args.length
  divArgs : ∀ n, (g n).kind = .div → (g n).args.length = 2
  inputArgs : ∀ n i, (g n).kind = .input i → (g n).args = []
  constArgs : ∀ n i, (g n).kind = .const i → (g n).args = []

/-- Expressions as typed by the user, for the question of their variables:
`x`, `y`, `z`, `t` are the variables 0, 1, 2, 3 and functions are numbered. -/
inductive Src where
  | var (i : Fin 4)
  | num (n : ℕ)
  | bin (op : Char) (a b : Src)
  | neg (a : Src)
  | app (f : ℕ) (args : List Src)

mutual
/-- `UsesVar e i`: the variable `i` occurs in `e`. -/
inductive UsesVar : Src → Fin 4 → Prop
  | var {i} : UsesVar (.var i) i
  | left {o a b i} : UsesVar a i → UsesVar (.bin o a b) i
  | right {o a b i} : UsesVar b i → UsesVar (.bin o a b) i
  | neg {a i} : UsesVar a i → UsesVar (.neg a) i
  | app {f l i} : UsesVarL l i → UsesVar (.app f l) i
/-- The same for lists of expressions. -/
inductive UsesVarL : List Src → Fin 4 → Prop
  | head {a l i} : UsesVar a i → UsesVarL (a :: l) i
  | tail {a l i} : UsesVarL l i → UsesVarL (a :: l) i
end

/-- `IsAngleOf cos sin x y r θ`: `θ` is the angle of the point `(x, y)` at distance `r`, the value of the C
function `atan2(y, x)`; `cos` and `sin` are parameters so that this file needs no analysis. -/
def IsAngleOf {R : Type} [Mul R] [LT R] [OfNat R 0] (cos sin : R → R) (x y r θ : R) : Prop :=
  0 < r ∧ x = r * cos θ ∧ y = r * sin θ

end Verif.FctExpr
