/-! Specification for vectorization: schemes with their scalar, sequential meaning. -/

namespace Verif.Vec

/-- Variables of a scheme: function inputs, local variables, and the free copies of local variables
that copying an expression creates. -/
inductive Var
  | input (n : Nat)
  | loc (n : Nat)
  | copyOf (n : Nat)
  deriving DecidableEq, Repr

/-- Expressions over values `V`; operations are arbitrary functions of up to three operands. -/
inductive Expr (V : Type)
  | const (v : V)
  | var (x : Var)
  | un (f : V → V) (a : Expr V)
  | bin (f : V → V → V) (a b : Expr V)
  | tern (f : V → V → V → V) (a b c : Expr V)

/-- value of the variables -/
abbrev Env (V : Type) := Var → V

def Expr.eval {V : Type} : Expr V → Env V → V
  | .const v, _ => v
  | .var x, σ => σ x
  | .un f a, σ => f (a.eval σ)
  | .bin f a b, σ => f (a.eval σ) (b.eval σ)
  | .tern f a b c, σ => f (a.eval σ) (b.eval σ) (c.eval σ)

/-- the expression reads no local variable -/
def Expr.inputsOnly {V : Type} : Expr V → Bool
  | .const _ => true
  | .var (.input _) => true
  | .var _ => false
  | .un _ a => a.inputsOnly
  | .bin _ a b => a.inputsOnly && b.inputsOnly
  | .tern _ a b c => a.inputsOnly && b.inputsOnly && c.inputsOnly

mutual
/-- Statements of a scheme: assignments to local variables, returns, conditions with or without an
else branch and with a likely flag, statement lists, and any other statement given by its effect. -/
inductive Stmt (V : Type)
  | assign (dst : Nat) (e : Expr V)
  | ret (e : Expr V)
  | ifThen (c : Expr V) (likely : Option Bool) (t : Stmt V)
  | ifElse (c : Expr V) (likely : Option Bool) (t e : Stmt V)
  | block (b : Block V)
  | other (f : Env V → Env V × Option V)

inductive Block (V : Type)
  | nil
  | cons (s : Stmt V) (b : Block V)
end

def upd {V : Type} (σ : Env V) (n : Nat) (v : V) : Env V := fun x => if x = .loc n then v else σ x

mutual
/-- Scalar meaning: the final variables and the returned value, if any. -/
def exec {V : Type} (truth : V → Bool) : Stmt V → Env V → Env V × Option V
  | .assign n e, σ => (upd σ n (e.eval σ), none)
  | .ret e, σ => (σ, some (e.eval σ))
  | .ifThen c _ t, σ => if truth (c.eval σ) then exec truth t σ else (σ, none)
  | .ifElse c _ t e, σ => if truth (c.eval σ) then exec truth t σ else exec truth e σ
  | .block b, σ => execBlock truth b σ
  | .other f, σ => f σ

def execBlock {V : Type} (truth : V → Bool) : Block V → Env V → Env V × Option V
  | .nil, σ => (σ, none)
  | .cons s b, σ =>
      match exec truth s σ with
      | (σ', some v) => (σ', some v)
      | (σ', none) => execBlock truth b σ'
end

/-- initial variables: the inputs, and junk in every uninitialised variable (a copy of a variable
holds the same junk) -/
def start {V : Type} (junk inp : Nat → V) : Env V
  | .input n => inp n
  | .loc n => junk n
  | .copyOf n => junk n

/-- the value the scalar function returns -/
def scalar {V : Type} (truth : V → Bool) (junk : Nat → V) (s : Stmt V) (inp : Nat → V) :
    Option V := (exec truth s (start junk inp)).2

end Verif.Vec
