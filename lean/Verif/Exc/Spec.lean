import Mathlib.Data.Nat.Notation

/-!
# Programs which raise floating-point flags

Memories, values and conditions are arbitrary.
-/

namespace Verif.Exc

inductive Kind
  | clear
  | raise
  deriving DecidableEq

/-- Formats of nodes: `untyped` before types are instantiated. -/
inductive Fmt
  | untyped
  | void
  | fpe
  | other
  deriving DecidableEq

/-- An operation on the flags: its kind, its format, the flags and their formats. -/
structure ExcOp where
  kind : Kind
  out : Fmt
  args : List (ℕ × Fmt)
  deriving DecidableEq

/-- Statements over memories `σ`, returning values `ν`. -/
inductive Stmt (σ ν : Type) where
  | skip
  | seq (a b : Stmt σ ν)
  | assign (f : σ → σ)
  | ite (c : σ → Bool) (a b : Stmt σ ν)
  | loop (c : σ → Bool) (b : Stmt σ ν)
  | ret (f : σ → ν)
  | exc (e : ExcOp)

/-- `Exec s m es m' r`: from the memory `m`, `s` ends in `m'`, returning `r` if it returns,
and performs the operations `es` on the flags, in this order. -/
inductive Exec {σ ν : Type} : Stmt σ ν → σ → List ExcOp → σ → Option ν → Prop
  | skip {m} : Exec .skip m [] m none
  | seq {a b m es m' es' m'' r} : Exec a m es m' none → Exec b m' es' m'' r → Exec (.seq a b) m (es ++ es') m'' r
  | stop {a b m es m' v} : Exec a m es m' (some v) → Exec (.seq a b) m es m' (some v)
  | assign {f m} : Exec (.assign f) m [] (f m) none
  | yes {c a b m es m' r} : c m = true → Exec a m es m' r → Exec (.ite c a b) m es m' r
  | no {c a b m es m' r} : c m = false → Exec b m es m' r → Exec (.ite c a b) m es m' r
  | done {c b m} : c m = false → Exec (.loop c b) m [] m none
  | again {c b m es m' es' m'' r} : c m = true → Exec b m es m' none → Exec (.loop c b) m' es' m'' r →
      Exec (.loop c b) m (es ++ es') m'' r
  | leave {c b m es m' v} : c m = true → Exec b m es m' (some v) → Exec (.loop c b) m es m' (some v)
  | ret {f m} : Exec (.ret f) m [] m (some (f m))
  | exc {e m} : Exec (.exc e) m [e] m none

/-- What an operation does to the flags. -/
def effect (F : ℕ → Bool) (e : ExcOp) : ℕ → Bool :=
  match e.kind with
  | .clear => fun _ => false
  | .raise => fun n => F n || e.args.any fun a => a.1 = n

/-- The operations on flags of a program. -/
def ops {σ ν : Type} : Stmt σ ν → List ExcOp
  | .skip => []
  | .seq a b => ops a ++ ops b
  | .assign _ => []
  | .ite _ a b => ops a ++ ops b
  | .loop _ b => ops b
  | .ret _ => []
  | .exc e => [e]

/-- An operation as built by the user and typed: a clear, or a raise of one flag. -/
def Typed (e : ExcOp) : Prop :=
  e.out = .void ∧ ((e.kind = .clear ∧ e.args = []) ∨ (e.kind = .raise ∧ ∃ n, e.args = [(n, .fpe)]))

end Verif.Exc
