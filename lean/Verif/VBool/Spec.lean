import Mathlib.Data.Nat.Notation

/-! # Specification: operation graphs on vectors and the width of their boolean lanes -/

namespace Verif.VBool

/-- lanes of a vector format: numbers of `w` bits, booleans without a width, booleans of 32 and of 64 bits -/
inductive Lane where
  | num (w : ℕ) | virtual | bool32 | bool64
  deriving DecidableEq, Repr

/-- formats: scalars of `w` bits, vectors of `n` lanes -/
inductive Fmt where
  | scalar (w : ℕ)
  | vec (l : Lane) (n : ℕ)
  deriving DecidableEq, Repr

/-- classes of operations: comparisons, connectives, tests of the list the pass knows, other tests, assembling of a vector, and the rest -/
inductive Cls where
  | comparison | land | lor | lnot | listedTest | otherTest | assembling | other
  deriving DecidableEq, Repr

/-- graphs (as trees of operands) with formats -/
inductive Node where
  | mk (c : Cls) (f : Fmt) (args : List Node)

def Node.fmt : Node → Fmt | .mk _ f _ => f
def Node.cls : Node → Cls | .mk c _ _ => c
def Node.args : Node → List Node | .mk _ _ a => a

/-- the number of bits of one lane; a boolean without a width counts for the 32 bits of `ML_Bool` -/
def Fmt.bits : Fmt → ℕ
  | .scalar w => w
  | .vec (.num w) _ => w
  | .vec .virtual _ | .vec .bool32 _ => 32
  | .vec .bool64 _ => 64

/-- the boolean lanes of a width -/
def boolOf (w : ℕ) : Lane := if w = 64 then .bool64 else .bool32

/-- classes whose result is a mask -/
def Cls.Mask (c : Cls) : Prop := c = .comparison ∨ c = .land ∨ c = .lor ∨ c = .lnot ∨ c = .listedTest

/-- number of operands of these classes -/
def Cls.arity : Cls → ℕ
  | .lnot | .listedTest => 1
  | _ => 2

/-- a graph of `n` lanes of `w` bits: numbers of that width (the scalars are repeated), and masks without a width -/
inductive Uniform (w n : ℕ) : Node → Prop
  | mask {c args} : c.Mask → args.length = c.arity → (∀ a ∈ args, Uniform w n a) → Uniform w n (.mk c (.vec .virtual n) args)
  | num {args} : (∀ a ∈ args, Uniform w n a) → Uniform w n (.mk .other (.vec (.num w) n) args)
  | scalar {args} : (∀ a ∈ args, Uniform w n a) → Uniform w n (.mk .other (.scalar w) args)

/-- the same graph in which each mask has lanes of the width of its operands -/
inductive Legal (w n : ℕ) : Node → Node → Prop
  | mask {c args args'} : c.Mask → args.length = args'.length → (∀ p ∈ args.zip args', Legal w n p.1 p.2) → (∀ a ∈ args', a.fmt.bits = w) →
      Legal w n (.mk c (.vec .virtual n) args) (.mk c (.vec (boolOf w) n) args')
  | other {f args args'} : args.length = args'.length → (∀ p ∈ args.zip args', Legal w n p.1 p.2) →
      Legal w n (.mk .other f args) (.mk .other f args')

end Verif.VBool
