import Verif.Exc.Spec

/-!
# Model of the lowering of exceptions
(`metalibm_core/opt/p_lower_exception.py`, run before LLVM code is generated)

The engine (`generic_lowering.py`) visits graphs; the statements are trees here, since a
node which is met again is replaced by what it was replaced by the first time.  The
pre-statements of condition blocks (extra inputs, which the engine does not visit) are left
out; a raise has one flag (`arityCheck`, ml_operations.py:105-107, 1827-1830).
-/

namespace Verif.Exc

/-- The tuples of `type_strict_match` for each class (p_lower_exception.py:53-72). -/
def table : Kind → List (List Fmt)
  | .clear => [[.void]]
  | .raise => [[.void, .fpe], [.void, .fpe, .fpe]]

/-- The interface of a node: its format and those of its operands
(generic_lowering.py:97-109). -/
def interface (e : ExcOp) : List Fmt := e.out :: e.args.map Prod.snd

/-- `get_lowering_action` is not `None` (generic_lowering.py:91-94, abstract_backend.py:110-173,
generator_utility.py:1048-1050). -/
def found (e : ExcOp) : Bool := (table e.kind).any fun t => t = interface e

/-- `LoweringEngine.lower_node` with `RemoveOperation` (generic_lowering.py:65-88,
p_lower_exception.py:39-43): the operations found in the table become empty statements,
the operands of the other nodes are lowered. -/
def lower {σ ν : Type} : Stmt σ ν → Stmt σ ν
  | .skip => .skip
  | .seq a b => .seq (lower a) (lower b)
  | .assign f => .assign f
  | .ite c a b => .ite c (lower a) (lower b)
  | .loop c b => .loop c (lower b)
  | .ret f => .ret f
  | .exc e => if found e then .skip else .exc e

end Verif.Exc
