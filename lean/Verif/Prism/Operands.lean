import Verif.Prism.Model

/-!
# Number of operands of the operations
-/

namespace Verif.Prism

/-- Operands of the instructions of LLVM replaced: three for a fused multiply-add, two for the
others. -/
def operandCount (op : FOp) : Nat := if op = .fma then 3 else if op = .ignore then 0 else 2

theorem arity_eq (op : FOp) : arity op = operandCount op := by cases op <;> rfl

end Verif.Prism
