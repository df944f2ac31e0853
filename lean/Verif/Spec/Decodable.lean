import Verif.Spec.Program
import Verif.Spec.Kept
/-
The concrete instructions whose operands can be resolved.
-/
namespace Verif.Spec

/-- The indexes are within the tables, comparisons and intrinsics exist, two-variable opcodes are not about free variables;
a constant is a Python value other than a label, a block or UNSET. Jumps are not considered (the destination is given). -/
structure Decodable (P : Platform) (c : Concrete) (ci : CInstr) : Prop where
  operand : ∀ p ∈ expandC P (id : Arg → Arg) c (some 0) ci, p.2 ≠ .invalid
  compare : P.hascompare ci.opcode = true → ∀ a, ci.arg = some a → CompareMember P (compareOf P a)
  intr1 : P.intrinsic1 ci.opcode = true → ∀ a, ci.arg = some a → a ≤ 11
  intr2 : P.intrinsic2 ci.opcode = true → ∀ a, ci.arg = some a → a ≤ 4
  dual : P.dual ci.opcode = true → ∀ a, ci.arg = some a → ∀ k ∈ [a / 16, a % 16], ∃ n, (localSlots P c)[k]? = some (.named n)
  const : P.hasconst ci.opcode = true → ∀ a, ci.arg = some a → ∀ v, c.consts[a]? = some v → v ≠ .unset ∧ (∀ l, v ≠ .label l) ∧ ∀ b, v ≠ .block b

end Verif.Spec
