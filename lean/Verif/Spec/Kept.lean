import Verif.Model.Instr
/-
The operands the conversion keeps.
-/
namespace Verif.Spec

/-- The members of the `Compare` enumeration on each version: LT, LE, EQ, NE, GT, GE; also IN … EXC_MATCH before 3.9;
also the six *_CAST from 3.13 on. -/
def CompareMember (P : Platform) (v : Nat) : Prop :=
  v ≤ 5 ∨ (P.py39 = false ∧ v ≤ 10) ∨ (P.py313 = true ∧ 16 ≤ v ∧ v ≤ 21)

instance (P : Platform) (v : Nat) : Decidable (CompareMember P v) := by unfold CompareMember; infer_instance

/-- Conditions for an operand to be kept: comparisons are members of `Compare`, and a two-variable opcode does not
have the 17th local as second variable and one of the first 17 as first. -/
structure OperandOK (P : Platform) (varnames : List String) (i : Instr) : Prop where
  compare : P.hascompare i.opcode = true → ∀ v, i.arg = .compare v → CompareMember P v
  dual : P.dual i.opcode = true → ∀ a b, i.arg = .tuple [.str a, .str b] → ¬ (varnames.idxOf b = 16 ∧ varnames.idxOf a ≤ 16)

end Verif.Spec
