import Verif.Spec.CodeOK
import Verif.Spec.Depths
/-
What a Bytecode must meet, beyond the rules of the assembler, for its code object to be one CPython could have compiled.
-/
namespace Verif.Spec
variable {κ : Type}

/-- The jumps and the handlers go to an operation (the assembler accepts a label after the last instruction), the line of an
operation without column is not 0, the intrinsics exist and the docstring is a Python value. -/
structure Sound (P : Platform) (key : Arg → κ) (b : Bytecode) : Prop where
  jumps : ∀ o ∈ programB P key (zeroDepths b), ∀ t, o.operand = .jump t → t < (programB P key (zeroDepths b)).length
  handlers : ∀ o ∈ programB P key (zeroDepths b), ∀ x, o.handler = some x → x.target < (programB P key (zeroDepths b)).length
  lines : ∀ o ∈ programB P key (zeroDepths b), o.loc.col = none → o.loc.lineno ≠ some 0
  intrinsics : ∀ i, .instr i ∈ b.elems → (P.intrinsic1 i.opcode = true → ∀ v, i.arg = .intr1 v → v ≤ 11) ∧
    (P.intrinsic2 i.opcode = true → ∀ v, i.arg = .intr2 v → v ≤ 4)
  doc : ∀ v, b.attrs.docstring = some v → v ≠ .unset ∧ (∀ l, v ≠ .label l) ∧ ∀ b, v ≠ .block b

/-- The first instruction of each protected region has no EXTENDED_ARG. -/
def StartsPlain (P : Platform) (co : Code) : Prop :=
  ∀ r ∈ regions co, ∀ f ∈ fetched P co, r.start = f.unit → f.first = f.unit

end Verif.Spec
