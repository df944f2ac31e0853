import Verif.Model.ToConcrete
import Verif.Spec.Instr
import Verif.Spec.Program
/-
What it means for the jump arguments of a list of concrete instructions to be right. `labels` gives for each label
the index of the instruction following it, `jumps` the indexes of the jump instructions with their labels.
-/
namespace Verif.Spec

/-- Offset of the instruction at an index (first EXTENDED_ARG included): total size of those before it. -/
def pos (P : Platform) (l : List CInstr) (k : Nat) : Nat := ((l.take k).map (CInstr.units P)).sum

/-- Two versions of the same code: only the arguments and sizes of the instructions at the indexes `js` may differ. -/
def SameShape (js : List Nat) (l l' : List CInstr) : Prop :=
  l'.length = l.length ∧ ∀ (k : Nat) (i i' : CInstr), l[k]? = some i → l'[k]? = some i' →
    (k ∉ js → i' = i) ∧ i'.name = i.name ∧ i'.opcode = i.opcode ∧ i'.loc = i.loc ∧ i'.ext = i.ext

/-- Every jump goes to its label, with an argument in range and the smallest size for this argument. -/
def Consistent (P : Platform) (labels jumps : List (Nat × Nat)) (l : List CInstr) : Prop :=
  ∀ k lab, (k, lab) ∈ jumps → ∃ ci t a, l[k]? = some ci ∧ lookupLabel labels lab = .ok t ∧ t ≤ l.length ∧
    ci.arg = some a ∧ a ≤ 2147483647 ∧ ci.size = sizeFor (some a) none ∧
    ci.getJumpTarget P (pos P l k) = some (pos P l t : Int)

/-- Another layout of the same concrete code: the same instructions, except that the jumps may have other arguments and
sizes (as large as the argument needs), each jump going to the same operation. -/
def Relayout (P : Platform) (l N : List CInstr) : Prop :=
  N.length = l.length ∧
  (∀ (k : Nat) (i i' : CInstr), l[k]? = some i → N[k]? = some i' → i'.name = i.name ∧ i'.opcode = i.opcode ∧
    (P.hasJump i.opcode = false → i' = i) ∧
    (P.hasJump i.opcode = true → i'.loc = i.loc ∧ i'.ext = i.ext ∧
      ∃ a, i'.arg = some a ∧ a ≤ 2147483647 ∧ i'.size = sizeFor (some a) none)) ∧
  (∀ (k : Nat) (i i' : CInstr), l[k]? = some i → N[k]? = some i' → P.hasJump i.opcode = true →
    (i'.getJumpTarget P (pos P N k)).bind (fun t => opAt P t 0 0 (N.map .instr)) =
      (i.getJumpTarget P (pos P l k)).bind (fun t => opAt P t 0 0 (l.map .instr)))

end Verif.Spec
