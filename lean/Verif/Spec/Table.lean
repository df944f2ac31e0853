import Verif.Spec.Program
/-
When an exception table delimits regions of a concrete code.
-/
namespace Verif.Spec

/-- Offsets where the instructions start, their EXTENDED_ARG prefixes included. -/
def starts (P : Platform) (cur : Nat) : List CElem → List Nat
  | [] => []
  | .setLineno _ :: r => starts P cur r
  | .instr ci :: r => cur :: starts P (cur + width P ci) r

/-- Offsets of the opcodes: the last unit of each instruction. -/
def opcodeOffsets (P : Platform) (cur : Nat) : List CElem → List Nat
  | [] => []
  | .setLineno _ :: r => opcodeOffsets P cur r
  | .instr ci :: r => (cur + width P ci - (if P.py310 then 1 else 2)) :: opcodeOffsets P (cur + width P ci) r

/-- The entries are disjoint, not empty, start where an instruction starts, stop on an opcode (or cache) and have
as target the start of an operation, as in the tables CPython's compiler writes. -/
structure TableOK (P : Platform) (c : Concrete) : Prop where
  nonempty : ∀ e ∈ c.excTable, e.start ≤ e.stop
  start_ : ∀ e ∈ c.excTable, ∃ k ∈ starts P 0 c.elems, e.start = k
  stop_ : ∀ e ∈ c.excTable, ∃ k ∈ opcodeOffsets P 0 c.elems, e.stop = k
  disjoint : c.excTable.Pairwise (fun e f => e.stop < f.start ∨ f.stop < e.start)
  target_ : ∀ e ∈ c.excTable, (opAt P e.target 0 0 c.elems).isSome = true

instance (P : Platform) (c : Concrete) : Decidable (TableOK P c) :=
  decidable_of_iff
    ((∀ e ∈ c.excTable, e.start ≤ e.stop) ∧ (∀ e ∈ c.excTable, ∃ k ∈ starts P 0 c.elems, e.start = k) ∧
     (∀ e ∈ c.excTable, ∃ k ∈ opcodeOffsets P 0 c.elems, e.stop = k) ∧
     c.excTable.Pairwise (fun e f => e.stop < f.start ∨ f.stop < e.start) ∧
     ∀ e ∈ c.excTable, (opAt P e.target 0 0 c.elems).isSome = true)
    ⟨fun ⟨a, b, d, e, f⟩ => ⟨a, b, d, e, f⟩, fun h => ⟨h.nonempty, h.start_, h.stop_, h.disjoint, h.target_⟩⟩

end Verif.Spec
