import Verif.Spec.Table
/-
The exception table entries `to_bytecode` gives a region.
-/
namespace Verif.Spec

/-- Does the entry start where an instruction (its EXTENDED_ARG prefixes included) starts? -/
def startsAtInstr (P : Platform) (es : List CElem) (e : ExcEntry) : Bool := decide (∃ k ∈ starts P 0 es, e.start = (k : Int))

/-- The code without the entries that start inside an instruction. -/
def withoutLost (P : Platform) (c : Concrete) : Concrete := { c with excTable := c.excTable.filter (startsAtInstr P c.elems) }

/-- A table of disjoint regions: each stops on an opcode (or cache), no entry stops inside another one, the target of
each is the start of an operation. Entries may be empty and may start inside an instruction. -/
structure TableAny (P : Platform) (c : Concrete) : Prop where
  stop_ : ∀ e ∈ c.excTable, ∃ k ∈ opcodeOffsets P 0 c.elems, e.stop = k
  disjoint : c.excTable.Pairwise (fun e f => e.stop < f.start ∨ f.stop < e.start)
  inside : ∀ f ∈ c.excTable, ∀ e ∈ c.excTable, ¬ (e.start ≤ f.stop ∧ f.stop < e.stop)
  target_ : ∀ e ∈ c.excTable, (opAt P e.target 0 0 c.elems).isSome = true

/-- The handler of an operation is kept, or lost. -/
def KeptOrLost (read given : Option Handler) : Prop := read = given ∨ read = none

end Verif.Spec
