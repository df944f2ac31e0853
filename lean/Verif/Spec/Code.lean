import Verif.Model.Assemble
import Verif.Spec.Location
import Verif.Spec.Instr
import Verif.Spec.Caches
/-
What the instructions and locations of a ConcreteBytecode are, and how a location reads back from a code object.
-/
namespace Verif.Spec

/-- The line an instruction without location would have at the beginning: that of the SetLineno before it, else the
first line of the code. -/
def startLine (first : Nat) : List CElem → Nat
  | .setLineno n :: r => startLine n r
  | _ => first

/-- The location of each instruction: its own, else that of its predecessor, else the line at the beginning. -/
def locsOf (first : Nat) (es : List CElem) : List Loc :=
  inherit (Loc.line (some (startLine first es))) ((instrsOf es).map (·.loc))

/-- A location as a code object keeps it: nothing without a line; without columns, on a single line. -/
def keptLoc (l : Loc) : Loc :=
  match l.lineno with
  | none => ⟨none, none, none, none⟩
  | some n => ⟨some n, if l.col.isSome then l.endLineno else some n, l.col, l.endCol⟩

/-- Cells that are also locals come first, in the order of the locals. -/
def CellsOrdered (varnames cellvars : List String) : Prop :=
  ∃ rest, cellvars = varnames.filter (· ∈ cellvars) ++ rest ∧ ∀ x ∈ rest, x ∉ varnames

end Verif.Spec
