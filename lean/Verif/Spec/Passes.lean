import Verif.Spec.Caches
import Verif.Spec.CodeOK
/-
EXTENDED_ARG prefixes of jumps.
-/
namespace Verif.Spec

/-- EXTENDED_ARG prefixes of an instruction: its size beyond the first 2 bytes, in instructions of 2 bytes. -/
def prefixes (i : CInstr) : Nat := (i.size - 2) / 2

/-- EXTENDED_ARG prefixes of all jumps. -/
def jumpPrefixes (P : Platform) (l : List CInstr) : Nat := ((l.filter (fun i => P.hasJump i.opcode)).map prefixes).sum

/-- The number of EXTENDED_ARG before jumps in a code object: for each jump fetched, the units between the first
EXTENDED_ARG and the opcode. -/
def jumpExtArgs (P : Platform) (co : Code) : Nat :=
  (((fetched P co).filter (fun f => P.hasJump f.opcode)).map (fun f => f.unit - f.first)).sum

end Verif.Spec
