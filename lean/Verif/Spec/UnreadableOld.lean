import Verif.Spec.Unreadable
import Verif.Spec.OldCodeOK
/-
What is wrong with a code object of CPython 3.8 to 3.10 that cannot be read, and the exception it leads to.
-/
namespace Verif.Spec

/-- The table of lines can be followed: lines start at instructions (units of two bytes), and (3.10, where the table has the length of
ranges) the table covers the code. -/
structure LinesFollow (P : Platform) (co : Code) : Prop where
  aligned : ∀ k, 2 * k < co.code.length → lineOfByte P co (2 * k) = lineOfByte P co (2 * k + 1)
  covered : P.py310 = true → co.code.length ≤ (readLinetable co.firstlineno co.linetable).length

/-- A code string the library cannot list instruction by instruction (ValueError). Every unit of two bytes is an instruction. -/
inductive UnlistableOld (P : Platform) (co : Code) : Prop
  /-- an opcode without a name -/
  | opcode {k op : Nat} : co.code[2 * k]? = some op → (P.opname op = none ∨ P.minInstrumented ≤ op) → UnlistableOld P co
  /-- a line below 1 -/
  | line {k : Nat} {l : Int} : 2 * k < co.code.length → lineOfByte P co (2 * k) = some l → l < 1 → UnlistableOld P co

/-- What is wrong with a code object that cannot be read. -/
inductive UnreadableOld (P : Platform) (co : Code) : PyErr → Prop
  | listing : UnlistableOld P co → UnreadableOld P co .valueError
  | extended {e : PyErr} : BadExtended P co e → UnreadableOld P co e

end Verif.Spec
