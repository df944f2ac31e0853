import Verif.Spec.OldProgram
import Verif.Spec.CodeOK
/-
What a code object of CPython 3.8 to 3.10 looks like: what the compiler writes; nothing here uses the library.
-/
namespace Verif.Spec

/-- The table of lines: lines start at instructions (units of two bytes), are positive, and (3.10, where the table has the length of
ranges) cover the code. -/
structure OldLinesOK (P : Platform) (co : Code) : Prop where
  aligned : ∀ k, 2 * k < co.code.length → lineOfByte P co (2 * k) = lineOfByte P co (2 * k + 1)
  positive : ∀ k, 2 * k < co.code.length → ∀ l, lineOfByte P co (2 * k) = some l → 1 ≤ l
  covered : P.py310 = true → co.code.length ≤ (readLinetable co.firstlineno co.linetable).length

/-- A code object as the compiler writes them, before 3.11. -/
structure OldCodeOK (P : Platform) (co : Code) : Prop where
  bytes : WellCoded P co.code
  lines : OldLinesOK P co
  /-- jumps go to instructions -/
  jumps : ∀ f ∈ fetched P co, ∀ t, jumpByte P f = some t → ∃ g ∈ fetched P co, t = 2 * g.first
  /-- indexes are within the tables -/
  operands : ∀ o ∈ programOld P (id : Arg → Arg) co, o.operand ≠ .invalid
  /-- comparisons exist -/
  compares : ∀ f ∈ fetched P co, P.hascompare f.opcode = true → CompareMember P (compareOf P f.arg)
  /-- constants are Python values other than labels, blocks and UNSET -/
  consts : ∀ v ∈ co.consts, v ≠ .unset ∧ (∀ l, v ≠ .label l) ∧ ∀ b, v ≠ .block b

/-- Beyond `OldCodeOK`, what a code object of 3.8 to 3.10 must meet to be written again: the first line is positive and the size far
from the limits (a code string of 256 MB). -/
structure OldRewritable (co : Code) : Prop where
  line : 1 ≤ co.firstlineno
  size : 8 * co.code.length + co.varnames.length + co.cellvars.length + co.freevars.length ≤ 2147483647

end Verif.Spec
