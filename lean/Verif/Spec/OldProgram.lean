import Verif.Spec.CodeProgram
import Verif.Spec.LineTables
/-
What CPython 3.8 to 3.10 executes for a code object: the operations of `Spec.Program`, read from the bytes of the code, the
tables and the table of lines. Written from the documentation of `dis`, Objects/lnotab_notes.txt and PEP 626; nothing here
uses the readers or writers of the library. There are no inline caches and no exception table: blocks are set up by opcodes.
-/
namespace Verif.Spec
variable {κ : Type}

/-- The byte an instruction jumps to. Arguments of jumps count bytes before 3.10, code units (two bytes) from 3.10 on;
relative jumps are relative to the instruction after. -/
def jumpByte (P : Platform) (f : Fetched) : Option Int :=
  let scale : Int := if P.py310 then 2 else 1
  let next : Int := 2 * (f.unit + 1)
  if isForwardRelJump P (nameOf P f.opcode) f.opcode then some (next + scale * f.arg)
  else if isBackwardRelJump P (nameOf P f.opcode) f.opcode then some (next - scale * f.arg)
  else if isAbsJump P f.opcode then some (scale * f.arg)
  else none

/-- The number of the operation that starts at a byte; at the end of the code, the number of operations. -/
def opAtByte (P : Platform) (t : Int) (len n : Nat) : List Fetched → Option Nat
  | [] => if t = len then some n else none
  | f :: r => if t = 2 * f.first then some n else opAtByte P t len (n + opCount P (nameOf P f.opcode) f.opcode) r

/-- The line of a byte: `co_lnotab` always gives one, `co_linetable` (3.10) may say there is none. -/
def lineOfByte (P : Platform) (co : Code) (q : Nat) : Option Int :=
  if P.py310 then ((readLinetable co.firstlineno co.linetable)[q]?).join
  else some (lnotabLine 0 co.firstlineno q co.linetable)

/-- The program denoted by a code object (3.8 to 3.10). -/
def programOld (P : Platform) (key : Arg → κ) (co : Code) : List (Op κ) :=
  let fs := fetch P 0 0 0 0 co.code
  fs.flatMap (fun f =>
    (expandC P key (tablesOf co) ((jumpByte P f).bind (fun t => opAtByte P t co.code.length 0 fs))
      ⟨nameOf P f.opcode, f.opcode, if P.hasArg f.opcode then some f.arg else none, none, none, 2⟩).map
    (fun p => ⟨p.1, p.2, Loc.line ((lineOfByte P co (2 * f.unit)).map Int.toNat), none⟩))

/-- What such a code object keeps of an operation of a Bytecode: only the line of its location, and no handler. -/
def Op.lineOnly (o : Op κ) : Op κ := { o with loc := Loc.line o.loc.lineno, handler := none }

end Verif.Spec
