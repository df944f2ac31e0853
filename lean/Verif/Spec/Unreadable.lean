import Verif.Spec.CodeOK
/-
What is wrong with a code object (3.11+) that cannot be read, and the exception it leads to.
-/
namespace Verif.Spec

/-- The code units that hold an instruction (or an EXTENDED_ARG): number of the unit and opcode. The inline caches after an
instruction are skipped (`skip` are still to be skipped). -/
def heads (P : Platform) (skip unit : Nat) : Bytes → List (Nat × Nat)
  | op :: _ :: r =>
    match skip with
    | s + 1 => heads P s (unit + 1) r
    | 0 => (unit, op) :: heads P (P.cacheEntries op) (unit + 1) r
  | _ => []

/-- The position `co_positions()` gives for a code unit. -/
def posAt (co : Code) (u : Nat) : Pos := (((readLocs co.firstlineno co.linetable).getD [])[u]?).getD ⟨none, none, none, none⟩

/-- The code ends with EXTENDED_ARG: `last` when the unit before was one. -/
def endsExtended (P : Platform) (skip : Nat) (last : Bool) : Bytes → Bool
  | op :: _ :: r =>
    match skip with
    | s + 1 => endsExtended P s false r
    | 0 => if op = P.extendedArg then endsExtended P 0 true r else endsExtended P (P.cacheEntries op) false r
  | _ => last

/-- A code string `dis` and the library cannot list instruction by instruction (ValueError). -/
inductive Unlistable (P : Platform) (co : Code) : Prop
  /-- an opcode without a name, or an instrumented one -/
  | opcode {u op : Nat} : (u, op) ∈ heads P 0 0 co.code → (P.opname op = none ∨ P.minInstrumented ≤ op) → Unlistable P co
  /-- the position of an instruction — or, before 3.13, of one of its inline caches — that InstrLocation does not accept -/
  | position {u op k : Nat} : (u, op) ∈ heads P 0 0 co.code → k ≤ (if P.py313 then 0 else P.cacheEntries op) →
      ¬ ValidArgs true (posAt co (u + k)).line (posAt co (u + k)).endLine (posAt co (u + k)).col (posAt co (u + k)).endCol → Unlistable P co

/-- What is wrong with the EXTENDED_ARG of a code string. -/
inductive BadExtended (P : Platform) (co : Code) : PyErr → Prop
  /-- ValueError: EXTENDED_ARG at the end -/
  | dangling : endsExtended P 0 false co.code = true → BadExtended P co .valueError
  /-- TypeError: EXTENDED_ARG before an opcode without argument (other than NOP) -/
  | noArg {f : Fetched} : f ∈ fetched P co → f.first < f.unit → P.hasArg f.opcode = false → P.opname f.opcode ≠ some "NOP" → BadExtended P co .typeError
  /-- ValueError: an argument that does not fit in 31 bits -/
  | large {f : Fetched} : f ∈ fetched P co → P.hasArg f.opcode = true → 2147483647 < f.arg → BadExtended P co .valueError

/-- What is wrong with a code object that cannot be read. -/
inductive Unreadable (P : Platform) (co : Code) : PyErr → Prop
  | listing : Unlistable P co → Unreadable P co .valueError
  | extended {e : PyErr} : BadExtended P co e → Unreadable P co e

end Verif.Spec
