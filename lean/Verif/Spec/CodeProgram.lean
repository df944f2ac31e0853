import Verif.Model.Code
import Verif.Spec.Program
import Verif.Spec.Location
import Verif.Spec.Code
/-
What CPython (3.11+) executes for a code object: the operations of `Spec.Program`, read from the bytes of the code, the
tables, the table of locations and the exception table. Written from the documentation of `dis`, Objects/locations.md and
Objects/exception_handling_notes.txt; nothing here uses the readers or writers of the library.
-/
namespace Verif.Spec
variable {κ : Type}

/-- An instruction as the interpreter fetches it: opcode, argument (with the bytes of the EXTENDED_ARG before it), the code
unit where it starts (EXTENDED_ARG included) and the code unit of its opcode. -/
structure Fetched where
  opcode : Nat
  arg : Nat
  first : Nat
  unit : Nat
deriving DecidableEq, Repr

/-- Fetching: `skip` inline cache units are to be skipped, `acc` are the argument bytes of the EXTENDED_ARG since the unit
`first`, the head of the list is the unit `unit`. -/
def fetch (P : Platform) (skip first acc unit : Nat) : Bytes → List Fetched
  | op :: a :: r =>
    match skip with
    | s + 1 => fetch P s (unit + 1) 0 (unit + 1) r
    | 0 =>
      if op = P.extendedArg then fetch P 0 first (acc * 256 + a) (unit + 1) r
      else ⟨op, acc * 256 + a, first, unit⟩ :: fetch P (P.cacheEntries op) (unit + 1) 0 (unit + 1) r
  | _ => []

/-- The name of an opcode. -/
def nameOf (P : Platform) (op : Nat) : String := (P.opname op).getD ""

/-- The number of the operation a code unit is the start of; at the end of the code, the number of operations. -/
def opAtUnit (P : Platform) (t : Int) (len n : Nat) : List Fetched → Option Nat
  | [] => if t = len then some n else none
  | f :: r => if t = f.first then some n else opAtUnit P t len (n + opCount P (nameOf P f.opcode) f.opcode) r

/-- The unit an instruction jumps to: relative to the unit after it and its caches, or absolute. -/
def jumpUnit (P : Platform) (f : Fetched) : Option Int :=
  let next : Int := f.unit + 1 + P.cacheEntries f.opcode
  if isForwardRelJump P (nameOf P f.opcode) f.opcode then some (next + f.arg)
  else if isBackwardRelJump P (nameOf P f.opcode) f.opcode then some (next - f.arg)
  else if isAbsJump P f.opcode then some f.arg
  else none

/-- A number of the exception table: base 64, most significant digit first, bit 0x40 on all digits but the last. -/
def readNumber (acc : Nat) : Bytes → Option (Nat × Bytes)
  | [] => none
  | b :: r => if b % 128 < 64 then some (acc * 64 + b % 64, r) else readNumber (acc * 64 + b % 64) r

/-- An entry of the exception table: the units `start ≤ u < start + size` are protected, depth and lasti are
`depthLasti / 2` and `depthLasti % 2`. -/
structure Region where
  start : Nat
  size : Nat
  target : Nat
  depthLasti : Nat
deriving DecidableEq, Repr

/-- The entries of an exception table (each consumes a byte at least: the length is enough fuel). -/
def readRegions : Nat → Bytes → List Region
  | 0, _ => []
  | n + 1, bs =>
    match readNumber 0 bs with
    | none => []
    | some (a, bs) => match readNumber 0 bs with
      | none => []
      | some (b, bs) => match readNumber 0 bs with
        | none => []
        | some (c, bs) => match readNumber 0 bs with
          | none => []
          | some (d, bs) => ⟨a, b, c, d⟩ :: readRegions n bs

/-- The handler of the opcode at a unit: the first entry covering it. -/
def handlerOfUnit (P : Platform) (co : Code) (fs : List Fetched) (u : Nat) : Option Handler :=
  match (readRegions co.exctable.length co.exctable).find? (fun e => e.start ≤ u && u < e.start + e.size) with
  | none => none
  | some e => (opAtUnit P e.target (co.code.length / 2) 0 fs).map (fun t => ⟨t, e.depthLasti % 2 == 1, e.depthLasti / 2⟩)

/-- The tables of a code object. -/
def tablesOf (co : Code) : Concrete where
  attrs := { argcount := co.argcount, posonlyargcount := co.posonlyargcount, kwonlyargcount := co.kwonlyargcount
             firstLineno := co.firstlineno, name := co.name, qualname := co.qualname, filename := co.filename
             docstring := none, cellvars := co.cellvars, freevars := co.freevars, flags := co.flags }
  consts := co.consts
  names := co.names
  varnames := co.varnames
  excTable := []
  elems := []

/-- The location of a unit. -/
def locOfUnit (co : Code) (u : Nat) : Loc :=
  match ((readLocs co.firstlineno co.linetable).getD [])[u]? with
  | none => ⟨none, none, none, none⟩
  | some p => ⟨p.line.map Int.toNat, p.endLine.map Int.toNat, p.col.map Int.toNat, p.endCol.map Int.toNat⟩

/-- The program denoted by a code object (3.11+). -/
def programCode (P : Platform) (key : Arg → κ) (co : Code) : List (Op κ) :=
  let fs := fetch P 0 0 0 0 co.code
  fs.flatMap (fun f =>
    (expandC P key (tablesOf co) ((jumpUnit P f).bind (fun t => opAtUnit P t (co.code.length / 2) 0 fs))
      ⟨nameOf P f.opcode, f.opcode, if P.hasArg f.opcode then some f.arg else none, none, none, 2⟩).map
    (fun p => ⟨p.1, p.2, locOfUnit co f.unit, handlerOfUnit P co fs f.unit⟩))

end Verif.Spec
