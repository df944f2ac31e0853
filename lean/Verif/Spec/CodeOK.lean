import Verif.Spec.CodeProgram
import Verif.Spec.Kept
/-
What a code object of CPython (3.11+) looks like: its bytes are instructions with their EXTENDED_ARG and inline caches, the
indexes are within the tables, jumps and handlers go to instructions, the protected regions are made of whole instructions
and do not overlap. This is what the compiler writes; nothing here uses the library.
-/
namespace Verif.Spec

/-- The argument made of the bytes of the EXTENDED_ARG and of the instruction. -/
def wideArg (exts : List Nat) (a : Nat) : Nat := exts.foldl (fun acc b => acc * 256 + b) 0 * 256 + a

/-- A code string: each instruction is a possibly empty sequence of EXTENDED_ARG, an opcode that has a name and is neither
EXTENDED_ARG nor CACHE nor instrumented, an argument byte (0 when the opcode takes no argument, and then no EXTENDED_ARG)
and its inline caches, zeroed as in `co_code`. -/
inductive WellCoded (P : Platform) : Bytes → Prop
  | nil : WellCoded P []
  | instr (exts : List Nat) (name : String) (op a : Nat) (rest : Bytes) :
      (∀ e ∈ exts, e < 256) → P.opname op = some name → op ≠ 0 → op ≠ P.extendedArg → op < P.minInstrumented → op < 256 → a < 256 →
      wideArg exts a ≤ 2147483647 → (P.hasArg op = false → exts = [] ∧ a = 0) → WellCoded P rest →
      WellCoded P (exts.flatMap (fun e => [P.extendedArg, e]) ++ op :: a :: (List.replicate (2 * P.cacheEntries op) 0 ++ rest))

/-- The instructions the interpreter fetches. -/
def fetched (P : Platform) (co : Code) : List Fetched := fetch P 0 0 0 0 co.code

/-- The protected regions. -/
def regions (co : Code) : List Region := readRegions co.exctable.length co.exctable

/-- A code object as the compiler writes them. -/
structure CodeOK (P : Platform) (co : Code) : Prop where
  bytes : WellCoded P co.code
  /-- `co_positions()` reports locations InstrLocation accepts -/
  positions : ∀ p ∈ (readLocs co.firstlineno co.linetable).getD [], ValidArgs true p.line p.endLine p.col p.endCol
  /-- jumps go to instructions -/
  jumps : ∀ f ∈ fetched P co, ∀ t, jumpUnit P f = some t → ∃ g ∈ fetched P co, t = g.first
  /-- indexes are within the tables -/
  operands : ∀ o ∈ programCode P (id : Arg → Arg) co, o.operand ≠ .invalid
  /-- comparisons and intrinsics exist -/
  compares : ∀ f ∈ fetched P co, P.hascompare f.opcode = true → CompareMember P (compareOf P f.arg)
  intrinsics : ∀ f ∈ fetched P co, (P.intrinsic1 f.opcode = true → f.arg ≤ 11) ∧ (P.intrinsic2 f.opcode = true → f.arg ≤ 4)
  /-- two-variable opcodes are not about free variables -/
  duals : ∀ f ∈ fetched P co, P.dual f.opcode = true → ∀ k ∈ [f.arg / 16, f.arg % 16],
    ∃ n, (localSlots P (tablesOf co))[k]? = some (.named n)
  /-- free variables are not local variables -/
  apart : P.py313 = true → ∀ n ∈ co.freevars, n ∉ co.varnames
  /-- constants are Python values other than labels, blocks and UNSET -/
  consts : ∀ v ∈ co.consts, v ≠ .unset ∧ (∀ l, v ≠ .label l) ∧ ∀ b, v ≠ .block b
  /-- protected regions are made of instructions, are apart, and have an instruction as handler -/
  region : ∀ r ∈ regions co, 0 < r.size ∧ (∃ f ∈ fetched P co, r.start = f.first) ∧
    ((∃ f ∈ fetched P co, r.start + r.size = f.first) ∨ r.start + r.size = co.code.length / 2) ∧ ∃ f ∈ fetched P co, r.target = f.first
  disjoint : (regions co).Pairwise (fun r s => r.start + r.size ≤ s.start ∨ s.start + s.size ≤ r.start)

end Verif.Spec
