import Verif.Spec.Errors
import Verif.Spec.GraphErrors
import Verif.Spec.CfgCode
import Verif.Spec.GraphProgram
/-
What an exception of `ControlFlowGraph.to_code` says about the graph.
-/
namespace Verif.Spec

/-- What the constructors ensure for the instructions of a graph, no CACHE written by hand, and a size within the limits (as `WellMade` for a Bytecode). -/
structure WellMadeG (P : Platform) (c : CFG) : Prop where
  valid : ∀ i, .instr i ∈ allCode c → ValidInstr P i ∧ i.name ≠ "CACHE"
  compare : ∀ i v, .instr i ∈ allCode c → P.hascompare i.opcode = true → i.arg = .compare v → CompareMember P v
  intrinsic : ∀ i v, .instr i ∈ allCode c → (P.intrinsic1 i.opcode || P.intrinsic2 i.opcode) = true → i.arg = .intr1 v ∨ i.arg = .intr2 v → v ≤ 255
  size : 8 * ((allCode c).map (room P)).sum + c.argnames.length + c.attrs.cellvars.length + c.attrs.freevars.length ≤ 2147483647

/-- Every protected region holds an instruction before its first TryEnd, block after block. -/
def FullTries (c : CFG) : Prop :=
  ∀ pre t mid post, allCode c = pre ++ .tryBegin t :: mid ++ .tryEnd t.id :: post → .tryEnd t.id ∉ mid → ∃ i, .instr i ∈ mid

/-- Number of jumps to blocks. -/
def blockJumps (c : CFG) : Nat := (allCode c).countP (fun | .instr i => (match i.arg with | .block _ => true | _ => false) | _ => false)

/-- What is wrong with a graph that can be converted to a Bytecode and for which `to_code` raises a given exception. `blockAt c.heap k c.blocks` is the
number of instructions before block `k`. -/
inductive WrongCode (P : Platform) (c : CFG) : PyErr → Prop
  /-- ValueError: before 3.11, the first line is not positive -/
  | line : P.py311 = false → c.attrs.firstLineno = 0 → WrongCode P c .valueError
  /-- ValueError: an undeclared cell variable -/
  | cell {i : Instr} {n : String} : .instr i ∈ allCode c → P.hasconst i.opcode = false → i.arg = .cell n → n ∉ c.attrs.cellvars → WrongCode P c .valueError
  /-- ValueError: an undeclared free variable -/
  | free {i : Instr} {n : String} : .instr i ∈ allCode c → P.hasconst i.opcode = false → i.arg = .free n → n ∉ c.attrs.freevars → WrongCode P c .valueError
  /-- ValueError: a forward jump to a block that does not start after it -/
  | forward {pre post : List BElem} {i : Instr} {k t : Nat} : allCode c = pre ++ .instr i :: post → i.arg = .block k →
      isForwardRelJump P i.name i.opcode = true → blockAt c.heap k c.blocks = some t → t ≤ instrCount pre → WrongCode P c .valueError
  /-- ValueError: a backward jump to a block that starts after it, and after another instruction -/
  | backward {pre post : List BElem} {i : Instr} {k t : Nat} : allCode c = pre ++ .instr i :: post → i.arg = .block k →
      isBackwardRelJump P i.name i.opcode = true → blockAt c.heap k c.blocks = some t → instrCount pre + 1 < t → WrongCode P c .valueError
  /-- ValueError: from 3.11 on, a location of several lines without columns -/
  | location {i : Instr} {l : Loc} : P.py311 = true → .instr i ∈ allCode c → i.loc = some l → Unencodable l → WrongCode P c .valueError
  /-- AssertionError: a TryBegin without depth -/
  | depth {t : TryB} : .tryBegin t ∈ allCode c → t.depth = none → WrongCode P c .assertionError
  /-- AssertionError: a two-variable opcode on a cell variable -/
  | dual {i : Instr} : .instr i ∈ allCode c → P.dual i.opcode = true → (∀ x y, i.arg ≠ .tuple [.str x, .str y]) → WrongCode P c .assertionError
  /-- RuntimeError: too many jumps for the default number of passes -/
  | passes : 10 ≤ 3 * blockJumps c → WrongCode P c .runtimeError

end Verif.Spec
