import Verif.Model.CfgConv
import Verif.Spec.CFG
/-
What an exception of `ControlFlowGraph.from_bytecode` says about the Bytecode, in terms of the list of elements only.
-/
namespace Verif.Spec

/-- What is wrong with a `Bytecode` for which `from_bytecode` raises a given exception. -/
inductive WrongFlow (P : Platform) (b : Bytecode) : PyErr → Prop
  /-- RuntimeError: two TryBegin without a TryEnd between them -/
  | nested {pre mid post : List BElem} {t t' : TryB} : b.elems = pre ++ .tryBegin t :: mid ++ .tryBegin t' :: post → (∀ id, .tryEnd id ∉ mid) →
      WrongFlow P b .runtimeError
  /-- KeyError: a jump to a label that is not in the code -/
  | label {i : Instr} {l : Nat} : .instr i ∈ b.elems → i.arg = .label l → .label l ∉ b.elems → WrongFlow P b .keyError
  /-- KeyError: a handler that is not in the code -/
  | handler {t : TryB} : .tryBegin t ∈ b.elems → .label t.target ∉ b.elems → WrongFlow P b .keyError
  /-- KeyError: a TryEnd that does not come after its TryBegin -/
  | end_ {pre post : List BElem} {id : Nat} : b.elems = pre ++ .tryEnd id :: post → (∀ t, .tryBegin t ∈ pre → t.id ≠ id) → WrongFlow P b .keyError
  /-- AssertionError: a TryEnd just after an instruction that ends the control flow, outside of any protected region -/
  | outside {pre post : List BElem} {i : Instr} {id : Nat} : b.elems = pre ++ .instr i :: .tryEnd id :: post → isFinal i.name = true →
      (∀ pre' t mid, pre = pre' ++ .tryBegin t :: mid → ∃ id', .tryEnd id' ∈ mid) → WrongFlow P b .assertionError
  /-- AssertionError: a jump to a BasicBlock, which is not of this code -/
  | block {i : Instr} {k : Nat} : .instr i ∈ b.elems → P.hasJump i.opcode = true → i.arg = .block k → WrongFlow P b .assertionError
  /-- TypeError: the same, in code with protected regions -/
  | blockTry {i : Instr} {k : Nat} {t : TryB} : .instr i ∈ b.elems → P.hasJump i.opcode = true → i.arg = .block k → .tryBegin t ∈ b.elems →
      WrongFlow P b .typeError

/-- What is wrong with a graph for which `to_bytecode` raises a given exception. -/
inductive WrongBlocks (P : Platform) (c : CFG) : PyErr → Prop
  /-- ValueError: a Label in a block -/
  | label {b l : Nat} : b ∈ c.blocks → .label l ∈ (c.heap b).elems → WrongBlocks P c .valueError
  /-- ValueError: a jump before the last instruction of its block -/
  | early {b : Nat} {pre post : List BElem} {i j : Instr} : b ∈ c.blocks → (c.heap b).elems = pre ++ .instr i :: post → P.hasJump i.opcode = true →
      .instr j ∈ post → WrongBlocks P c .valueError
  /-- AssertionError: a jump whose target is not a block -/
  | target {b : Nat} {i : Instr} : b ∈ c.blocks → .instr i ∈ (c.heap b).elems → P.hasJump i.opcode = true → (∀ k, i.arg ≠ .block k) →
      WrongBlocks P c .assertionError
  /-- KeyError: a jump to a block that is not in the graph -/
  | jump {i : Instr} {k : Nat} : .instr i ∈ allCode c → i.arg = .block k → k ∉ c.blocks → WrongBlocks P c .keyError
  /-- KeyError: a handler that is not in the graph -/
  | handler {t : TryB} : .tryBegin t ∈ allCode c → t.target ∉ c.blocks → WrongBlocks P c .keyError
  /-- KeyError: a TryEnd that does not come after its TryBegin, block after block -/
  | end_ {pre post : List BElem} {id : Nat} : allCode c = pre ++ .tryEnd id :: post → (∀ t, .tryBegin t ∈ pre → t.id ≠ id) → WrongBlocks P c .keyError
  /-- AssertionError: a TryBegin in a region with another handler: no TryEnd between them, or only TryEnd that occurred before -/
  | nested {pre mid post : List BElem} {t t' : TryB} : allCode c = pre ++ .tryBegin t :: mid ++ .tryBegin t' :: post →
      (∀ id, .tryEnd id ∈ mid → .tryEnd id ∈ pre) → (t.target ≠ t'.target ∨ t.lasti ≠ t'.lasti) → WrongBlocks P c .assertionError
  /-- AssertionError: a TryBegin without depth and, later, one with -/
  | depths {pre mid post : List BElem} {t t' : TryB} : allCode c = pre ++ .tryBegin t :: mid ++ .tryBegin t' :: post → t.depth = none → t'.depth ≠ none →
      WrongBlocks P c .assertionError
  /-- ValueError: a TryEnd then two TryBegin, without an instruction between them -/
  | twice {pre mid mid' post : List BElem} {id : Nat} {t t' : TryB} : allCode c = pre ++ .tryEnd id :: mid ++ .tryBegin t :: mid' ++ .tryBegin t' :: post →
      (∀ i, .instr i ∉ mid) → (∀ i, .instr i ∉ mid') → WrongBlocks P c .valueError

end Verif.Spec
