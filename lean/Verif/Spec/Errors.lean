import Verif.Spec.Assemblable
import Verif.Spec.Passes
/-
What each exception of `to_concrete_bytecode` says.
-/
namespace Verif.Spec

/-- What is wrong with a `Bytecode` for which `to_concrete_bytecode` raises a given exception. -/
inductive Wrong (P : Platform) (b : Bytecode) (passes : Nat) : PyErr → Prop
  /-- ValueError: before 3.11, the first line is not positive -/
  | line : P.py311 = false → b.attrs.firstLineno = 0 → Wrong P b passes .valueError
  /-- ValueError: an undeclared cell variable -/
  | cell {i : Instr} {n : String} : .instr i ∈ b.elems → P.hasconst i.opcode = false → i.arg = .cell n → n ∉ b.attrs.cellvars → Wrong P b passes .valueError
  /-- ValueError: an undeclared free variable -/
  | free {i : Instr} {n : String} : .instr i ∈ b.elems → P.hasconst i.opcode = false → i.arg = .free n → n ∉ b.attrs.freevars → Wrong P b passes .valueError
  /-- ValueError: a forward jump to a label that lies before it -/
  | forward {pre post : List BElem} {i : Instr} {l : Nat} : b.elems = pre ++ .instr i :: post → i.arg = .label l →
      isForwardRelJump P i.name i.opcode = true → .label l ∈ pre → .label l ∉ post → Wrong P b passes .valueError
  /-- ValueError: a backward jump to a label that lies after it, and after another instruction -/
  | backward {pre mid post : List BElem} {i j : Instr} {l : Nat} : b.elems = pre ++ .instr i :: mid ++ .label l :: post → i.arg = .label l →
      isBackwardRelJump P i.name i.opcode = true → .instr j ∈ mid → Wrong P b passes .valueError
  /-- KeyError: a jump to a label that is not in the code -/
  | label {i : Instr} {l : Nat} : .instr i ∈ b.elems → i.arg = .label l → .label l ∉ b.elems → Wrong P b passes .keyError
  /-- KeyError: a handler that is not in the code -/
  | handler {t : TryB} : .tryBegin t ∈ b.elems → .label t.target ∉ b.elems → Wrong P b passes .keyError
  /-- KeyError: a TryEnd that does not come after its TryBegin -/
  | end_ {pre post : List BElem} {id : Nat} : b.elems = pre ++ .tryEnd id :: post → (∀ t, .tryBegin t ∈ pre → t.id ≠ id) → Wrong P b passes .keyError
  /-- IndexError: a TryBegin after the last instruction -/
  | last {pre post : List BElem} {t : TryB} : b.elems = pre ++ .tryBegin t :: post → (∀ i, .instr i ∉ post) → Wrong P b passes .indexError
  /-- AssertionError: a TryBegin without depth -/
  | depth {t : TryB} : .tryBegin t ∈ b.elems → t.depth = none → Wrong P b passes .assertionError
  /-- AssertionError: a two-variable opcode on a cell variable -/
  | dual {i : Instr} : .instr i ∈ b.elems → P.dual i.opcode = true → (∀ x y, i.arg ≠ .tuple [.str x, .str y]) → Wrong P b passes .assertionError
  /-- AssertionError: a jump to a block, not to a label -/
  | block {i : Instr} {k : Nat} : .instr i ∈ b.elems → P.hasJump i.opcode = true → i.arg = .block k → Wrong P b passes .assertionError
  /-- RuntimeError: two TryBegin without a TryEnd between them -/
  | nested {pre mid post : List BElem} {t t' : TryB} : b.elems = pre ++ .tryBegin t :: mid ++ .tryBegin t' :: post → (∀ id, .tryEnd id ∉ mid) →
      Wrong P b passes .runtimeError
  /-- RuntimeError: too few passes -/
  | passes : passes ≤ 3 * jumpCount b.elems → Wrong P b passes .runtimeError

end Verif.Spec
