import Verif.Model.Format
/-
What a text shows of a bytecode: the vocabulary of C57. Only the arguments of the model are used, not how the text is written.
-/
namespace Verif.Spec
open Verif

/-- Opcode names are made of capitals, digits and underscores. -/
def OpName (n : String) : Prop := n.toList ≠ [] ∧ ∀ c ∈ n.toList, c.isUpper ∨ c.isDigit ∨ c = '_'

instance (n : String) : Decidable (OpName n) := by unfold OpName; infer_instance

/-- An argument shown by its `repr`. -/
def Plain : Arg → Prop
  | .unset => False
  | .label _ => False
  | .block _ => False
  | _ => True

instance : DecidablePred Plain := fun a => by cases a <;> simp only [Plain] <;> infer_instance

/-- What is needed of `repr` on some arguments: different arguments have different texts, on one line, which are not
the texts of labels, blocks and errors. -/
structure ReprOK (repr : Arg → List Char) (as : List Arg) : Prop where
  inj : ∀ x ∈ as, ∀ y ∈ as, Plain x → Plain y → repr x = repr y → x = y
  line : ∀ x ∈ as, Plain x → '\n' ∉ repr x
  text : ∀ x ∈ as, Plain x → ¬ "<label_".toList <+: repr x ∧ ¬ "<block".toList <+: repr x ∧ ¬ "<error".toList <+: repr x

/-- The arguments of the instructions of a list. -/
def argsOf (es : List BElem) : List Arg := es.filterMap (fun | .instr i => some i.arg | _ => none)

/-- The names of the instructions of a list are names of opcodes. -/
def NamesOK (es : List BElem) : Prop := ∀ i, .instr i ∈ es → OpName i.name

/-- The position, the first one being `k`, of the last occurrence of a label. -/
def lastAt (l : Nat) : Nat → List BElem → Option Nat
  | _, [] => none
  | k, e :: r => (lastAt l (k + 1) r).or (if e = .label l then some k else none)

/-- The position, the first one being `k`, of the last occurrence of a block. -/
def lastBlock (b : Nat) : Nat → List Nat → Option Nat
  | _, [] => none
  | k, x :: r => (lastBlock b (k + 1) r).or (if x = b then some k else none)

/-- The TryBegin objects of a list. -/
def beginIds (es : List BElem) : List Nat := es.filterMap (fun | .tryBegin t => some t.id | _ => none)

/-- The number of a TryBegin in a list of TryBegin. -/
def numberIn (id : Nat) (ids : List Nat) : Option Nat := if id ∈ ids then some (ids.idxOf id) else none

/-- The line shown for an instruction, `c` being the line before: none given, line 0; "no line", the line before. -/
def lineAfter (c : Nat) : Option Loc → Nat
  | none => 0
  | some l => l.lineno.getD c

/-- The line shown at the end of a list. -/
def shownLine (first : Nat) (es : List BElem) : Nat :=
  es.foldl (fun c e => match e with | .instr i => lineAfter c i.loc | _ => c) first

/-- Two arguments are the same, labels being compared by `lab` and blocks by `blk`. -/
def SameArg (labA labB blkA blkB : Nat → Option Nat) : Arg → Arg → Prop
  | .label l, .label m => labA l = labB m
  | .block l, .block m => blkA l = blkB m
  | x, y => x = y

/-- Two elements are the same, `refA` and `refB` giving the positions of labels and blocks and `idsA`, `idsB` the TryBegin
before. UNSET and 0 are the same depth. -/
def SameElem (labA labB blkA blkB refA refB : Nat → Option Nat) (idsA idsB : List Nat) : BElem → BElem → Prop
  | .label _, .label _ => True
  | .instr i, .instr j => i.name = j.name ∧ SameArg labA labB blkA blkB i.arg j.arg
  | .tryBegin s, .tryBegin t => refA s.target = refB t.target ∧ s.lasti = t.lasti ∧ s.depth.getD 0 = t.depth.getD 0
  | .tryEnd s, .tryEnd t => numberIn s idsA = numberIn t idsB
  | _, _ => False

end Verif.Spec
