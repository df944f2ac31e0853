import Verif.Spec.Program
import Verif.Spec.Kept
import Verif.Spec.Table
import Verif.Spec.Caches
/-
What each exception of `ConcreteBytecode.to_bytecode` says.
-/
namespace Verif.Spec

/-- Number of local variables as they are counted from the cells and free variables that are not local ones: the first free
variable comes after them. -/
def frameCells (P : Platform) (c : Concrete) : Nat :=
  if P.py311 then c.varnames.length + (c.attrs.cellvars.filter (· ∉ c.varnames)).length else c.attrs.cellvars.length

/-- Number of slots the instructions on local variables may name: on 3.13 the cells and the free variables too, but for the
free variables that are also local ones (a defect: they are not counted). -/
def frameLocals (P : Platform) (c : Concrete) : Nat :=
  if P.py313 then frameCells P c + (c.attrs.freevars.filter (· ∉ c.varnames)).length else c.varnames.length

/-- The index of the name in an argument: one or two low bits may be flags. -/
def nameIndex (P : Platform) (op a : Nat) : Nat := if P.bitflag op then a / 2 else if P.bitflag2 op then a / 4 else a

/-- What is wrong with the argument `a` of an instruction, and the exception it leads to. -/
inductive BadArg (P : Platform) (c : Concrete) (op a : Nat) : PyErr → Prop
  /-- IndexError: no such constant -/
  | const : P.hasconst op = true → c.consts.length ≤ a → BadArg P c op a .indexError
  /-- ValueError: the constant is a Label, a BasicBlock or UNSET -/
  | constValue {v : Arg} : P.hasconst op = true → c.consts[a]? = some v → v = .unset ∨ (∃ l, v = .label l) ∨ (∃ b, v = .block b) →
      BadArg P c op a .valueError
  /-- IndexError: no such local variable -/
  | local_ : P.haslocal op = true → P.dual op = false → frameLocals P c ≤ a → BadArg P c op a .indexError
  /-- IndexError: one of two local variables does not exist -/
  | pair : P.dual op = true → frameLocals P c ≤ a / 16 ∨ frameLocals P c ≤ a % 16 → BadArg P c op a .indexError
  /-- TypeError: one of two local variables is a free variable -/
  | pairFree : P.dual op = true → frameCells P c ≤ a / 16 ∨ frameCells P c ≤ a % 16 → a / 16 < frameLocals P c → a % 16 < frameLocals P c →
      BadArg P c op a .typeError
  /-- IndexError: no such name -/
  | name : P.hasname op = true → c.names.length ≤ nameIndex P op a → BadArg P c op a .indexError
  /-- IndexError: no such cell or free variable -/
  | free : P.hasfree op = true → frameCells P c + c.attrs.freevars.length ≤ a → BadArg P c op a .indexError
  /-- ValueError: no such comparison -/
  | compare : P.hascompare op = true → ¬ CompareMember P (compareOf P a) → BadArg P c op a .valueError
  /-- ValueError: no such intrinsic -/
  | intr1 : P.intrinsic1 op = true → 11 < a → BadArg P c op a .valueError
  | intr2 : P.intrinsic2 op = true → 4 < a → BadArg P c op a .valueError

/-- The instructions with their offsets. -/
def placed (P : Platform) (cur : Nat) : List CElem → List (Nat × CInstr)
  | [] => []
  | .setLineno _ :: r => placed P cur r
  | .instr ci :: r => (cur, ci) :: placed P (cur + width P ci) r

/-- The instructions with their lines: that of their location, of the SetLineno before or of the instruction before. -/
def lined (line : Nat) : List CElem → List (Nat × CInstr)
  | [] => []
  | .setLineno n :: r => lined n r
  | .instr ci :: r => ((ci.loc.bind (·.lineno)).getD line, ci) :: lined ((ci.loc.bind (·.lineno)).getD line) r

/-- What is wrong with a ConcreteBytecode with elements `es` (EXTENDED_ARG prefixes folded) for which `to_bytecode` raises a given
exception. -/
inductive Undecodable (P : Platform) (c : Concrete) (prune : Bool) (es : List CElem) : PyErr → Prop
  /-- AssertionError: two entries of the exception table start at the same offset -/
  | same : ¬ (c.excTable.map (·.start)).Nodup → Undecodable P c prune es .assertionError
  /-- the argument of an instruction denotes nothing -/
  | arg {ci : CInstr} {a : Nat} {e : PyErr} : .instr ci ∈ es → ci.name ≠ "CACHE" → ci.arg = some a → BadArg P c ci.opcode a e → Undecodable P c prune es e
  /-- ValueError: a CACHE with an argument, when CACHE entries are kept -/
  | cache {ci : CInstr} : prune = false → .instr ci ∈ es → ci.name = "CACHE" → ci.arg.isSome → Undecodable P c prune es .valueError
  /-- ValueError: before 3.11 lines are positive -/
  | line {ci : CInstr} : P.py311 = false → (0, ci) ∈ lined c.attrs.firstLineno es → ci.loc = none → Undecodable P c prune es .valueError
  /-- KeyError: a jump to an offset where no instruction starts -/
  | jump {off : Nat} {ci : CInstr} {t : Int} : (off, ci) ∈ placed P 0 es → ci.getJumpTarget P off = some t →
      (∀ k ∈ starts P 0 es, (k : Int) ≠ t) → Undecodable P c prune es .keyError
  /-- KeyError: a handler at an offset where no instruction starts, for an entry that starts at an instruction or stops at an opcode
  (other entries are not looked at) -/
  | handler {e : ExcEntry} : e ∈ c.excTable → ((∃ k ∈ starts P 0 es, e.start = (k : Int)) ∨ ∃ k ∈ opcodeOffsets P 0 es, e.stop = (k : Int)) →
      (∀ k ∈ starts P 0 es, (k : Int) ≠ e.target) → Undecodable P c prune es .keyError

/-- The argument written by EXTENDED_ARG prefixes with arguments `bs` and an opcode with argument `a`. -/
def joined (bs : List Nat) (a : Nat) : Nat := bs.foldl (fun x b => 256 * x + b) 0 * 256 + a

/-- What is wrong with the EXTENDED_ARG prefixes of the instructions `l`, and the exception it leads to. -/
inductive BadPrefix (l : List CInstr) : PyErr → Prop
  /-- ValueError: EXTENDED_ARG at the end -/
  | dangling {pre : List CInstr} {u : CInstr} : l = pre ++ [u] → u.name = "EXTENDED_ARG" → BadPrefix l .valueError
  /-- TypeError: EXTENDED_ARG before an instruction without argument (other than NOP) -/
  | noArg {pre post : List CInstr} {u i : CInstr} : l = pre ++ u :: i :: post → u.name = "EXTENDED_ARG" → i.name ≠ "EXTENDED_ARG" → i.name ≠ "NOP" →
      i.arg = none → BadPrefix l .typeError
  /-- ValueError: the argument does not fit in 31 bits -/
  | large {pre us post : List CInstr} {i : CInstr} {bs : List Nat} {a : Nat} : l = pre ++ (us ++ i :: post) → us ≠ [] →
      us.map (fun u => (u.name, u.arg)) = bs.map (fun b => ("EXTENDED_ARG", some b)) →
      i.name ≠ "EXTENDED_ARG" → i.arg = some a → 2147483647 < joined bs a → BadPrefix l .valueError

end Verif.Spec
