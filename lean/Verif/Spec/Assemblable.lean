import Verif.Model.ConcreteInstr
import Verif.Model.Bytecode
import Verif.Spec.Operands
import Verif.Spec.Kept
/-
Which `Bytecode` can be assembled.
-/
namespace Verif.Spec

/-- Room taken by an element: two instructions (a two-variable opcode may be split) and the inline caches. -/
def room (P : Platform) : BElem → Nat
  | .instr i => 2 + P.cacheEntries i.opcode
  | _ => 0

/-- What the constructors of `Instr`, `Compare`, `Intrinsic1Op`, `TryBegin` ensure, no CACHE written by hand, and a size within
the limits: 8 bytes for each instruction and each index at most 2147483647. -/
structure WellMade (P : Platform) (b : Bytecode) : Prop where
  valid : ∀ i, .instr i ∈ b.elems → ValidInstr P i ∧ i.name ≠ "CACHE"
  compare : ∀ i v, .instr i ∈ b.elems → P.hascompare i.opcode = true → i.arg = .compare v → CompareMember P v
  intrinsic : ∀ i v, .instr i ∈ b.elems → (P.intrinsic1 i.opcode || P.intrinsic2 i.opcode) = true → i.arg = .intr1 v ∨ i.arg = .intr2 v → v ≤ 255
  /-- occurrences of one TryBegin object carry the same data -/
  tries : ∀ t t', .tryBegin t ∈ b.elems → .tryBegin t' ∈ b.elems → t.id = t'.id → t = t'
  size : 8 * (b.elems.map (room P)).sum + b.argnames.length + b.attrs.cellvars.length + b.attrs.freevars.length ≤ 2147483647

/-- The rules a `Bytecode` has to follow. -/
structure Assemblable (P : Platform) (b : Bytecode) : Prop where
  /-- before 3.11 the first line is positive -/
  line : P.py311 = true ∨ 1 ≤ b.attrs.firstLineno
  /-- a TryEnd comes between two TryBegin -/
  nested : ∀ pre t mid t' post, b.elems = pre ++ .tryBegin t :: mid ++ .tryBegin t' :: post → ∃ id, .tryEnd id ∈ mid
  /-- a TryBegin has a depth, a handler in the code, and some instruction after it -/
  begins : ∀ pre t post, b.elems = pre ++ .tryBegin t :: post →
    t.depth ≠ none ∧ .label t.target ∈ b.elems ∧ ∃ i, .instr i ∈ post
  /-- a TryEnd comes after its TryBegin -/
  ends : ∀ pre id post, b.elems = pre ++ .tryEnd id :: post → ∃ t, .tryBegin t ∈ pre ∧ t.id = id
  /-- jumps are to labels of the code -/
  jumps : ∀ i, .instr i ∈ b.elems → P.hasJump i.opcode = true → ∃ l, i.arg = .label l ∧ .label l ∈ b.elems
  /-- `is_forward_rel_jump`: the label comes after (where a label occurs several times, its last occurrence counts) -/
  forward : ∀ pre i post l, b.elems = pre ++ .instr i :: post → i.arg = .label l → isForwardRelJump P i.name i.opcode = true →
    .label l ∈ post
  /-- `is_backward_rel_jump`: the label comes before, or just after (a jump of length 0) -/
  backward : ∀ pre i mid l post, b.elems = pre ++ .instr i :: mid ++ .label l :: post → i.arg = .label l →
    isBackwardRelJump P i.name i.opcode = true → ∀ j, .instr j ∉ mid
  /-- cell and free variables are declared -/
  cells : ∀ i n, .instr i ∈ b.elems → P.hasconst i.opcode = false → i.arg = .cell n → n ∈ b.attrs.cellvars
  frees : ∀ i n, .instr i ∈ b.elems → P.hasconst i.opcode = false → i.arg = .free n → n ∈ b.attrs.freevars
  /-- the two-variable opcodes of 3.13 have names -/
  duals : ∀ i, .instr i ∈ b.elems → P.dual i.opcode = true → ∃ x y, i.arg = .tuple [.str x, .str y]

end Verif.Spec
