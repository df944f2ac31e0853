import Verif.Spec.Depths
import Verif.Spec.Assemblable
import Verif.Spec.Location
/-
Editing a Bytecode: replacing (or inserting, or deleting) a run of instructions. What it should do to the program.
-/
namespace Verif.Spec
variable {κ : Type}

/-- The operand with its target moved. -/
def Operand.retarget (ψ : Nat → Nat) : Operand κ → Operand κ
  | .jump t => .jump (ψ t)
  | x => x

/-- The operation with its targets moved. -/
def Op.retarget (ψ : Nat → Nat) (o : Op κ) : Op κ :=
  { o with
    operand := o.operand.retarget ψ
    handler := o.handler.map (fun h => { h with target := ψ h.target }) }

/-- Where the operations after an edit are: the `m` operations from number `k` on are replaced by `m'` ones. A target at `k`
itself stays there when `keep` is set (jumps there then run the new code). -/
def moved (k m m' : Nat) (keep : Bool) (t : Nat) : Nat :=
  if t < k ∨ (t = k ∧ keep = true) then t else t - m + m'

/-- Only instructions. -/
def Instrs (es : List BElem) : Prop := ∀ e ∈ es, ∃ i, e = .instr i

/-- Which labels are moved is clear: with `keep`, no label comes right after the place edited unless there are operations to
replace; otherwise no label comes right before. -/
def Clear (P : Platform) (pre mid post : List BElem) (keep : Bool) : Prop :=
  if keep then 0 < opNumber P mid ∨ ∀ l p q, post = p ++ .label l :: q → 0 < opNumber P p
  else ∀ l p q, pre = p ++ .label l :: q → 0 < opNumber P q

/-- The edit does not change the location the next instruction inherits: the instructions removed and added have no location, or
the instructions that follow do not inherit one (a SetLineno or a located instruction comes first). -/
def LocationsKept (mid mid' post : List BElem) : Prop :=
  (∀ i, .instr i ∈ mid ++ mid' → i.loc = none) ∨
  ∀ p i q, post = p ++ .instr i :: q → i.loc = none → ∃ e ∈ p, (∃ n, e = .setLineno n) ∨ ∃ j, e = .instr j ∧ j.loc ≠ none

/-- The location an instruction after the list inherits. -/
def locAfter (loc : Loc) : List BElem → Loc
  | [] => loc
  | .setLineno n :: r => locAfter (Loc.line (some n)) r
  | .instr i :: r => locAfter (i.loc.getD loc) r
  | _ :: r => locAfter loc r

/-- The try region open after the list. -/
def tryAfter (tr : Option TryB) : List BElem → Option TryB
  | [] => tr
  | .tryBegin t :: r => tryAfter (some t) r
  | .tryEnd _ :: r => tryAfter none r
  | _ :: r => tryAfter tr r

/-- What new instructions must be to be added to `b` between `pre` and `post`: as the constructors make them, no CACHE, declared cell
and free variables, jumps to labels of `b` in the right direction, and a location that fits. -/
structure Insertable (P : Platform) (b : Bytecode) (pre post : List BElem) (i : Instr) : Prop where
  valid : ValidInstr P i ∧ i.name ≠ "CACHE"
  block : ∀ x, i.arg ≠ .block x
  compare : ∀ v, i.arg = .compare v → CompareMember P v
  intrinsic : ∀ v, i.arg = .intr1 v ∨ i.arg = .intr2 v → v ≤ 255
  jump : P.hasJump i.opcode = true → ∃ l, i.arg = .label l ∧ .label l ∈ b.elems
  forward : ∀ l, i.arg = .label l → isForwardRelJump P i.name i.opcode = true → .label l ∈ post
  backward : ∀ l, i.arg = .label l → isBackwardRelJump P i.name i.opcode = true → .label l ∉ post
  cells : ∀ n, P.hasconst i.opcode = false → i.arg = .cell n → n ∈ b.attrs.cellvars
  frees : ∀ n, P.hasconst i.opcode = false → i.arg = .free n → n ∈ b.attrs.freevars
  duals : P.dual i.opcode = true → ∃ x y, i.arg = .tuple [.str x, .str y]
  loc : ∀ l, i.loc = some l → ¬ Unencodable l

end Verif.Spec
