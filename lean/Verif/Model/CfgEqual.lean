import Verif.Model.Equal
import Verif.Model.Code
/-
Equality of `ControlFlowGraph` objects: `_get_instructions` and `__eq__` (src/bytecode/cfg.py 599-661), then
`BaseBytecode.__eq__` (bytecode.py 66-97).
-/
namespace Verif

/-- An element of `_get_instructions()`, cfg.py 601-646: an Instr (through its comparison key), a SetLineno, the
ConcreteInstr standing for a jump, the tuples `("TryBegin", …)` and `("TryEnd", …)`. -/
inductive GraphItem (κ : Type) where
  | instr (k : Option Loc × String × (Arg ⊕ κ))
  | setLineno (n : Nat)
  | jump (loc : Option Loc) (name : String) (target : Nat)
  | tryBegin (ord : Nat) (target : Int) (lasti : Bool)
  | tryEnd (ord : Nat)
deriving DecidableEq

/-- `("TryEnd", try_begins[entry])`, cfg.py 622-623, 642-643 -/
def graphTryEnd {κ : Type} (tries : List Nat) (id : Nat) : Py (GraphItem κ) :=
  if id ∈ tries then .ok (.tryEnd (tries.idxOf id)) else .error .keyError

/-- The item of a jump or of a final instruction, cfg.py 627-640. `ConcreteInstr(name, index)` checks the index as the
argument of the instruction (jumps have one). -/
def graphLast {κ : Type} (P : Platform) (key : Arg → κ) (c : CFG) (i : Instr) : Py (GraphItem κ) :=
  if P.hasJump i.opcode then
    match i.arg.asBlock with
    | none => .error .assertionError
    | some b => do
      let k ← c.getBlockIndex b
      let n ← checkArgInt (.int k)
      return .jump i.loc i.name n
  else .ok (.instr (i.cmpKey P key))

/-- The inner loop of `_get_instructions` over the elements of a block, cfg.py 608-646, checked by `BasicBlock.__iter__` as they
are reached. It stops at the first jump or final instruction. Returns the items and the keys of `try_begins`. -/
def graphBlock {κ : Type} (P : Platform) (key : Arg → κ) (c : CFG) (tries : List Nat) : List BElem → Py (List (GraphItem κ) × List Nat)
  | [] => .ok ([], tries)
  | e :: r => do
    blkCheck P e r
    match e with
    | .label _ => .error .valueError
    | .setLineno n => do
      let q ← graphBlock P key c tries r
      return (.setLineno n :: q.1, q.2)
    | .tryBegin t => do
      let k ← c.getBlockIndex t.target
      let q ← graphBlock P key c (setDefault tries t.id) r
      return (.tryBegin ((setDefault tries t.id).idxOf t.id) k t.lasti :: q.1, q.2)
    | .tryEnd id => do
      let x ← graphTryEnd tries id
      let q ← graphBlock P key c tries r
      return (x :: q.1, q.2)
    | .instr i =>
      if P.hasJump i.opcode || isFinal i.name then do
        let x ← graphLast P key c i
        match trailingTryEnd r with
        | none => return ([x], tries)
        | some id => do
          let y ← graphTryEnd tries id
          return ([x, y], tries)
      else do
        let q ← graphBlock P key c tries r
        return (.instr (i.cmpKey P key) :: q.1, q.2)

/-- The outer loop, cfg.py 607 -/
def graphBlocks {κ : Type} (P : Platform) (key : Arg → κ) (c : CFG) (tries : List Nat) : List Nat → Py (List (GraphItem κ))
  | [] => .ok []
  | b :: r => do
    let p ← graphBlock P key c tries (c.heap b).elems
    let q ← graphBlocks P key c p.2 r
    return p.1 ++ q

/-- `_get_instructions()`, cfg.py 601-646 -/
def CFG.getInstructions {κ : Type} (P : Platform) (key : Arg → κ) (c : CFG) : Py (List (GraphItem κ)) := graphBlocks P key c [] c.blocks

/-- `a == b` for two ControlFlowGraph objects that share no block, cfg.py 648-661 and bytecode.py 66-97: the result, and
the two graphs afterwards, since `compute_stacksize()` stores the depths of the handlers. `a` and `b` unchanged when the
comparison ends before. -/
def CFG.eq {κ : Type} [DecidableEq κ] (P : Platform) (key : Arg → κ) (eff : Instr → Bool → Py (Int × Int)) (a b : CFG) :
    Py (Bool × CFG × CFG) := do
  if a.argnames ≠ b.argnames then return (false, a, b)
  let x ← a.getInstructions P key
  let y ← b.getInstructions P key
  if x ≠ y then return (false, a, b)
  if !a.attrs.same b.attrs then return (false, a, b)
  let p ← a.computeStacksize P eff
  let q ← b.computeStacksize P eff
  return (decide (p.1 = q.1), p.2, q.2)

end Verif
