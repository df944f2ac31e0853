import Verif.Model.CFG
import Verif.Spec.CFG
/-
The code of a bytecode and of a graph, compared instruction by instruction.
-/
namespace Verif.Spec

/-- Instructions and line markers. -/
def _root_.Verif.BElem.isCode : BElem → Bool
  | .instr _ => true
  | .setLineno _ => true
  | _ => false

/-- The code of a list: its instructions and line markers, in order. -/
def codeOf (es : List BElem) : List BElem := es.filter BElem.isCode

/-- Number of instructions. -/
def instrCount (es : List BElem) : Nat := es.countP BElem.isInstr

/-- Number of instructions before the last occurrence of a label. -/
def labelAt (l : Nat) : List BElem → Option Nat
  | [] => none
  | .label l' :: r => (labelAt l r).or (if l' = l then some 0 else none)
  | .instr _ :: r => (labelAt l r).map (· + 1)
  | _ :: r => labelAt l r

/-- Number of instructions before (the first occurrence of) a block of a graph. -/
def blockAt (heap : Nat → Blk) (b : Nat) : List Nat → Option Nat
  | [] => none
  | k :: r => if k = b then some 0 else (blockAt heap b r).map (· + instrCount (heap k).elems)

/-- The instruction an argument refers to. -/
inductive ArgRef where
  | target (n : Nat)
  | lost
  | value (a : Arg)
deriving DecidableEq

/-- What an argument stands for: for a label or a block, the number of the instruction control goes to. -/
def argRef (lab blk : Nat → Option Nat) (a : Arg) : ArgRef :=
  match a with
  | .label l => match lab l with | some n => .target n | none => .lost
  | .block b => match blk b with | some n => .target n | none => .lost
  | a => .value a

/-- An element of the code with the argument replaced by what it stands for. -/
inductive CodeItem where
  | line (n : Nat)
  | op (name : String) (opcode : Nat) (arg : ArgRef) (loc : Option Loc)
deriving DecidableEq

/-- The code with its jumps resolved. -/
def resolved (lab blk : Nat → Option Nat) (es : List BElem) : List CodeItem :=
  es.filterMap (fun
    | .setLineno n => some (.line n)
    | .instr i => some (.op i.name i.opcode (argRef lab blk i.arg) i.loc)
    | _ => none)

/-- The code of a `Bytecode`, jumps resolved to instruction numbers. -/
def codeB (b : Bytecode) : List CodeItem := resolved (fun l => labelAt l b.elems) (fun _ => none) b.elems

/-- The code of a graph, jumps resolved to instruction numbers. -/
def codeG (c : CFG) : List CodeItem := resolved (fun _ => none) (fun b => blockAt c.heap b c.blocks) (allCode c)

/-- Only the last instruction of a block can be a jump or end the execution. -/
def OnlyLastJumps (P : Platform) (es : List BElem) : Prop :=
  ∀ a i b, es = a ++ BElem.instr i :: b → (P.hasJump i.opcode = true ∨ isFinal i.name = true) → instrCount b = 0

/-- For each instruction, in order, the exception handler protecting it: its label and whether lasti is pushed. `cur` is the region
open at the beginning. -/
def guards (cur : Option (Nat × Bool)) : List BElem → List (Option (Nat × Bool))
  | [] => []
  | .instr _ :: r => cur :: guards cur r
  | .tryBegin t :: r => guards (some (t.target, t.lasti)) r
  | .tryEnd _ :: r => guards none r
  | .label _ :: r => guards cur r
  | .setLineno _ :: r => guards cur r

/-- The same in a graph, where the end of a region can be written several times: a TryEnd closes its own region only. -/
def guardsG (cur : Option (Nat × Nat × Bool)) : List BElem → List (Option (Nat × Bool))
  | [] => []
  | .instr _ :: r => cur.map (·.2) :: guardsG cur r
  | .tryBegin t :: r => guardsG (some (t.id, t.target, t.lasti)) r
  | .tryEnd id :: r => guardsG (if cur.map (·.1) = some id then none else cur) r
  | .label _ :: r => guardsG cur r
  | .setLineno _ :: r => guardsG cur r

/-- For each instruction of a graph, block after block, the handler protecting it. -/
def handlersG (c : CFG) : List (Option (Option Nat × Bool)) :=
  (guardsG none (allCode c)).map (Option.map (fun g => (blockAt c.heap g.1 c.blocks, g.2)))

/-- For each instruction of a `Bytecode` the handler protecting it: the number of the instruction control goes to, and whether
lasti is pushed. -/
def handlersOf (b : Bytecode) : List (Option (Option Nat × Bool)) :=
  (guards none b.elems).map (Option.map (fun g => (labelAt g.1 b.elems, g.2)))

end Verif.Spec
