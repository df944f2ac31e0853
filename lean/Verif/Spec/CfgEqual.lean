import Verif.Spec.Equal
import Verif.Spec.CFG
import Verif.Spec.CfgCode
/-
When are two graphs the same, and which part of a graph does `==` look at?
-/
namespace Verif.Spec

/-- The jump or the instruction that ends the execution: what ends a basic block. -/
def endsBlock (P : Platform) (i : Instr) : Bool := P.hasJump i.opcode || isFinal i.name

/-- The first TryEnd of a list. -/
def firstEnd (es : List BElem) : List BElem :=
  (es.find? (fun e => match e with | .tryEnd _ => true | _ => false)).toList

/-- The part of a block that `==` looks at: up to the first jump or final instruction, and the first TryEnd after it. -/
def shownBlock (P : Platform) : List BElem → List BElem
  | [] => []
  | .instr i :: r => if endsBlock P i then .instr i :: firstEnd r else .instr i :: shownBlock P r
  | e :: r => e :: shownBlock P r

/-- The part of a graph that `==` looks at, the blocks one after the other. -/
def shown (P : Platform) (c : CFG) : List BElem := c.blocks.flatMap (fun b => shownBlock P (c.heap b).elems)

/-- The block is the block number `n` of the graph. -/
def IsBlock (c : CFG) (b n : Nat) : Prop := c.blocks[n]? = some b

/-- The argument is a block. -/
def isBlockArg (x : Arg) : Prop := ∃ l, x = .block l

/-- Two elements of two graphs correspond: same operation, operand and location, jumps and handlers to blocks of the same
number. -/
def CorrespondsG {κ : Type} (P : Platform) (key : Arg → κ) (a b : CFG) : BElem → BElem → Prop
  | .setLineno n, .setLineno m => n = m
  | .instr i, .instr j => i.name = j.name ∧ i.loc = j.loc ∧
      ((∃ l m n, i.arg = .block l ∧ j.arg = .block m ∧ IsBlock a l n ∧ IsBlock b m n) ∨
       (¬ isBlockArg i.arg ∧ ¬ isBlockArg j.arg ∧ EqArg P key i.opcode i.arg j.arg))
  | .tryBegin t, .tryBegin u => t.lasti = u.lasti ∧ ∃ n, IsBlock a t.target n ∧ IsBlock b u.target n
  | .tryEnd _, .tryEnd _ => True
  | _, _ => False

/-- Two lists of elements of two graphs correspond one by one, and their try markers are paired alike. -/
structure SameElems {κ : Type} (P : Platform) (key : Arg → κ) (a b : CFG) (x y : List BElem) : Prop where
  length : x.length = y.length
  elems : ∀ (k : Nat) (u v : BElem), x[k]? = some u → y[k]? = some v → CorrespondsG P key a b u v
  pairing : ∀ (j k s t s' t' : Nat), x[j]?.bind markerOf = some s → x[k]?.bind markerOf = some t →
    y[j]?.bind markerOf = some s' → y[k]?.bind markerOf = some t' → (s = t ↔ s' = t')

/-- A graph that can be compared: its blocks are basic blocks, jumps and handlers stay in the graph, a TryEnd comes after its
TryBegin; the instructions are valid (only jumps refer to blocks). -/
structure ComparableG (P : Platform) (c : CFG) : Prop where
  index : IndexOK c
  few : c.blocks.length ≤ 2147483647
  blocks : ∀ b ∈ c.blocks, blkIter P (c.heap b).elems = .ok ()
  jumps : ∀ i b, .instr i ∈ shown P c → i.arg = .block b → b ∈ c.blocks
  handlers : ∀ t, .tryBegin t ∈ shown P c → t.target ∈ c.blocks
  paired : ∀ x id y, shown P c = x ++ .tryEnd id :: y → ∃ t, .tryBegin t ∈ x ∧ t.id = id
  names : ∀ i, .instr i ∈ shown P c → P.opmap i.name = some i.opcode
  args : ∀ i, .instr i ∈ shown P c → P.hasJump i.opcode = false → ∀ l, i.arg ≠ .label l ∧ i.arg ≠ .block l

/-- Nothing is hidden from `==`: no element after the first jump or final instruction of a block but one TryEnd. -/
def AllShown (P : Platform) (c : CFG) : Prop := ∀ b ∈ c.blocks, shownBlock P (c.heap b).elems = (c.heap b).elems

/-- The blocks of two graphs have the same number of elements. -/
def SameSizes (a b : CFG) : Prop :=
  a.blocks.map (fun x => (a.heap x).elems.length) = b.blocks.map (fun x => (b.heap x).elems.length)

/-- Two items of the code of two graphs (`codeG`) are the same: the same line marker, or the same operation at the same
location, with equal operands or going to the same instruction. -/
def SameItem {κ : Type} (P : Platform) (key : Arg → κ) : CodeItem → CodeItem → Prop
  | .line n, .line m => n = m
  | .op n o (.target x) l, .op n' o' (.target y) l' => n = n' ∧ o = o' ∧ l = l' ∧ x = y
  | .op n o (.value x) l, .op n' o' (.value y) l' => n = n' ∧ o = o' ∧ l = l' ∧ EqArg P key o x y
  | _, _ => False

end Verif.Spec
