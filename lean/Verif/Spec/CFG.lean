import Verif.Model.CFG
/-
Vocabulary for control flow graphs: well-formed graphs, edges, reachability.
-/
namespace Verif.Spec

/-- The block numbers are the positions: what `get_block_index` must say. -/
def IndexOK (c : CFG) : Prop :=
  (∀ (i : Nat) (b : Nat), c.blocks[i]? = some b → c.getBlockIndex b = .ok i) ∧
  (∀ b, b ∉ c.blocks → c.getBlockIndex b = .error .valueError)

/-- No dangling reference: every block mentioned exists. True of any CFG made of Python objects. -/
def Closed (c : CFG) : Prop :=
  (∀ b ∈ c.blocks, b < c.fresh) ∧
  ∀ b, b < c.fresh →
    (∀ i t, BElem.instr i ∈ (c.heap b).elems → i.arg = .block t → t < c.fresh) ∧
    (∀ t, BElem.tryBegin t ∈ (c.heap b).elems → t.target < c.fresh) ∧
    ∀ n, (c.heap b).next = some n → n < c.fresh

/-- Control may go from block `a` to block `b` through an instruction argument or to an exception handler. -/
def JumpEdge (c : CFG) (a b : Nat) : Prop :=
  (∃ i, BElem.instr i ∈ (c.heap a).elems ∧ i.arg = .block b) ∨
  (∃ t, BElem.tryBegin t ∈ (c.heap a).elems ∧ t.target = b)

/-- The last instruction of the block lets control fall through to the next block. -/
def fallsThrough (es : List BElem) : Bool :=
  match lastInstr es with
  | some i => !isFinal i.name
  | none => true

/-- Control may fall from `a` to `b`. -/
def FallEdge (c : CFG) (a b : Nat) : Prop := (c.heap a).next = some b ∧ fallsThrough (c.heap a).elems = true

/-- Reflexive transitive closure. -/
inductive Star {α : Type} (R : α → α → Prop) : α → α → Prop
  | refl (a) : Star R a a
  | tail {a b c} : Star R a b → R b c → Star R a c

/-- Reachable from the first block through jumps, exception handlers and fall-through. -/
def Reachable (c : CFG) (b : Nat) : Prop :=
  ∃ e, c.blocks.head? = some e ∧ Star (fun x y => JumpEdge c x y ∨ FallEdge c x y) e b

/-- Reachable through jumps and exception handlers only. -/
def JumpReachable (c : CFG) (b : Nat) : Prop :=
  ∃ e, c.blocks.head? = some e ∧ Star (JumpEdge c) e b

/-- All the code of the graph, in block order. -/
def allCode (c : CFG) : List BElem := c.blocks.flatMap (fun b => (c.heap b).elems)

end Verif.Spec
