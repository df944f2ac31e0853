import Verif.Spec.CFG
/-
The blocks that control may enter, and what it means to remove other blocks.
-/
namespace Verif.Spec

/-- A protected region that ends in block `a` may send control to its handler, block `b`. -/
def EndEdge (c : CFG) (a b : Nat) : Prop :=
  ∃ id t, BElem.tryEnd id ∈ (c.heap a).elems ∧ BElem.tryBegin t ∈ allCode c ∧ t.id = id ∧ t.target = b

/-- Control may enter the block: it is reached from the first one through jumps, handlers, ends of protected regions and
fall-through. -/
def Entered (c : CFG) (b : Nat) : Prop :=
  ∃ e, c.blocks.head? = some e ∧ Star (fun x y => JumpEdge c x y ∨ FallEdge c x y ∨ EndEdge c x y) e b

/-- The blocks `D` share no protected region with the other blocks: their `TryBegin` objects are not in another block, nor
the `TryEnd` of one. -/
def OwnTries (c : CFG) (D : List Nat) : Prop :=
  ∀ d ∈ D, ∀ t, BElem.tryBegin t ∈ (c.heap d).elems → ∀ b ∈ c.blocks, b ∉ D →
    BElem.tryEnd t.id ∉ (c.heap b).elems ∧ ∀ u, BElem.tryBegin u ∈ (c.heap b).elems → u.id ≠ t.id

/-- `for block in D: del cfg[block]` runs without exception and leaves the last graph. -/
inductive Deleted : CFG → List Nat → CFG → Prop
  | nil {c : CFG} : Deleted c [] c
  | cons {c c1 c2 : CFG} {d : Nat} {D : List Nat} : c.delBlock d = (c1, .ok ()) → Deleted c1 D c2 → Deleted c (d :: D) c2

end Verif.Spec
