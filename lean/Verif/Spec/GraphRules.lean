import Verif.Model.CFG
import Verif.Spec.CFG
import Verif.Spec.CfgCode
/-
Which bytecode can be cut into blocks, and which graphs can be written as bytecode.
-/
namespace Verif.Spec

/-- Every label an instruction or a TryBegin refers to is in the code. -/
structure LabelsExist (b : Bytecode) : Prop where
  args : ∀ i l, BElem.instr i ∈ b.elems → i.arg = .label l → BElem.label l ∈ b.elems
  handlers : ∀ t, BElem.tryBegin t ∈ b.elems → BElem.label t.target ∈ b.elems

/-- The rules the blocks of a graph have to follow. -/
structure GraphRules (P : Platform) (c : CFG) : Prop where
  /-- no Label among the elements -/
  labels : ∀ b ∈ c.blocks, ∀ l, BElem.label l ∉ (c.heap b).elems
  /-- a jump is the last instruction of its block, and goes to a block of the graph -/
  jumps : ∀ b ∈ c.blocks, ∀ a i r, (c.heap b).elems = a ++ BElem.instr i :: r → P.hasJump i.opcode = true →
    instrCount r = 0 ∧ ∃ k ∈ c.blocks, i.arg = .block k
  /-- handlers are blocks of the graph -/
  handlers : ∀ t, BElem.tryBegin t ∈ allCode c → t.target ∈ c.blocks

/-- The try markers of a graph, block after block: a TryBegin object occurs once and outside any other region; a TryEnd (there can be
several for a region) comes after its TryBegin and after some instruction. -/
def OrderedTries (open_ : Option Nat) (seen : List Nat) (any : Bool) : List BElem → Prop
  | [] => True
  | .tryBegin t :: r => open_ = none ∧ t.id ∉ seen ∧ OrderedTries (some t.id) (t.id :: seen) any r
  | .tryEnd id :: r => id ∈ seen ∧ any = true ∧ OrderedTries (if open_ = some id then none else open_) seen any r
  | .instr _ :: r => OrderedTries open_ seen true r
  | _ :: r => OrderedTries open_ seen any r

instance : ∀ (o : Option Nat) (s : List Nat) (a : Bool) (l : List BElem), Decidable (OrderedTries o s a l)
  | _, _, _, [] => by unfold OrderedTries; infer_instance
  | o, s, a, .tryBegin t :: r => by
    unfold OrderedTries
    have := instDecidableOrderedTries (some t.id) (t.id :: s) a r
    infer_instance
  | o, s, a, .tryEnd id :: r => by
    unfold OrderedTries
    have := instDecidableOrderedTries (if o = some id then none else o) s a r
    infer_instance
  | o, s, a, .instr _ :: r => by unfold OrderedTries; exact instDecidableOrderedTries o s true r
  | o, s, a, .label _ :: r => by unfold OrderedTries; exact instDecidableOrderedTries o s a r
  | o, s, a, .setLineno _ :: r => by unfold OrderedTries; exact instDecidableOrderedTries o s a r

end Verif.Spec
