import Verif.Model.Iter
/- What a container may hold. -/
namespace Verif.Spec

/-- Is a try region open after these elements: is the last try marker a TryBegin? -/
def regionOpen (es : List (Option BElem)) : Prop :=
  ∃ a t b, es = a ++ some (.tryBegin t) :: b ∧ ∀ id, some (.tryEnd id) ∉ b

/-- The element after `pre` may not stand there. -/
def Misplaced (pre : List (Option BElem)) (x : Option BElem) : Prop :=
  x = none ∨ (∃ t, x = some (.tryBegin t)) ∧ regionOpen pre

/-- Content a Bytecode may have. -/
def Iterable (es : List (Option BElem)) : Prop :=
  ∀ pre x post, es = pre ++ x :: post → ¬ Misplaced pre x

/-- The object may not stand there in a basic block, `post` coming after it. -/
def MisplacedBlk (P : Platform) (x : BlkObj) (post : List BlkObj) : Prop :=
  x = .foreign ∨ (∃ t, x = .tryLabel t) ∨ (∃ l, x = .elem (.label l)) ∨
  ∃ i, x = .elem (.instr i) ∧ P.hasJump i.opcode = true ∧ ((∃ j, .elem (.instr j) ∈ post) ∨ ∀ b, i.arg ≠ .block b)

def IterableBlk (P : Platform) (es : List BlkObj) : Prop :=
  ∀ pre x post, es = pre ++ x :: post → ¬ MisplacedBlk P x post

end Verif.Spec
