import Verif.Spec.HandlerDepths
/-
The depths of the handlers of a graph once consecutive pieces of a region are joined. Two regions of a graph are pieces of one region when they
have the same handler and the same lasti flag and no instruction stands between them. All the instructions of joined pieces have the
same depth: the recorded one for a single piece, otherwise the smaller of the depths of the last two pieces.
-/
namespace Verif.Spec

/-- The smaller of two depths. A depth that is not set counts as 0 but gives no depth, unless the other one is 0. -/
def lower : Option Nat → Option Nat → Option Nat
  | some a, some b => some (min a b)
  | some 0, none => some 0
  | _, _ => none

/-- The depth of joined pieces ending with `t`, the depth of the piece before it being `before`. -/
def depthAt (before : Option (Option Nat)) (t : TryB) : Option Nat :=
  match before with
  | none => t.depth
  | some d => lower d t.depth

/-- Same handler, same flag. -/
def sameHandler (t u : TryB) : Prop := t.target = u.target ∧ t.lasti = u.lasti

instance (t u : TryB) : Decidable (sameHandler t u) := by unfold sameHandler; infer_instance

/-- The depth of the joined pieces to which the piece `t` belongs, read from what follows; `inside` tells whether `t` is still open. -/
def joinedDepth : (before : Option (Option Nat)) → TryB → (inside : Bool) → List BElem → Option Nat
  | before, t, _, [] => depthAt before t
  | before, t, true, .tryEnd id :: r => joinedDepth before t (decide (t.id ≠ id)) r
  | before, t, false, .instr _ :: _ => depthAt before t
  | before, t, false, .tryBegin u :: r => if sameHandler t u then joinedDepth (some t.depth) u true r else depthAt before t
  | before, t, inside, _ :: r => joinedDepth before t inside r

/-- Where a walk through the graph is: outside regions, inside a piece of the given depth, or just after one. -/
inductive Piece
  | out
  | inside (t : TryB) (d : Option Nat)
  | after (t : TryB) (d : Option Nat)

/-- For each instruction the handler protecting it, with the depth of the joined pieces. -/
def guardsJ : Piece → List BElem → List (Option (Nat × Bool × Option Nat))
  | _, [] => []
  | .inside t d, .instr _ :: r => some (t.target, t.lasti, d) :: guardsJ (.inside t d) r
  | _, .instr _ :: r => none :: guardsJ .out r
  | .inside t d, .tryEnd id :: r => guardsJ (if t.id = id then .after t d else .inside t d) r
  | .after t d, .tryBegin u :: r => if sameHandler t u then guardsJ (.inside u d) r else guardsJ (.inside u (joinedDepth none u true r)) r
  | _, .tryBegin u :: r => guardsJ (.inside u (joinedDepth none u true r)) r
  | p, _ :: r => guardsJ p r

/-- For each instruction of a graph, block after block, the handler protecting it, pieces being joined. -/
def handlersJ (c : CFG) : List (Option HandlerAt) :=
  (guardsJ .out (allCode c)).map (Option.map (fun g => (blockAt c.heap g.1 c.blocks, g.2)))

end Verif.Spec
