import Verif.Spec.CfgCode
/-
The handlers protecting the instructions, with the number of values on the stack they are started with.
-/
namespace Verif.Spec

/-- For each instruction, in order, the handler protecting it: its label, whether lasti is pushed, the depth recorded. -/
def guardsD (cur : Option (Nat × Bool × Option Nat)) : List BElem → List (Option (Nat × Bool × Option Nat))
  | [] => []
  | .instr _ :: r => cur :: guardsD cur r
  | .tryBegin t :: r => guardsD (some (t.target, t.lasti, t.depth)) r
  | .tryEnd _ :: r => guardsD none r
  | .label _ :: r => guardsD cur r
  | .setLineno _ :: r => guardsD cur r

/-- The same in a graph: a TryEnd closes its own region only. -/
def guardsDG (cur : Option TryB) : List BElem → List (Option (Nat × Bool × Option Nat))
  | [] => []
  | .instr _ :: r => cur.map (fun t => (t.target, t.lasti, t.depth)) :: guardsDG cur r
  | .tryBegin t :: r => guardsDG (some t) r
  | .tryEnd id :: r => guardsDG (if cur.map (·.id) = some id then none else cur) r
  | .label _ :: r => guardsDG cur r
  | .setLineno _ :: r => guardsDG cur r

/-- A handler: the number of the instruction control goes to, whether lasti is pushed, the depth. -/
abbrev HandlerAt := Option Nat × Bool × Option Nat

/-- For each instruction of a `Bytecode`, the handler protecting it. -/
def handlersD (b : Bytecode) : List (Option HandlerAt) :=
  (guardsD none b.elems).map (Option.map (fun g => (labelAt g.1 b.elems, g.2)))

/-- For each instruction of a graph, block after block, the handler protecting it. -/
def handlersDG (c : CFG) : List (Option HandlerAt) :=
  (guardsDG none (allCode c)).map (Option.map (fun g => (blockAt c.heap g.1 c.blocks, g.2)))

/-- All the regions with the same handler record the same depth. -/
def SameDepth (es : List BElem) : Prop :=
  ∀ t u, BElem.tryBegin t ∈ es → BElem.tryBegin u ∈ es → t.target = u.target → t.lasti = u.lasti → t.depth = u.depth

end Verif.Spec
