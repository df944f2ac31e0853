import Verif.Spec.Program
import Verif.Spec.CfgCode
/-
The program denoted by a graph: the operations of its blocks one block after the other, jumps and handlers to blocks being to
the first operation at or after the beginning of the block. Nothing here uses the conversions.
-/
namespace Verif.Spec
variable {κ : Type}

/-- Number of operations before (the first occurrence of) a block. -/
def blockPos (P : Platform) (heap : Nat → Blk) (b : Nat) : List Nat → Option Nat
  | [] => none
  | k :: r => if k = b then some 0 else (blockPos P heap b r).map (opNumber P (heap k).elems + ·)

/-- The operand of an instruction of a graph: jumps have a block as argument. -/
def operandG (P : Platform) (key : Arg → κ) (tgt : Nat → Option Nat) (op : Nat) (arg : Arg) : Operand κ :=
  if P.hasJump op then
    match arg with
    | .block b => jumpOr (tgt b)
    | _ => .invalid
  else operandB P key (fun _ => none) op arg

/-- The operations of an instruction of a graph. -/
def expandG (P : Platform) (key : Arg → κ) (tgt : Nat → Option Nat) (i : Instr) : List (String × Operand κ) :=
  if i.name = "CACHE" then []
  else match P.dualSingles i.opcode with
    | some (n1, n2) =>
      match i.arg with
      | .tuple [x, y] => [(n1, slotOf x), (n2, slotOf y)]
      | _ => [(n1, .invalid), (n2, .invalid)]
    | none => [(i.name, operandG P key tgt i.opcode i.arg)]

/-- The operations of a list of elements of a graph, in order; `loc` is the current location, `tr` the open try region. A TryEnd
closes its own region only: the end of a region is written in each block where control can leave it. -/
def opsG (P : Platform) (key : Arg → κ) (tgt : Nat → Option Nat) (loc : Loc) (tr : Option TryB) :
    List BElem → List (Op κ)
  | [] => []
  | .label _ :: r => opsG P key tgt loc tr r
  | .setLineno n :: r => opsG P key tgt (Loc.line (some n)) tr r
  | .tryBegin t :: r => opsG P key tgt loc (some t) r
  | .tryEnd id :: r => opsG P key tgt loc (if tr.map (·.id) = some id then none else tr) r
  | .instr i :: r =>
    (expandG P key tgt i).map (fun p => ⟨p.1, p.2, i.loc.getD loc, tr.bind (handlerB tgt)⟩) ++
      opsG P key tgt (i.loc.getD loc) tr r

/-- The program denoted by a graph. -/
def programG (P : Platform) (key : Arg → κ) (c : CFG) : List (Op κ) :=
  opsG P key (fun b => blockPos P c.heap b c.blocks) (Loc.line (some c.attrs.firstLineno)) none (allCode c)

/-- The graph with all the depths of handlers set to 0. -/
def zeroDepthsG (c : CFG) : CFG :=
  { c with heap := fun b => { c.heap b with
      elems := (c.heap b).elems.map (fun | .tryBegin t => .tryBegin { t with depth := some 0 } | e => e) } }

/-- The try markers of a graph, block after block, delimit regions: each TryBegin object occurs once and outside other
regions, a TryEnd comes after its TryBegin and after some instruction, and no region is left open. A TryEnd may be met again after
its region is over. `open_` is the region open so far, `seen` the TryBegin met, `any` whether an instruction was met. -/
def WellTriedG (open_ : Option Nat) (seen : List Nat) (any : Bool) : List BElem → Prop
  | [] => open_ = none
  | .tryBegin t :: r => open_ = none ∧ t.id ∉ seen ∧ WellTriedG (some t.id) (t.id :: seen) any r
  | .tryEnd id :: r => any = true ∧ id ∈ seen ∧ WellTriedG (if open_ = some id then none else open_) seen any r
  | .instr _ :: r => WellTriedG open_ seen true r
  | _ :: r => WellTriedG open_ seen any r

instance : ∀ (o : Option Nat) (s : List Nat) (a : Bool) (l : List BElem), Decidable (WellTriedG o s a l)
  | o, _, _, [] => by unfold WellTriedG; infer_instance
  | o, s, a, .tryBegin t :: r => by
    unfold WellTriedG
    have := instDecidableWellTriedG (some t.id) (t.id :: s) a r
    infer_instance
  | o, s, a, .tryEnd id :: r => by
    unfold WellTriedG
    have := instDecidableWellTriedG (if o = some id then none else o) s a r
    infer_instance
  | o, s, a, .instr _ :: r => by unfold WellTriedG; exact instDecidableWellTriedG o s true r
  | o, s, a, .label _ :: r => by unfold WellTriedG; exact instDecidableWellTriedG o s a r
  | o, s, a, .setLineno _ :: r => by unfold WellTriedG; exact instDecidableWellTriedG o s a r

end Verif.Spec
