import Verif.Model.Bytecode
/-
When the try markers of a `Bytecode` delimit regions.
-/
namespace Verif.Spec

/-- Each TryBegin object occurs once, each TryEnd closes the region just opened and some instruction comes before it,
and no region is left open. `open_` is the region open so far, `seen` the TryBegin met, `any` whether an instruction
was met. -/
def WellTried (open_ : Option Nat) (seen : List Nat) (any : Bool) : List BElem → Prop
  | [] => open_ = none
  | .tryBegin t :: r => open_ = none ∧ t.id ∉ seen ∧ WellTried (some t.id) (t.id :: seen) any r
  | .tryEnd id :: r => open_ = some id ∧ any = true ∧ WellTried none seen any r
  | .instr _ :: r => WellTried open_ seen true r
  | _ :: r => WellTried open_ seen any r

/-- Every try region holds an instruction; `e`: a region was opened and none was met since. -/
def NoEmptyTry (e : Bool) : List BElem → Prop
  | [] => True
  | .tryBegin _ :: r => NoEmptyTry true r
  | .tryEnd _ :: r => e = false ∧ NoEmptyTry false r
  | .instr _ :: r => NoEmptyTry false r
  | _ :: r => NoEmptyTry e r

instance : ∀ (e : Bool) (l : List BElem), Decidable (NoEmptyTry e l)
  | e, [] => by unfold NoEmptyTry; infer_instance
  | e, .tryBegin t :: r => by unfold NoEmptyTry; exact instDecidableNoEmptyTry true r
  | e, .tryEnd id :: r => by
    unfold NoEmptyTry
    have := instDecidableNoEmptyTry false r
    infer_instance
  | e, .instr _ :: r => by unfold NoEmptyTry; exact instDecidableNoEmptyTry false r
  | e, .label _ :: r => by unfold NoEmptyTry; exact instDecidableNoEmptyTry e r
  | e, .setLineno _ :: r => by unfold NoEmptyTry; exact instDecidableNoEmptyTry e r

instance : ∀ (o : Option Nat) (s : List Nat) (a : Bool) (l : List BElem), Decidable (WellTried o s a l)
  | o, _, _, [] => by unfold WellTried; infer_instance
  | o, s, a, .tryBegin t :: r => by
    unfold WellTried
    have := instDecidableWellTried (some t.id) (t.id :: s) a r
    infer_instance
  | o, s, a, .tryEnd id :: r => by
    unfold WellTried
    have := instDecidableWellTried none s a r
    infer_instance
  | o, s, a, .instr _ :: r => by unfold WellTried; exact instDecidableWellTried o s true r
  | o, s, a, .label _ :: r => by unfold WellTried; exact instDecidableWellTried o s a r
  | o, s, a, .setLineno _ :: r => by unfold WellTried; exact instDecidableWellTried o s a r

end Verif.Spec
