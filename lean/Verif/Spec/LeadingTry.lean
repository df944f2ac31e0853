import Verif.Spec.Tries
/-
An empty try region before the first instruction.
-/
namespace Verif.Spec

/-- The next try marker or instruction is a TryEnd. -/
def endsNow : List BElem → Bool
  | .tryEnd _ :: _ => true
  | .label _ :: r => endsNow r
  | .setLineno _ :: r => endsNow r
  | _ => false

/-- The first region, if it begins and ends before the first instruction. -/
def leadingEmpty : List BElem → Option TryB
  | .tryBegin t :: r => if endsNow r then some t else none
  | .label _ :: r => leadingEmpty r
  | .setLineno _ :: r => leadingEmpty r
  | _ => none

/-- The try markers delimit regions: each TryBegin object occurs once, each TryEnd closes the region just opened, and no
region is left open. Regions may be empty. -/
def Regions (es : List BElem) : Prop := WellTried none [] true es

instance (es : List BElem) : Decidable (Regions es) := by unfold Regions; infer_instance

end Verif.Spec
