import Verif.Spec.Program
/-
Programs without the stack depths of their handlers.
-/
namespace Verif.Spec
variable {κ : Type}

/-- The operation, its handler given the depth 0. -/
def Op.noDepth (o : Op κ) : Op κ := { o with handler := o.handler.map (fun h => { h with depth := 0 }) }

/-- The operation with its location as a code object keeps it, given by `f`. -/
def Op.mapLoc (f : Loc → Loc) (o : Op κ) : Op κ := { o with loc := f o.loc }

/-- A `TryBegin` given the depth 0. -/
def zeroDepth : BElem → BElem
  | .tryBegin t => .tryBegin { t with depth := some 0 }
  | e => e

/-- A `Bytecode` with all the depths set to 0. -/
def zeroDepths (b : Bytecode) : Bytecode :=
  { b with elems := b.elems.map zeroDepth }

end Verif.Spec
