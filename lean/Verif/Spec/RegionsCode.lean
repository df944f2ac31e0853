import Verif.Spec.Regions
import Verif.Spec.CodeOK
/-
The protected regions of a code object, one for each entry of the exception table, by operation numbers.
-/
namespace Verif.Spec

/-- Number of operations whose opcode is at a unit before `u`. -/
def opsBelow (P : Platform) (fs : List Fetched) (u : Nat) : Nat :=
  ((fs.filter (fun f => f.unit < u)).map (fun f => opCount P (nameOf P f.opcode) f.opcode)).sum

/-- The regions of a code object, in the order of its exception table. -/
def regionsCode (P : Platform) (co : Code) : List TryRegion :=
  (regions co).map (fun r => ⟨opsBelow P (fetched P co) r.start, opsBelow P (fetched P co) (r.start + r.size),
    (opAtUnit P r.target (co.code.length / 2) 0 (fetched P co)).map (fun t => ⟨t, r.depthLasti % 2 == 1, r.depthLasti / 2⟩)⟩)

end Verif.Spec
