import Verif.Spec.Linear
import Verif.Spec.Program
/-
Executions of a `Bytecode` with exceptions: any protected instruction may raise, and its handler is then started as the table of
handlers says, the number of values on the stack being the recorded depth, the position of the instruction when `lasti` is set,
and the exception.
-/
namespace Verif.Spec

/-- A step; `hs` gives the handler of each instruction, its target being the number of an instruction. -/
inductive LTStep (P : Platform) (eff : Instr → Bool → Py (Int × Int)) (b : Bytecode) (hs : List (Option Handler)) : LConfig → LConfig → Prop
  | plain {x e y} : LExec P eff b x e y → LTStep P eff b hs x y
  | raise {k d h} : k < (instrsB b).length → hs[k]? = some (some h) →
      LTStep P eff b hs ⟨some k, d⟩ ⟨some h.target, (h.depth : Int) + 1 + (if h.lasti then 1 else 0)⟩

/-- The configurations on the execution paths from the first instruction, exceptions included. -/
def LTOnPath (P : Platform) (eff : Instr → Bool → Py (Int × Int)) (b : Bytecode) (hs : List (Option Handler)) (d0 : Int) (x : LConfig) : Prop :=
  Star (LTStep P eff b hs) ⟨some 0, d0⟩ x

end Verif.Spec
