import Verif.Props.DeadRemoval
import Verif.Props.Routes
/-
C85 for `ControlFlowGraph.to_code`.
-/
namespace Verif
open Spec

variable {κ : Type} [DecidableEq κ]

/-- **C85 (`to_code`).** The code objects written before and after the deletion have the same stack size. -/
theorem C85_to_code (P : Platform) {key : Arg → κ} {eff : Instr → Bool → Py (Int × Int)} (heff : ∀ i j, eff i j ≠ .error .outOfFuel)
    {c c' : CFG} {D : List Nat} (hi : IndexOK c) (hc : Closed c) (hD : ∀ d ∈ D, ¬ Entered c d) (hT : OwnTries c D)
    (hdel : Deleted c D c') {depths : Bool} {co co' : Code} (h : c.toCode P key eff none depths = .ok co)
    (h' : c'.toCode P key eff none depths = .ok co') : co'.stacksize = co.stacksize := by
  obtain ⟨g, h1, -⟩ := C77_stacksize_graph h
  obtain ⟨g', h1', -⟩ := C77_stacksize_graph h'
  obtain ⟨g2, h2, -⟩ := C85_size P heff hi hc hD hT hdel h1
  rw [h1'] at h2
  simp only [Except.ok.injEq, Prod.mk.injEq] at h2
  exact h2.1

end Verif
