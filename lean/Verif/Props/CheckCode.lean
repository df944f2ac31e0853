import Verif.Props.CheckOption
import Verif.Model.Code
import Verif.Props.ConvertEx
import Verif.Props.CfgConv
/-
C86 for `to_code`.
-/
namespace Verif
open Spec

variable {κ : Type} [DecidableEq κ] {P : Platform} {key : Arg → κ} {s : Bool}

theorem sized_agree {b : Bytecode} (hl : LabelsOnly b) (depths : Bool)
    (hs : ∀ i, .instr i ∈ b.elems → ∀ j, SameSum s (effOf P true i j) (effOf P false i j)) :
    Agree s (b.sized P (effOf P true) depths) (b.sized P (effOf P false) depths) := by
  cases hg : fromBytecode P b with
  | error e =>
    have h : ∀ eff, b.sized P eff depths = .error e := by
      intro eff
      unfold Bytecode.sized
      rw [hg]
      rfl
    rw [h, h]
    exact .refl _
  | ok g =>
    have h : ∀ eff, b.sized P eff depths = g.computeStacksize P eff depths >>= fun r => r.2.toBytecode P >>= fun b => .ok (r.1, b) := by
      intro eff
      unfold Bytecode.sized
      rw [hg]
      rfl
    rw [h, h]
    exact Agree.bind (computeStacksize_agree (P := P) (s := s) (sameSum_from hl hg hs) depths) (fun a => .refl _)

theorem toCode_agree {b : Bytecode} (hl : LabelsOnly b) (passes : Nat) (stacksize : Option Int) (depths : Bool)
    (hs : ∀ i, .instr i ∈ b.elems → ∀ j, SameSum s (effOf P true i j) (effOf P false i j)) :
    Agree s (b.toCode P key (effOf P true) passes stacksize depths) (b.toCode P key (effOf P false) passes stacksize depths) := by
  unfold Bytecode.toCode
  split
  · exact Agree.bind (sized_agree hl _ hs) (fun a => .refl _)
  · cases stacksize with
    | some n => exact .refl _
    | none => exact Agree.bind (sized_agree hl _ hs) (fun a => .refl _)

/-- **C86 (`to_code`).** With `check_pre_and_post` on or off `to_code` writes the same code object, when it writes one both
ways; the two ways differ only by a RuntimeError (3.11, 3.12). -/
theorem C86_to_code (hP : P ∈ [Py311.platform, Py312.platform]) {b : Bytecode} (hl : LabelsOnly b)
    (hv : ∀ i, .instr i ∈ b.elems → ValidInstr P i) (passes : Nat) (stacksize : Option Int) (depths : Bool) :
    b.toCode P key (effOf P true) passes stacksize depths = b.toCode P key (effOf P false) passes stacksize depths ∨
    b.toCode P key (effOf P true) passes stacksize depths = .error .runtimeError ∨
    b.toCode P key (effOf P false) passes stacksize depths = .error .runtimeError := by
  rcases toCode_agree (key := key) hl passes stacksize depths (fun i hi j => sameSum_311_312 hP (hv i hi) j) with e | e | ⟨-, e⟩
  · exact .inl e
  · exact .inr (.inl e)
  · exact .inr (.inr e)

/-- **C86 (`to_code`, the check is stricter, 3.11).** What `to_code` writes with the check it writes without. -/
theorem C86_to_code_stricter {b : Bytecode} (hl : LabelsOnly b) (hv : ∀ i, .instr i ∈ b.elems → ValidInstr Py311.platform i)
    (ha : ∀ i, .instr i ∈ b.elems → ¬ AddsToNothing i) {passes : Nat} {stacksize : Option Int} {depths : Bool} {co : Code}
    (h : b.toCode Py311.platform key (effOf Py311.platform true) passes stacksize depths = .ok co) :
    b.toCode Py311.platform key (effOf Py311.platform false) passes stacksize depths = .ok co :=
  Agree.ok (toCode_agree hl passes stacksize depths (fun i hi j => sameSum_311 (hv i hi) (ha i hi) j)) h

/-- A conditional jump over a call of `len`. -/
def branch311 : Bytecode where
  attrs := Attrs.default
  argnames := []
  elems := [i311 "RESUME" (.int 0), i311 "LOAD_NAME" (.str "x"), i311 "COPY" (.int 1), i311 "POP_JUMP_FORWARD_IF_FALSE" (.label 1),
    i311 "GET_LEN", i311 "SWAP" (.int 2), i311 "POP_TOP", .label 1, i311 "RETURN_VALUE"]

/-- The hypotheses hold for it. -/
example : LabelsOnly branch311 ∧ (∀ i, .instr i ∈ branch311.elems → ValidInstr Py311.platform i) ∧
    (∀ i, .instr i ∈ branch311.elems → ¬ AddsToNothing i) ∧
    (branch311.toCode Py311.platform (id : Arg → Arg) (effOf Py311.platform true)).toOption.map Code.stacksize = some 2 := by
  refine ⟨labelsOnly_of (by decide +kernel), fun i hi => made_valid Py311.wf (by decide +kernel) i hi, ?_, by decide +kernel⟩
  have h : branch311.elems.all (fun | .instr i => decide (¬ AddsToNothing i) | _ => true) = true := by decide +kernel
  intro i hi
  simpa using List.all_eq_true.1 h _ hi

end Verif
