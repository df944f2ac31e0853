import Verif.Props.ToCodeTotal
/-
Examples for C59.
-/
namespace Verif
open Spec

/-- A program with a loop, a handler, variables and a docstring: the hypotheses of C59 hold, and so does its right-hand side. -/
example : Assemblable Py311.platform (zeroDepths toCodeEx) ∧ ∀ i l, .instr i ∈ toCodeEx.elems → i.loc = some l → ¬ Unencodable l :=
  ((C59_default_iff_rules (key := (id : Arg → Arg)) Py311.wf (by decide) eff311 (wellMade_spec Py311.wf (b := toCodeEx) (by decide +kernel))
    (labelsOnly_of (by decide +kernel)) (by decide +kernel) (by decide +kernel) (passes := 10) (by decide +kernel) none).1 ⟨_, toCodeEx_code⟩).2

/-- The same program with the depths, written without computing anything. -/
example : ∃ co, toCodeExSized.toCode Py311.platform (id : Arg → Arg) eff311 10 (some 5) false = .ok co := by
  refine (C59_written_iff_rules Py311.wf eff311 (wellMade_spec Py311.wf (b := toCodeExSized) (by decide +kernel))
    (fun _ => ⟨by decide +kernel, by decide +kernel⟩) (passes := 10) (by decide +kernel) (.inr rfl) 5).2 ?_
  have h := toCodeExSized_emit
  refine (C59_written_iff_rules (key := (id : Arg → Arg)) Py311.wf eff311 (wellMade_spec Py311.wf (b := toCodeExSized) (by decide +kernel))
    (fun _ => ⟨by decide +kernel, by decide +kernel⟩) (passes := 10) (by decide +kernel) (.inr rfl) 5).1 ⟨toCodeExCode, ?_⟩
  unfold Bytecode.toCode
  rw [if_neg (by decide)]
  show (toConcrete Py311.platform (id : Arg → Arg) 10 toCodeExSized >>= fun c => c.emit Py311.platform 5) = _
  cases hc : toConcrete Py311.platform (id : Arg → Arg) 10 toCodeExSized with
  | error e => rw [hc] at h; cases h
  | ok c => rw [hc] at h; exact toOption_ok h

/-- Ten jumps that need an EXTENDED_ARG one after the other: written with 31 passes. -/
example : ∃ co, exChain.toCode Py311.platform (id : Arg → Arg) eff311 31 (some 1) false = .ok co := by
  refine (C59_written_iff_rules Py311.wf eff311 (wellMade_spec Py311.wf exChain_made)
    (fun _ => ⟨by decide +kernel, by decide +kernel⟩) (passes := 31) (by decide +kernel) (.inr rfl) 1).2 ⟨?_, ?_⟩
  · refine (C58_assembled_iff_rules (key := (id : Arg → Arg)) Py311.wf (wellMade_spec Py311.wf exChain_made) (passes := 31) (by decide +kernel)).1 ?_
    have hok := exChain_enough
    cases h : toConcrete Py311.platform (id : Arg → Arg) 31 exChain with
    | error e => rw [h] at hok; simp [Except.isOk, Except.toBool] at hok
    | ok c => exact ⟨c, rfl⟩
  · intro _ i l hi hl
    have : exChain.elems.all (fun e => match e with | .instr i => decide (i.loc = none) | _ => true) = true := by decide +kernel
    have := List.all_eq_true.1 this _ hi
    rw [decide_eq_true_eq] at this
    rw [this] at hl; cases hl

/-- A location over two lines without columns, as `InstrLocation` accepts. -/
def exTwoLines : Bytecode where
  attrs := Attrs.default
  argnames := []
  elems := [ins Py311.platform "LOAD_CONST" (.int 0) (some ⟨some 1, some 2, none, none⟩), ins Py311.platform "RETURN_VALUE"]

/-- It is assembled, and not written: the two conditions of C59 are needed. -/
theorem exTwoLines_refused : Assemblable Py311.platform exTwoLines ∧
    ¬ ∃ co, exTwoLines.toCode Py311.platform (id : Arg → Arg) eff311 10 (some 1) false = .ok co := by
  have hw := wellMade_spec Py311.wf (b := exTwoLines) (by decide +kernel)
  constructor
  · refine (C58_assembled_iff_rules (key := (id : Arg → Arg)) Py311.wf hw (passes := 10) (by decide +kernel)).1 ?_
    have hok : (toConcrete Py311.platform (id : Arg → Arg) 10 exTwoLines).isOk = true := by decide +kernel
    cases h : toConcrete Py311.platform (id : Arg → Arg) 10 exTwoLines with
    | error e => rw [h] at hok; simp [Except.isOk, Except.toBool] at hok
    | ok c => exact ⟨c, rfl⟩
  · intro h
    have := ((C59_written_iff_rules (key := (id : Arg → Arg)) Py311.wf eff311 hw (fun _ => ⟨by decide +kernel, by decide +kernel⟩) (passes := 10)
      (by decide +kernel) (.inr rfl) 1).1 h).2 (by decide) _ ⟨some 1, some 2, none, none⟩ (List.mem_cons_self ..) rfl
    exact this ⟨rfl, 2, rfl, by decide⟩

end Verif
