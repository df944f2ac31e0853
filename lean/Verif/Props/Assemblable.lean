import Verif.Proofs.AssembleD
import Verif.Props.ConvertEx
/-
C58: exactly the `Bytecode` that follow the rules can be assembled.
-/
namespace Verif
open Spec

section
variable {κ : Type} [DecidableEq κ]
variable {P : Platform} {key : Arg → κ} {b : Bytecode}

/-- **C58.** With enough passes, `to_concrete_bytecode` succeeds on exactly the `Bytecode` that follow the rules. -/
theorem C58_assembled_iff_rules (hP : P.WF) (hw : WellMade P b) {passes : Nat} (hp : 3 * jumpCount b.elems < passes) :
    (∃ c, toConcrete P key passes b = .ok c) ↔ Assemblable P b :=
  ⟨fun ⟨_, h⟩ => toConcrete_rules hP hw h, fun h => toConcrete_total hP key hw h hp⟩

/-- **C58.** Whatever the number of passes: what is assembled follows the rules, and what follows the rules is assembled or
refused with RuntimeError, for lack of passes (then there are at least a third as many jumps). -/
theorem C58_only_passes_fail (hP : P.WF) (hw : WellMade P b) (passes : Nat) :
    ((∃ c, toConcrete P key passes b = .ok c) → Assemblable P b) ∧
    (Assemblable P b → (∃ c, toConcrete P key passes b = .ok c) ∨
      (toConcrete P key passes b = .error .runtimeError ∧ passes ≤ 3 * jumpCount b.elems)) :=
  ⟨fun ⟨_, h⟩ => toConcrete_rules hP hw h, fun h => toConcrete_total' hP key hw h passes⟩

end

/-- A check of `WellMade`. -/
def wellMade (P : Platform) (b : Bytecode) : Bool :=
  made P b.elems && noCache b.elems &&
  b.elems.all (fun e => match e with
    | .instr i => (match i.arg with
      | .compare v => decide (CompareMember P v)
      | .intr1 v => decide (v ≤ 255)
      | .intr2 v => decide (v ≤ 255)
      | _ => true)
    | .tryBegin t => b.elems.all (fun e => match e with
      | .tryBegin t' => !decide (t.id = t'.id) || decide (t = t')
      | _ => true)
    | _ => true) &&
  decide (8 * (b.elems.map (room P)).sum + b.argnames.length + b.attrs.cellvars.length + b.attrs.freevars.length ≤ 2147483647)

theorem wellMade_spec {P : Platform} (hP : P.WF) {b : Bytecode} (h : wellMade P b = true) : WellMade P b := by
  unfold wellMade at h
  simp only [Bool.and_eq_true, decide_eq_true_eq] at h
  obtain ⟨⟨⟨h1, h2⟩, h3⟩, h4⟩ := h
  refine ⟨fun i hi => ⟨made_valid hP h1 i hi, ?_⟩, ?_, ?_, ?_, h4⟩
  · have := noCache_spec h2 _ hi
    simpa [BElem.isCache] using this
  · intro i v hi _ ha
    have := List.all_eq_true.1 h3 _ hi
    simpa [ha] using this
  · intro i v hi _ ha
    have := List.all_eq_true.1 h3 _ hi
    rcases ha with ha | ha <;> simpa [ha] using this
  · intro t t' ht ht' hid
    have := List.all_eq_true.1 (List.all_eq_true.1 h3 _ ht) _ ht'
    simpa [hid] using this

/-- 3.11: a try region, jumps both ways, cell, free, local and global variables, a comparison. -/
example : WellMade Py311.platform ex311 ∧ Assemblable Py311.platform ex311 := by
  have hw := wellMade_spec Py311.wf (b := ex311) (by decide +kernel)
  refine ⟨hw, (C58_assembled_iff_rules (key := (id : Arg → Arg)) Py311.wf hw (passes := 10) (by decide +kernel)).1 ?_⟩
  have hok : (toConcrete Py311.platform (id : Arg → Arg) 10 ex311).isOk = true := by decide +kernel
  cases h : toConcrete Py311.platform (id : Arg → Arg) 10 ex311 with
  | error e => rw [h] at hok; simp [Except.isOk, Except.toBool] at hok
  | ok c => exact ⟨c, rfl⟩

/-- Ten jumps of which the `k`-th from the end needs an EXTENDED_ARG once the `k - 1` after it have one: each pass changes
one jump. -/
def exChain : Bytecode where
  attrs := Attrs.default
  argnames := []
  elems := [10, 9, 8, 7, 6, 5, 4, 3, 2, 1].map (fun k => ins Py311.platform "JUMP_FORWARD" (.label k)) ++
    List.replicate 238 (ins Py311.platform "NOP") ++
    [10, 9, 8, 7, 6, 5, 4, 3, 2, 1].flatMap (fun k => [.label k, ins Py311.platform "NOP", ins Py311.platform "NOP"]) ++
    [ins Py311.platform "LOAD_CONST" (.int 0), ins Py311.platform "RETURN_VALUE"]

theorem exChain_fails : toConcrete Py311.platform (id : Arg → Arg) 10 exChain = .error .runtimeError := by decide +kernel
theorem exChain_enough : (toConcrete Py311.platform (id : Arg → Arg) 31 exChain).isOk = true := by decide +kernel
theorem exChain_made : wellMade Py311.platform exChain = true := by decide +kernel

/-- **C58 fails** for the default of 10 passes: ten jumps over 248 NOPs follow the rules, and are refused. -/
theorem C58_default_passes_statement_false : ∃ b : Bytecode, WellMade Py311.platform b ∧ Assemblable Py311.platform b ∧ jumpCount b.elems = 10 ∧
    toConcrete Py311.platform (id : Arg → Arg) 10 b = .error .runtimeError := by
  have hw := wellMade_spec Py311.wf exChain_made
  refine ⟨exChain, hw, (C58_assembled_iff_rules (key := (id : Arg → Arg)) Py311.wf hw (passes := 31) (by decide +kernel)).1 ?_, by decide +kernel,
    exChain_fails⟩
  have hok := exChain_enough
  cases h : toConcrete Py311.platform (id : Arg → Arg) 31 exChain with
  | error e => rw [h] at hok; simp [Except.isOk, Except.toBool] at hok
  | ok c => exact ⟨c, rfl⟩

end Verif
