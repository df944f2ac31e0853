import Verif.Proofs.CodeRegions
import Verif.Props.WellFormed
import Verif.Props.Determined
/-
C73: the protected regions, one by one.
-/
namespace Verif
open Spec
section
variable {κ : Type} [DecidableEq κ] {P : Platform} {key : Arg → κ} {eff : Instr → Bool → Py (Int × Int)} {b : Bytecode} {co : Code} {passes : Nat}

/-- **C73 (written).** With the depths given, the code object has one entry in its exception table for each TryBegin/TryEnd pair, in the same order,
and each protects the same operations with the same handler, lasti flag and depth; and the entries are in order, without overlap. -/
theorem C73_written (hP : P.WF) (h11 : P.py311 = true) (hcache : ∀ e ∈ b.elems, e.isCache = false) (hv : ∀ i, .instr i ∈ b.elems → ValidInstr P i)
    (hw : WellTried none [] false b.elems) {n : Int} (h : b.toCode P key eff passes (some n) false = .ok co) :
    regionsCode P co = regionsB P b ∧ (regions co).Pairwise (fun r s => r.start + r.size ≤ s.start) := by
  unfold Bytecode.toCode at h
  simp only [Bool.and_false, Bool.false_eq_true, if_false] at h
  obtain ⟨c, hc, h⟩ := except_bind_ok h
  obtain ⟨T, M, hF⟩ := toConcrete_Final hP hcache hv hc
  exact ⟨emit_regions hP h11 hc hF hw h, emit_sorted hP h11 hF hw h⟩

/-- **C73 (read).** Reading a code object as the compiler writes them, its exception table in order, with
`conserve_exception_block_stackdepth=True`: one TryBegin/TryEnd pair for each entry, in the same order, around the same operations, with the same
handler, lasti flag and depth. -/
theorem C73_read (hP : P.WF) (h11 : P.py311 = true) (hok : CodeOK P co) (hsort : (regions co).Pairwise (fun r s => r.start + r.size ≤ s.start)) :
    ∃ b, Bytecode.fromCode P co true true = .ok b ∧ regionsB P b = regionsCode P co := by
  obtain ⟨b, hb, _⟩ := C51_conserve hP h11 (id : Arg → Arg) hok
  exact ⟨b, hb, fromCode_regions hP h11 hok hsort hb⟩

/-- **C73 (round trip).** Writing and reading back gives the regions back, one by one. -/
theorem C73_back (hP : P.WF) (h11 : P.py311 = true) (hcache : ∀ e ∈ b.elems, e.isCache = false) (hv : ∀ i, .instr i ∈ b.elems → ValidInstr P i)
    (hl : LabelsOnly b) (hw : WellTried none [] false b.elems) (hne : NoEmptyTry false b.elems) (hs : Sound P key b)
    (hok : ∀ i, .instr i ∈ b.elems → OperandOK P co.varnames i) (hapart : P.py313 = true → ∀ n ∈ co.freevars, n ∉ co.varnames) {n : Int}
    (h : b.toCode P key eff passes (some n) false = .ok co) (hstart : StartsPlain P co) :
    ∃ b', Bytecode.fromCode P co true true = .ok b' ∧ regionsB P b' = regionsB P b := by
  obtain ⟨h1, h2⟩ := C73_written hP h11 hcache hv hw h
  obtain ⟨b', h3, h4⟩ := C73_read hP h11 (C66_well_formed hP h11 hcache hv hl hw hne hs hok hapart h hstart) h2
  exact ⟨b', h3, by rw [h4, h1]⟩

end

/-- The example of C48 with its depths: its one region is written and read back. -/
example : (regionsB Py311.platform toCodeExSized).length = 1 ∧ regionsCode Py311.platform toCodeExCode = regionsB Py311.platform toCodeExSized ∧
    ∃ b', Bytecode.fromCode Py311.platform toCodeExCode true true = .ok b' ∧
      regionsB Py311.platform b' = regionsB Py311.platform toCodeExSized := by
  have hc := noCache_spec (es := toCodeExSized.elems) (by decide +kernel)
  have hv := made_valid Py311.wf (es := toCodeExSized.elems) (by decide +kernel)
  have hw : WellTried none [] false toCodeExSized.elems := by decide +kernel
  have hs : Sound Py311.platform (id : Arg → Arg) toCodeExSized := sound_of (by decide +kernel)
  have hp : StartsPlain Py311.platform toCodeExCode := by unfold StartsPlain; decide +kernel
  have : ∀ i, .instr i ∈ toCodeExSized.elems → (∀ v, i.arg = .compare v → v ≤ 5) ∧ Py311.platform.dual i.opcode = false := by
    have h1 : toCodeExSized.elems.all (fun e => match e with
      | .instr i => (match i.arg with | .compare v => decide (v ≤ 5) | _ => true) && !Py311.platform.dual i.opcode
      | _ => true) = true := by decide +kernel
    intro i hi
    have h2 := List.all_eq_true.1 h1 _ hi
    simp only [Bool.and_eq_true, Bool.not_eq_true'] at h2
    refine ⟨fun v hx => ?_, h2.2⟩
    have := h2.1
    rw [hx] at this
    simpa using this
  refine ⟨by decide +kernel, (C73_written Py311.wf (by decide) hc hv hw toCodeExSized_code).1,
    C73_back Py311.wf (by decide) hc hv (labelsOnly_of (by decide +kernel)) hw (by decide +kernel) hs ?_
      (fun h => absurd h (by decide)) toCodeExSized_code hp⟩
  intro i hi
  refine ⟨fun _ v hx => ?_, fun hd => ?_⟩
  · exact .inl ((this i hi).1 v hx)
  · rw [(this i hi).2] at hd; cases hd

end Verif
