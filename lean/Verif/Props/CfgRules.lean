import Verif.Proofs.GraphRules
import Verif.Props.ToCodeTotal
/-
C60: when the conversions between Bytecode and ControlFlowGraph succeed.
-/
namespace Verif
open Spec
section
variable {κ : Type} [DecidableEq κ] {P : Platform} {key : Arg → κ} {b : Bytecode}

theorem refs_of (hl : LabelsOnly b) (hv : ∀ i, BElem.instr i ∈ b.elems → ArgOK P i.opcode i.arg) (he : LabelsExist b) : Refs P b.elems := by
  refine ⟨?_, ?_⟩
  · intro e hm l hr
    cases e with
    | instr i =>
      simp only [refLabel] at hr
      split at hr
      · rename_i l' ha
        cases hr
        exact he.args i _ hm ha
      · cases hr
    | tryBegin t => cases hr; exact he.handlers t hm
    | _ => cases hr
  · intro i hi hj
    rcases (hv i hi).jump hj with h | ⟨k, h⟩
    · exact h
    · exact absurd h (hl i hi k)

/-- **C60.** `from_bytecode` succeeds exactly when the labels referred to are in the code (given instructions with documented arguments
and well delimited regions). -/
theorem C60_from_iff_labels (hl : LabelsOnly b) (hv : ∀ i, BElem.instr i ∈ b.elems → ArgOK P i.opcode i.arg)
    (hw : WellTried none [] false b.elems) : (∃ c, fromBytecode P b = .ok c) ↔ LabelsExist b := by
  constructor
  · rintro ⟨c, h⟩
    exact ⟨fun i l hi ha => from_refs h _ hi l (by simp [refLabel, ha]), fun t ht => from_refs h _ ht _ rfl⟩
  · intro he
    exact from_total hw (refs_of hl hv he)

/-- **C60.** `to_bytecode` succeeds exactly when the blocks follow the rules (given instructions with documented arguments, regions in
order and depths either all set or all unset). -/
theorem C60_to_iff_rules {c : CFG} (hv : ∀ i, BElem.instr i ∈ allCode c → ArgOK P i.opcode i.arg) (ho : OrderedTries none [] false (allCode c))
    (hd : (∀ t, BElem.tryBegin t ∈ allCode c → t.depth ≠ none) ∨ ∀ t, BElem.tryBegin t ∈ allCode c → t.depth = none) :
    (∃ bc, c.toBytecode P = .ok bc) ↔ GraphRules P c := by
  constructor
  · rintro ⟨bc, h⟩
    exact to_rules (ordered_of ho) h
  · refine rules_to hv (ordered_of ho) (fun t u ht hu h0 => ?_)
    rcases hd with hd | hd
    · exact absurd h0 (hd t ht)
    · exact hd u hu

/-- **C60.** A Bytecode without depths goes to a graph and back. -/
theorem C60_round_trip (hl : LabelsOnly b) (hv : ∀ i, BElem.instr i ∈ b.elems → ArgOK P i.opcode i.arg)
    (hw : WellTried none [] false b.elems) (he : LabelsExist b) (hd : ∀ t, BElem.tryBegin t ∈ b.elems → t.depth = none) :
    ∃ c b', fromBytecode P b = .ok c ∧ c.toBytecode P = .ok b' := by
  obtain ⟨c, hc⟩ := (C60_from_iff_labels hl hv hw).2 he
  obtain ⟨b', hb'⟩ := from_to_total hl hv hw hc (.refl c) (fun t u _ hu _ => by
    obtain ⟨_, v, hv, h⟩ := (from_src hl hc).2 u hu
    rcases h with h | h
    · exact h
    · rw [h]; exact hd v hv)
  exact ⟨c, b', hc, hb'⟩

/-- **C60.** A Bytecode goes to a graph and back with its handler depths computed iff the labels exist and the analysis of the graph
succeeds. -/
theorem C60_sized_iff (eff : Instr → Bool → Py (Int × Int)) (hl : LabelsOnly b) (hv : ∀ i, BElem.instr i ∈ b.elems → ArgOK P i.opcode i.arg)
    (hw : WellTried none [] false b.elems) :
    (∃ r, b.sized P eff true = .ok r) ↔ ∃ c r, fromBytecode P b = .ok c ∧ c.computeStacksize P eff true = .ok r := by
  constructor
  · rintro ⟨⟨n, b'⟩, h⟩
    obtain ⟨_, _, _, _, _, _, g, g', hg, hg', _⟩ := sized_spec hl hw h
    exact ⟨g, _, hg, hg'⟩
  · rintro ⟨c, ⟨n, c'⟩, hc, hr⟩
    obtain ⟨b', hb'⟩ := from_to_total hl hv hw hc (computeStacksize_only hr) (fun t u ht _ h0 =>
      absurd h0 (computeStacksize_depths (from_noTryAfter hc) hr t ht))
    unfold Bytecode.sized
    exact bind_total hc (bind_total hr (bind_total hb' ⟨_, rfl⟩))

/-- **C60.** `to_code` with the default options on 3.11+, in terms of the analysis of the graph alone. -/
theorem C60_default_iff_analysis (hP : P.WF) (h11 : P.py311 = true) (eff : Instr → Bool → Py (Int × Int)) (hw : WellMade P b) (hl : LabelsOnly b)
    (ht : WellTried none [] false b.elems) (he : NoEmptyTry false b.elems) {passes : Nat} (hp : 3 * jumpCount b.elems < passes)
    (stacksize : Option Int) :
    (∃ co, b.toCode P key eff passes stacksize true = .ok co) ↔
      (∃ c r, fromBytecode P b = .ok c ∧ c.computeStacksize P eff true = .ok r) ∧ Assemblable P (zeroDepths b) ∧
      (∀ i l, .instr i ∈ b.elems → i.loc = some l → ¬ Unencodable l) := by
  rw [C59_default_iff_rules hP h11 eff hw hl ht he hp stacksize,
    C60_sized_iff eff hl (fun i hi => (hw.valid i hi).1.arg_ok) ht]

/-- **C60**, before 3.11: `to_code` succeeds iff the analysis of the graph does and the rules are followed. -/
theorem C60_default_before_311 (hP : P.WF) (h11 : P.py311 = false) (eff : Instr → Bool → Py (Int × Int)) (hw : WellMade P b) (hl : LabelsOnly b)
    (ht : WellTried none [] false b.elems) (he : NoEmptyTry false b.elems) {passes : Nat} (hp : 3 * jumpCount b.elems < passes) :
    (∃ co, b.toCode P key eff passes none true = .ok co) ↔
      (∃ c r, fromBytecode P b = .ok c ∧ c.computeStacksize P eff true = .ok r) ∧ Assemblable P (zeroDepths b) := by
  rw [C59_default_before_311 hP h11 eff hw hl ht he hp, C60_sized_iff eff hl (fun i hi => (hw.valid i hi).1.arg_ok) ht]

end

/-! ### Examples -/

/-- A region with a depth cut by a jump, then another region with the same handler. -/
def cutEx : Bytecode where
  attrs := Attrs.default
  argnames := []
  elems := [i311 "RESUME" (.int 0), .tryBegin ⟨5, 2, false, some 1⟩, i311 "NOP", i311 "JUMP_FORWARD" (.label 3), i311 "NOP", .label 3, i311 "NOP", .tryEnd 5,
    .tryBegin ⟨6, 2, false, some 1⟩, i311 "NOP", .tryEnd 6, i311 "LOAD_CONST" (.int 0), i311 "RETURN_VALUE", .label 2, i311 "RERAISE" (.int 0)]

/-- The round trip needs the depths to be unset: this one, with depths, raises AssertionError; so the theorem about the round trip
cannot do without its last hypothesis. -/
theorem C60_depths_refused : made Py311.platform cutEx.elems = true ∧ LabelsOnly cutEx ∧ WellTried none [] false cutEx.elems ∧
    (fromBytecode Py311.platform cutEx).isOk = true ∧
    (fromBytecode Py311.platform cutEx >>= fun c => c.toBytecode Py311.platform) = .error .assertionError := by
  refine ⟨by decide +kernel, labelsOnly_of (by decide +kernel), by decide +kernel, by decide +kernel, by decide +kernel⟩

/-- The loop with a region cut by a jump of C26: the hypotheses hold, so it goes to a graph and back. -/
example : ∃ c b', fromBytecode Py311.platform cfgEx = .ok c ∧ c.toBytecode Py311.platform = .ok b' := by
  refine C60_round_trip (labelsOnly_of (by decide +kernel)) (fun i hi => (made_valid Py311.wf (by decide +kernel) i hi).arg_ok) (by decide +kernel) ⟨?_, ?_⟩ ?_
  · intro i l hi ha
    have : cfgEx.elems.all (fun | .instr i => (match i.arg with | .label l => decide (BElem.label l ∈ cfgEx.elems) | _ => true) | _ => true) = true := by
      decide +kernel
    have := List.all_eq_true.1 this _ hi
    simp only [ha] at this
    exact of_decide_eq_true this
  · intro t ht
    have : cfgEx.elems.all (fun | .tryBegin t => decide (BElem.label t.target ∈ cfgEx.elems) | _ => true) = true := by decide +kernel
    exact of_decide_eq_true (List.all_eq_true.1 this _ ht)
  · intro t ht
    have : cfgEx.elems.all (fun | .tryBegin t => decide (t.depth = none) | _ => true) = true := by decide +kernel
    exact of_decide_eq_true (List.all_eq_true.1 this _ ht)

/-- A jump to a label that is nowhere. -/
example : made Py311.platform [i311 "JUMP_FORWARD" (.label 1)] = true ∧
    ¬ ∃ c, fromBytecode Py311.platform ⟨Attrs.default, [], [i311 "JUMP_FORWARD" (.label 1)]⟩ = .ok c := by
  refine ⟨by decide +kernel, fun h => ?_⟩
  have hl : LabelsOnly ⟨Attrs.default, [], [i311 "JUMP_FORWARD" (.label 1)]⟩ := labelsOnly_of (by decide +kernel)
  have := (C60_from_iff_labels hl (fun i hi => (made_valid Py311.wf (by decide +kernel) i hi).arg_ok) (by decide +kernel)).1 h
  have hm := this.args _ 1 (List.mem_cons_self ..) rfl
  simp [i311, ins] at hm

/-- A graph of three blocks with a region ended twice, and a handler. -/
def ruleEx : CFG := mkCFG [⟨[.tryBegin ⟨0, 2, true, none⟩, i311 "LOAD_CONST" (.int 0), i311 "POP_JUMP_FORWARD_IF_TRUE" (.block 2), .tryEnd 0], some 1⟩,
  ⟨[.tryEnd 0, i311 "LOAD_CONST" (.int 0), i311 "RETURN_VALUE"], none⟩, ⟨[.tryEnd 0, i311 "RERAISE" (.int 0)], none⟩]

/-- It meets the hypotheses and is written, so its blocks follow the rules. -/
example : (∀ i, BElem.instr i ∈ allCode ruleEx → ArgOK Py311.platform i.opcode i.arg) ∧ OrderedTries none [] false (allCode ruleEx) ∧
    GraphRules Py311.platform ruleEx := by
  have hv : ∀ i, BElem.instr i ∈ allCode ruleEx → ArgOK Py311.platform i.opcode i.arg := fun i hi => (made_valid Py311.wf (by decide +kernel) i hi).arg_ok
  have ho : OrderedTries none [] false (allCode ruleEx) := by decide +kernel
  refine ⟨hv, ho, (C60_to_iff_rules hv ho (.inr ?_)).1 ?_⟩
  · intro t ht
    have : (allCode ruleEx).all (fun | .tryBegin t => decide (t.depth = none) | _ => true) = true := by decide +kernel
    exact of_decide_eq_true (List.all_eq_true.1 this _ ht)
  · have hok : (ruleEx.toBytecode Py311.platform).isOk = true := by decide +kernel
    cases h : ruleEx.toBytecode Py311.platform with
    | error e => rw [h] at hok; simp [Except.isOk, Except.toBool] at hok
    | ok c => exact ⟨c, rfl⟩

/-- The program of C59: its analysis succeeds, as it is written. -/
example : ∃ c r, fromBytecode Py311.platform toCodeEx = .ok c ∧ c.computeStacksize Py311.platform eff311 true = .ok r :=
  ((C60_default_iff_analysis (key := (id : Arg → Arg)) Py311.wf (by decide) eff311 (wellMade_spec Py311.wf (b := toCodeEx) (by decide +kernel))
    (labelsOnly_of (by decide +kernel)) (by decide +kernel) (by decide +kernel) (passes := 10) (by decide +kernel) none).1 ⟨_, toCodeEx_code⟩).1

end Verif
