import Verif.Proofs.StackReasons
import Verif.Props.LinearSize
import Verif.Props.CfgRules
/-
C61: when the stack analysis succeeds.
-/
namespace Verif
open Spec
section
variable {κ : Type} [DecidableEq κ] {P : Platform} {key : Arg → κ} {eff : Instr → Bool → Py (Int × Int)}

/-- **C61.** On a graph that follows the rules, `compute_stacksize` fails with RuntimeError (an underflow) or, if a path goes from inside
a region to the beginning of another (or some effect pushes a negative number of values), with AssertionError; never otherwise. -/
theorem C61_reasons (heff : ∀ i j, eff i j ≠ .error .outOfFuel) {c : CFG} (hS : Sizeable P eff c) (depths : Bool) {e : PyErr}
    (h : c.computeStacksize P eff depths = .error e) :
    e = .runtimeError ∨ (e = .assertionError ∧ (NestedFlow P c ∨ (¬ PushesPos eff c ∧ ∃ t, BElem.tryBegin t ∈ allCode c))) := by
  have := computeStacksize_reason hS depths
  rw [h] at this
  rcases this with h1 | h1 | h1
  · exact .inl h1
  · subst h1; exact absurd h (C32_terminates P eff heff c depths)
  · exact .inr h1

theorem inside_begin {c : CFG} {t : TryB} {b i : Nat} (h : Inside P c t b i) : ∃ b' i' : Nat, (c.heap b').elems[i']? = some (BElem.tryBegin t) := by
  induction h with
  | start _ h => exact ⟨_, _, h⟩
  | _ => assumption

/-- **C61.** On a graph without handlers that follows the rules, `compute_stacksize` succeeds, or some execution path underflows. -/
theorem C61_no_handlers (hre : ∀ i j, eff i j ≠ .error .runtimeError) (heff : ∀ i j, eff i j ≠ .error .outOfFuel) {c : CFG}
    (hS : Sizeable P eff c) (hno : NoTry c) (depths : Bool) :
    (∃ r, c.computeStacksize P eff depths = .ok r) ∨
      (c.computeStacksize P eff depths = .error .runtimeError ∧ Underflows P eff c (initialSize P c.attrs.flags)) := by
  cases h : c.computeStacksize P eff depths with
  | ok r => exact .inl ⟨r, rfl⟩
  | error e =>
    have hr : e = .runtimeError := by
      rcases C61_reasons heff hS depths h with h1 | ⟨_, h2⟩
      · exact h1
      · exfalso
        rcases h2 with ⟨t, b, i, u, hi, _⟩ | ⟨_, t, ht⟩
        · obtain ⟨b', i', h'⟩ := inside_begin hi
          exact hno b' t (List.mem_of_getElem? h')
        · obtain ⟨b, _, hb⟩ := List.mem_flatMap.1 ht
          exact hno b t hb
    subst hr
    exact .inr ⟨rfl, C31_raises P eff hre c depths hno h⟩

theorem argOK_labels {b : Bytecode} (hl : LabelsOnly b) (hv : ∀ i, BElem.instr i ∈ b.elems → ArgOK P i.opcode i.arg) :
    ∀ i, BElem.instr i ∈ b.elems → P.hasJump i.opcode = true → ∃ l, i.arg = .label l := by
  intro i hi hj
  rcases (hv i hi).jump hj with h | ⟨b, h⟩
  · exact h
  · exact absurd h (hl i hi b)

/-- The effect of an instruction of the graph is the one of an instruction of the Bytecode. -/
theorem from_effect {b : Bytecode} {c : CFG} (hf : TargetFree eff) (hl : LabelsOnly b) (h : fromBytecode P b = .ok c) :
    ∀ i, BElem.instr i ∈ allCode c → ∀ j, ∃ q, BElem.instr q ∈ b.elems ∧ eff i j = eff q j := by
  intro i hi j
  obtain ⟨q, hq, h1, h2, h3, h4⟩ := (from_src hl h).1 i hi
  refine ⟨q, hq, ?_⟩
  rcases h4 with ⟨k, l, hk, hl', _⟩ | ⟨ha, _⟩
  · have e1 : i = { i with arg := .block k } := by cases i; simp only at hk; subst hk; rfl
    have e2 : q = { i with arg := .label l } := by
      cases i; cases q
      simp only at h1 h2 h3 hl'
      subst h1 h2 h3 hl'
      rfl
    rw [e1, e2]
    exact (hf i l k j).symm
  · have : i = q := by
      cases i; cases q
      simp only at h1 h2 h3 ha
      subst h1 h2 h3 ha
      rfl
    rw [this]

theorem noMarks_wellTried {es : List BElem} (h1 : ∀ t, BElem.tryBegin t ∉ es) (h2 : ∀ t, BElem.tryEnd t ∉ es) :
    ∀ {seen : List Nat} {any : Bool}, WellTried none seen any es := by
  induction es with
  | nil => intro seen any; rfl
  | cons x r ih =>
    have ih' := @ih (fun t ht => h1 t (by simp [ht])) (fun t ht => h2 t (by simp [ht]))
    intro seen any
    cases x with
    | tryBegin t => exact absurd (by simp) (h1 t)
    | tryEnd t => exact absurd (by simp) (h2 t)
    | instr t => exact ih'
    | label t => exact ih'
    | setLineno t => exact ih'

theorem noMarks_noEmpty {es : List BElem} (h1 : ∀ t, BElem.tryBegin t ∉ es) (h2 : ∀ t, BElem.tryEnd t ∉ es) :
    ∀ {e : Bool}, NoEmptyTry e es := by
  induction es with
  | nil => intro e; trivial
  | cons x r ih =>
    have ih' := @ih (fun t ht => h1 t (by simp [ht])) (fun t ht => h2 t (by simp [ht]))
    intro e
    cases x with
    | tryBegin t => exact absurd (by simp) (h1 t)
    | tryEnd t => exact absurd (by simp) (h2 t)
    | instr t => exact ih'
    | label t => exact ih'
    | setLineno t => exact ih'

/-- The graph made of a Bytecode is ready for the analysis. -/
theorem from_sizeable {b : Bytecode} {c : CFG} (hf : TargetFree eff) (hl : LabelsOnly b) (hv : ∀ i, BElem.instr i ∈ b.elems → ArgOK P i.opcode i.arg)
    (hw : WellTried none [] false b.elems) (he : ∀ i, BElem.instr i ∈ b.elems → ∀ j, ∃ e, eff i j = .ok e) (h : fromBytecode P b = .ok c) :
    Sizeable P eff c := by
  have hjl := argOK_labels hl hv
  have hit := C27_iterable P b c hl hjl h
  obtain ⟨x1, x2⟩ := from_src hl h
  have heff : ∀ i, BElem.instr i ∈ allCode c → ∀ j, ∃ e, eff i j = .ok e := by
    intro i hi j
    obtain ⟨q, hq, h1⟩ := from_effect hf hl h i hi j
    rw [h1]
    exact he q hq j
  refine ⟨⟨from_noLabelElem h, ?_, ?_⟩, ?_, ?_, fun i hi _ => heff i hi false, fun i hi _ => heff i hi true⟩
  · intro k hk a i r e hj
    have hi : BElem.instr i ∈ allCode c := mem_allCode hk (by rw [e]; simp)
    have hck := blkIter_suffix a (by rw [← e]; exact hit k hk)
    refine ⟨?_, ?_⟩
    · simp only [blkCheck, hj, if_true] at hck
      split at hck
      · cases hck
      · rename_i hn
        unfold instrCount
        rw [List.countP_eq_zero]
        simpa using hn
    · obtain ⟨q, hq, h1, h2, h3, h4⟩ := x1 i hi
      rcases h4 with ⟨k, l, hk, hl', hkb⟩ | ⟨ha, hno⟩
      · exact ⟨k, hkb, hk⟩
      · obtain ⟨l, hl'⟩ := hjl q hq (by rw [← h2]; exact hj)
        exact absurd hl' (hno l)
  · exact fun t ht => (x2 t ht).1
  · intro k hk n hn
    obtain ⟨⟨m, _, hb, hbs⟩, _⟩ := C27 P b c hl h
    rw [hb, List.mem_range] at hk
    rw [(hbs k hk).2.1] at hn
    split at hn
    · rename_i hlt
      cases hn
      rw [hb, List.mem_range]
      exact hlt.1
    · cases hn
  · intro id hid
    obtain ⟨a, r, hab⟩ := List.append_of_mem hid
    have := ((from_tries hw h).1.bef a id r hab).1
    unfold begins at this
    obtain ⟨x, hx, hxx⟩ := List.mem_filterMap.1 this
    cases x with
    | tryBegin t =>
      cases hxx
      exact ⟨t, by rw [hab]; simp [hx], rfl⟩
    | _ => cases hxx

theorem labelsExist_of {b : Bytecode} (hv : ∀ i, BElem.instr i ∈ b.elems → ArgOK P i.opcode i.arg) (ha : Assemblable P (zeroDepths b)) : LabelsExist b := by
  refine ⟨?_, ?_⟩
  · intro i l hi harg
    obtain ⟨l', h1, h2⟩ := ha.jumps i (zero_instr.2 hi) (argOK_jump (hv i hi) (.inl ⟨l, harg⟩))
    rw [harg] at h1
    cases h1
    exact zero_label.1 h2
  · intro t ht
    have hm : BElem.tryBegin { t with depth := some 0 } ∈ (zeroDepths b).elems := List.mem_map.2 ⟨_, ht, rfl⟩
    obtain ⟨x, y, hxy⟩ := List.append_of_mem hm
    exact zero_label.1 (ha.begins x _ y hxy).2.1

/-- The error of the analysis is the one of `to_code`, which fails for no other reason. -/
theorem to_code_error (hP : P.WF) (h11 : P.py311 = true) {b : Bytecode} (hw : WellMade P b) (hl : LabelsOnly b)
    (ht : WellTried none [] false b.elems) (he : NoEmptyTry false b.elems) (ha : Assemblable P (zeroDepths b))
    (hloc : ∀ i l, .instr i ∈ b.elems → i.loc = some l → ¬ Unencodable l) {passes : Nat} (hp : 3 * jumpCount b.elems < passes)
    {stacksize : Option Int} {e : PyErr} (h : b.toCode P key eff passes stacksize true = .error e) :
    ∃ c, fromBytecode P b = .ok c ∧ c.computeStacksize P eff true = .error e := by
  have hv : ∀ i, BElem.instr i ∈ b.elems → ArgOK P i.opcode i.arg := fun i hi => (hw.valid i hi).1.arg_ok
  obtain ⟨c, hc⟩ := (C60_from_iff_labels hl hv ht).2 (labelsExist_of hv ha)
  refine ⟨c, hc, ?_⟩
  cases hr : c.computeStacksize P eff true with
  | ok r =>
    obtain ⟨co, hco⟩ := (C60_default_iff_analysis (key := key) hP h11 eff hw hl ht he hp stacksize).2 ⟨⟨c, r, hc, hr⟩, ha, hloc⟩
    rw [h] at hco; cases hco
  | error e' =>
    unfold Bytecode.toCode Bytecode.sized at h
    simp only [h11, Bool.and_true, if_true, hc, hr, Bind.bind, Except.bind, Except.error.injEq] at h
    rw [h]

/-- **C61.** A Bytecode that follows the rules is refused by `to_code` only for an underflow (RuntimeError) or a try region met inside
another one by following jumps (AssertionError). -/
theorem C61_to_code_reasons (hP : P.WF) (h11 : P.py311 = true) (heff : ∀ i j, eff i j ≠ .error .outOfFuel) (hf : TargetFree eff) {b : Bytecode}
    (hw : WellMade P b) (hl : LabelsOnly b) (ht : WellTried none [] false b.elems) (he : NoEmptyTry false b.elems)
    (ha : Assemblable P (zeroDepths b)) (hloc : ∀ i l, .instr i ∈ b.elems → i.loc = some l → ¬ Unencodable l)
    (hdef : ∀ i, BElem.instr i ∈ b.elems → ∀ j, ∃ e, eff i j = .ok e ∧ 0 ≤ e.2) {passes : Nat} (hp : 3 * jumpCount b.elems < passes)
    {stacksize : Option Int} {e : PyErr} (h : b.toCode P key eff passes stacksize true = .error e) :
    e = .runtimeError ∨ (e = .assertionError ∧ ∃ c, fromBytecode P b = .ok c ∧ NestedFlow P c) := by
  obtain ⟨c, hc, hr⟩ := to_code_error hP h11 hw hl ht he ha hloc hp h
  have hv : ∀ i, BElem.instr i ∈ b.elems → ArgOK P i.opcode i.arg := fun i hi => (hw.valid i hi).1.arg_ok
  have hS := from_sizeable hf hl hv ht (fun i hi j => (hdef i hi j).imp fun _ h => h.1) hc
  rcases C61_reasons heff hS true hr with h1 | ⟨h1, h2⟩
  · exact .inl h1
  · refine .inr ⟨h1, c, hc, ?_⟩
    rcases h2 with h2 | ⟨h2, _⟩
    · exact h2
    · exfalso
      refine h2 fun i j e hi hij => ?_
      obtain ⟨q, hq, heq⟩ := from_effect hf hl hc i hi j
      obtain ⟨e', h3, h4⟩ := hdef q hq j
      rw [heq, h3] at hij
      cases hij
      exact h4

/-- **C61.** A Bytecode without handlers that follows the rules, and none of whose executions pops from an empty stack, is always
compiled by `to_code`. -/
theorem C61_to_code_total (hP : P.WF) (h11 : P.py311 = true) (hre : ∀ i j, eff i j ≠ .error .runtimeError)
    (heff : ∀ i j, eff i j ≠ .error .outOfFuel) (hf : TargetFree eff) {b : Bytecode} (hw : WellMade P b) (hl : LabelsOnly b)
    (hno : ∀ t, BElem.tryBegin t ∉ b.elems) (ha : Assemblable P b)
    (hloc : ∀ i l, .instr i ∈ b.elems → i.loc = some l → ¬ Unencodable l) (hdef : ∀ i, BElem.instr i ∈ b.elems → ∀ j, ∃ e, eff i j = .ok e)
    (hflow : ¬ LUnderflows P eff b (initialSize P b.attrs.flags)) {passes : Nat} (hp : 3 * jumpCount b.elems < passes)
    (stacksize : Option Int) : ∃ co, b.toCode P key eff passes stacksize true = .ok co := by
  have hno' : ∀ t, BElem.tryEnd t ∉ b.elems := by
    intro id hid
    obtain ⟨x, y, hxy⟩ := List.append_of_mem hid
    obtain ⟨t, h1, _⟩ := ha.ends x id y hxy
    exact hno t (by rw [hxy]; simp [h1])
  have hz : zeroDepths b = b := by
    unfold zeroDepths
    have : b.elems.map zeroDepth = b.elems := by
      conv_rhs => rw [← List.map_id b.elems]
      refine List.map_congr_left fun x hx => ?_
      cases x with
      | tryBegin t => exact absurd hx (hno t)
      | _ => rfl
    rw [this]
  have ht : WellTried none [] false b.elems := noMarks_wellTried hno hno'
  have he : NoEmptyTry false b.elems := noMarks_noEmpty hno hno'
  have hv : ∀ i, BElem.instr i ∈ b.elems → ArgOK P i.opcode i.arg := fun i hi => (hw.valid i hi).1.arg_ok
  cases h : b.toCode P key eff passes stacksize true with
  | ok co => exact ⟨co, rfl⟩
  | error e =>
    exfalso
    obtain ⟨c, hc, hr⟩ := to_code_error hP h11 hw hl ht he (by rw [hz]; exact ha) hloc hp h
    have hS := from_sizeable hf hl hv ht hdef hc
    rcases C61_no_handlers hre heff hS (from_noTry hno hc) true with ⟨r, h1⟩ | ⟨_, h1⟩
    · rw [hr] at h1; cases h1
    · obtain ⟨m, B⟩ := bridge_of hl hc
      have hat : c.attrs = b.attrs := (C26_from P b c hl hc).2.1
      rw [hat, ← underflows_iff hf B] at h1
      exact hflow h1

end
end Verif
