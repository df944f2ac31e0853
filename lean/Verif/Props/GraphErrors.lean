import Verif.Proofs.CfgToErrors
import Verif.Props.CfgRules
import Verif.Props.Errors
/-
**C78.** What an exception of the conversions between Bytecode and ControlFlowGraph says.
-/
namespace Verif
open Spec
section
variable {P : Platform} {b : Bytecode} {c : CFG} {e : PyErr}

/-- **C78.** Whatever `from_bytecode` raises, the Bytecode has one of the mistakes that exception stands for. -/
theorem C78_from_says (hv : ∀ i, .instr i ∈ b.elems → ArgOK P i.opcode i.arg) (h : fromBytecode P b = .error e) : WrongFlow P b e := from_err hv h

/-- No other exception is raised; TypeError and AssertionError about a jump need a jump to a BasicBlock in a Bytecode, so with Labels only RuntimeError,
KeyError, and AssertionError for a TryEnd outside of any region. -/
theorem C78_from_classes (hv : ∀ i, .instr i ∈ b.elems → ArgOK P i.opcode i.arg) (h : fromBytecode P b = .error e) :
    (e = .runtimeError ∨ e = .keyError ∨ e = .assertionError ∨ e = .typeError) ∧
      (LabelsOnly b → e ≠ .typeError ∧ (e = .assertionError → ∃ pre i id post, b.elems = pre ++ .instr i :: .tryEnd id :: post ∧ isFinal i.name = true ∧
        ∀ pre' t mid, pre = pre' ++ .tryBegin t :: mid → ∃ id', .tryEnd id' ∈ mid)) := by
  have hw := C78_from_says hv h
  refine ⟨by cases hw <;> simp, fun hl => ⟨?_, ?_⟩⟩
  · rintro rfl
    cases hw with
    | blockTry h1 h2 h3 h4 => exact hl _ h1 _ h3
  · rintro rfl
    cases hw with
    | outside h1 h2 h3 => exact ⟨_, _, _, _, h1, h2, h3⟩
    | block h1 h2 h3 => exact absurd h3 (hl _ h1 _)

/-- **C78.** Without these mistakes there is no exception: for this no assumption on the regions is needed, unlike C60. -/
theorem C78_from_succeeds (hv : ∀ i, .instr i ∈ b.elems → ArgOK P i.opcode i.arg) (h : ∀ e, ¬ WrongFlow P b e) : ∃ c, fromBytecode P b = .ok c := by
  cases hc : fromBytecode P b with
  | ok c => exact ⟨c, rfl⟩
  | error e => exact absurd (C78_from_says hv hc) (h e)

/-- **C78.** Nested regions are always refused, with RuntimeError; otherwise a missing label or handler always is, with KeyError. -/
theorem C78_from_noticed (hv : ∀ i, .instr i ∈ b.elems → ArgOK P i.opcode i.arg) :
    ((∃ pre t mid t' post, b.elems = pre ++ .tryBegin t :: mid ++ .tryBegin t' :: post ∧ ∀ id, .tryEnd id ∉ mid) → fromBytecode P b = .error .runtimeError) ∧
    ((¬ ∃ pre t mid t' post, b.elems = pre ++ .tryBegin t :: mid ++ .tryBegin t' :: post ∧ ∀ id, .tryEnd id ∉ mid) → ¬ LabelsExist b →
      fromBytecode P b = .error .keyError) := by
  constructor
  · rintro ⟨pre, t, mid, t', post, he, hm⟩
    unfold fromBytecode
    cases h : (iterElems false b.elems).2 with
    | error e => have := iter_err _ _ h; subst this; rfl
    | ok u =>
      obtain ⟨id, hid⟩ := (iter_nested h).2 pre t mid t' post he
      exact absurd hid (hm id)
  · intro hn hl
    unfold fromBytecode
    have h1 : (iterElems false b.elems).2 = .ok () := iter_total b.elems false
      (fun pre t mid t' post he => Classical.byContradiction fun hx => hn ⟨pre, t, mid, t', post, he, fun id hid => hx ⟨id, hid⟩⟩) (fun h => by cases h)
    rw [h1]
    cases h2 : blockStarts b.elems with
    | error e =>
      obtain ⟨l, _, hx⟩ := mapM_err h2
      split at hx
      · cases hx
      · cases hx; rfl
    | ok starts =>
      exfalso
      obtain ⟨_, st2⟩ := blockStarts_ok h2
      refine hl ⟨fun i l hi ha => ?_, fun t ht => ?_⟩
      · obtain ⟨p, _, hp⟩ := st2 _ hi l (by simp [refLabel, ha])
        exact List.mem_of_getElem? (labelIndex_some hp).1
      · obtain ⟨p, _, hp⟩ := st2 _ ht t.target rfl
        exact List.mem_of_getElem? (labelIndex_some hp).1

/-- **C78.** Whatever `to_bytecode` of a graph raises, the graph has one of the mistakes that exception stands for. -/
theorem C78_to_says (hv : ∀ i, .instr i ∈ allCode c → ArgOK P i.opcode i.arg) (h : c.toBytecode P = .error e) : WrongBlocks P c e := to_err hv h

/-- No other exception is raised. -/
theorem C78_to_classes (hv : ∀ i, .instr i ∈ allCode c → ArgOK P i.opcode i.arg) (h : c.toBytecode P = .error e) :
    e = .valueError ∨ e = .keyError ∨ e = .assertionError := by
  cases C78_to_says hv h <;> simp

/-- **C78.** Without these mistakes there is no exception. -/
theorem C78_to_succeeds (hv : ∀ i, .instr i ∈ allCode c → ArgOK P i.opcode i.arg) (h : ∀ e, ¬ WrongBlocks P c e) : ∃ b, c.toBytecode P = .ok b := by
  cases hc : c.toBytecode P with
  | ok c => exact ⟨c, rfl⟩
  | error e => exact absurd (C78_to_says hv hc) (h e)

end

/-! ### Examples: one program for each mistake -/

/-- The exception of `from_bytecode`, and whether the constructors accept the parts. -/
def flowOf (es : List BElem) : Bool × Option PyErr :=
  let b : Bytecode := { attrs := Attrs.default, argnames := [], elems := es }
  (made Py311.platform es, match fromBytecode Py311.platform b with | .error e => some e | .ok _ => none)

example : flowOf [.label 5, .tryBegin ⟨0, 5, false, none⟩, ins Py311.platform "NOP", .tryBegin ⟨1, 5, false, none⟩, .tryEnd 1] = (true, some .runtimeError) := by decide +kernel
example : flowOf [ins Py311.platform "JUMP_FORWARD" (.label 3)] = (true, some .keyError) := by decide +kernel
example : flowOf [.tryBegin ⟨0, 5, false, none⟩, ins Py311.platform "NOP", .tryEnd 0] = (true, some .keyError) := by decide +kernel
example : flowOf [ins Py311.platform "NOP", .tryEnd 0] = (true, some .keyError) := by decide +kernel
example : flowOf [ins Py311.platform "RETURN_VALUE", .tryEnd 0] = (true, some .assertionError) := by decide +kernel
example : flowOf [ins Py311.platform "POP_JUMP_FORWARD_IF_TRUE" (.block 3), ins Py311.platform "NOP"] = (true, some .assertionError) := by decide +kernel
example : flowOf [.label 5, ins Py311.platform "POP_JUMP_FORWARD_IF_TRUE" (.label 6), .tryBegin ⟨0, 5, false, none⟩, ins Py311.platform "POP_JUMP_FORWARD_IF_TRUE" (.block 3), .label 6, ins Py311.platform "NOP", .tryEnd 0] =
    (true, some .typeError) := by decide +kernel
/-- A TryEnd of another region, after an instruction that ends the control flow, is accepted: it closes the open one. -/
example : flowOf [.label 5, .tryBegin ⟨0, 5, false, none⟩, ins Py311.platform "RETURN_VALUE", .tryEnd 7] = (true, none) := by decide +kernel

/-- The theorem used: the label that is missing. -/
example : WrongFlow Py311.platform { attrs := Attrs.default, argnames := [], elems := [ins Py311.platform "JUMP_FORWARD" (.label 3)] } .keyError :=
  C78_from_says (fun i hi => (made_valid Py311.wf (by decide +kernel) i hi).arg_ok) (by
    have : (match fromBytecode Py311.platform { attrs := Attrs.default, argnames := [], elems := [ins Py311.platform "JUMP_FORWARD" (.label 3)] } with | .error e => decide (e = .keyError) | .ok _ => false) = true := by
      decide +kernel
    split at this
    · simp_all
    · cases this)

/-- The exception of `to_bytecode` of a graph with these blocks. -/
def blocksError (bs : List Blk) : Option PyErr :=
  match (CFG.ofBlocks Attrs.default [] bs).toBytecode Py311.platform with | .error e => some e | .ok _ => none

example : blocksError [⟨[.label 3], none⟩] = some .valueError := by decide +kernel
example : blocksError [⟨[ins Py311.platform "JUMP_FORWARD" (.block 0), ins Py311.platform "NOP"], none⟩] = some .valueError := by decide +kernel
example : blocksError [⟨[ins Py311.platform "JUMP_FORWARD" (.label 0)], none⟩] = some .assertionError := by decide +kernel
example : blocksError [⟨[ins Py311.platform "JUMP_FORWARD" (.block 4)], none⟩] = some .keyError := by decide +kernel
example : blocksError [⟨[.tryBegin ⟨0, 5, false, none⟩, ins Py311.platform "NOP", .tryEnd 0], none⟩] = some .keyError := by decide +kernel
example : blocksError [⟨[ins Py311.platform "NOP", .tryEnd 0], none⟩] = some .keyError := by decide +kernel
example : blocksError [⟨[.tryBegin ⟨0, 0, false, none⟩, ins Py311.platform "NOP", .tryBegin ⟨1, 0, true, none⟩, ins Py311.platform "NOP", .tryEnd 1], none⟩] = some .assertionError := by
  decide +kernel
example : blocksError [⟨[.tryBegin ⟨0, 0, false, none⟩, ins Py311.platform "NOP", .tryEnd 0, .tryBegin ⟨1, 0, false, some 1⟩, ins Py311.platform "NOP", .tryEnd 1], none⟩] =
    some .assertionError := by decide +kernel
example : blocksError [⟨[.tryBegin ⟨0, 0, false, none⟩, ins Py311.platform "NOP", .tryEnd 0, .tryBegin ⟨1, 0, false, none⟩, .tryBegin ⟨2, 0, false, none⟩], none⟩] =
    some .valueError := by decide +kernel

end Verif
