import Verif.Proofs.WellFormedD
import Verif.Props.RoundTripTotal
import Verif.Spec.WellFormed
import Verif.Props.FromCodeEx
/-
C66: the code object `to_code` writes is well formed.
-/
namespace Verif
open Spec
section
variable {κ : Type} [DecidableEq κ]
variable {P : Platform} {key : Arg → κ} {b : Bytecode} {eff : Instr → Bool → Py (Int × Int)} {passes : Nat} {stacksize : Option Int}
  {depths : Bool} {co : Code}

theorem sized_noEmpty {b' : Bytecode} {n : Int} (hl : LabelsOnly b)
    (hw : WellTried none [] false b.elems) (he : NoEmptyTry false b.elems) (h : b.sized P eff depths = .ok (n, b')) : NoEmptyTry false b'.elems := by
  obtain ⟨_, _, _, _, _, _, g, g', hg, hg', hx⟩ := sized_spec hl hw h
  have hd := computeStacksize_only hg'
  obtain ⟨f1, f2, f3⟩ := from_tries hw hg
  have ho' : Ordered (allCode g') := ordered_marks (marks_only hd).symm f1
  exact to_noEmpty ho' (ne_only hd (from_noEmpty hw he hg)) hx

/-- What is assembled: the Bytecode, or the one with the computed depths. -/
theorem toCode_parts (hcache : ∀ e ∈ b.elems, e.isCache = false) (hv : ∀ i, .instr i ∈ b.elems → ValidInstr P i) (hl : LabelsOnly b)
    (hw : WellTried none [] false b.elems) (hne : NoEmptyTry false b.elems) (h : b.toCode P key eff passes stacksize depths = .ok co) :
    ∃ b' c n, toConcrete P key passes b' = .ok c ∧ c.emit P n = .ok co ∧ codeB b' = codeB b ∧ handlersOf b' = handlersOf b ∧ b'.attrs = b.attrs ∧
      (∀ e ∈ b'.elems, e.isCache = false) ∧ (∀ i, .instr i ∈ b'.elems → ValidInstr P i) ∧ WellTried none [] false b'.elems ∧ NoEmptyTry false b'.elems ∧
      (∀ vs, (∀ i, .instr i ∈ b.elems → OperandOK P vs i) → ∀ i, .instr i ∈ b'.elems → OperandOK P vs i) ∧
      ∀ i, .instr i ∈ b'.elems → (∀ x, i.arg ≠ .block x) ∧ ∃ j, .instr j ∈ b.elems ∧ j.opcode = i.opcode ∧ (j.arg = i.arg ∨ ∃ l, i.arg = .label l) := by
  have hs : ∀ {r : Int × Bytecode} {c : Concrete}, b.sized P eff depths = .ok r → toConcrete P key passes r.2 = .ok c → c.emit P r.1 = .ok co →
      ∃ b' c n, toConcrete P key passes b' = .ok c ∧ c.emit P n = .ok co ∧ codeB b' = codeB b ∧ handlersOf b' = handlersOf b ∧ b'.attrs = b.attrs ∧
      (∀ e ∈ b'.elems, e.isCache = false) ∧ (∀ i, .instr i ∈ b'.elems → ValidInstr P i) ∧ WellTried none [] false b'.elems ∧ NoEmptyTry false b'.elems ∧
      (∀ vs, (∀ i, .instr i ∈ b.elems → OperandOK P vs i) → ∀ i, .instr i ∈ b'.elems → OperandOK P vs i) ∧
      ∀ i, .instr i ∈ b'.elems → (∀ x, i.arg ≠ .block x) ∧ ∃ j, .instr j ∈ b.elems ∧ j.opcode = i.opcode ∧ (j.arg = i.arg ∨ ∃ l, i.arg = .label l) := by
    rintro ⟨n, b'⟩ c hr hc he
    obtain ⟨h1, h2, h3, h4, h5, h6, _⟩ := sized_spec hl hw hr
    refine ⟨b', c, n, hc, he, h1, h2, h3, noCache_same hl h1 h6 hcache, valid_same hl h1 h6 hv, h5, sized_noEmpty hl hw hne hr,
      fun vs h => operandOK_same hl h1 h6 h, fun i hi => ?_⟩
    obtain ⟨j, a1, _, a2, _, a3, a4⟩ := item_instr hl h1 h6 hi
    refine ⟨a4, j, a1, a2, ?_⟩
    rcases a3 with a3 | a3
    · exact .inl a3
    · exact .inr a3.1
  unfold Bytecode.toCode at h
  split at h
  · obtain ⟨r, hr, h⟩ := except_bind_ok h
    obtain ⟨c, hc, h⟩ := except_bind_ok h
    exact hs hr hc h
  · split at h
    · obtain ⟨c, hc, h⟩ := except_bind_ok h
      exact ⟨b, c, _, hc, h, rfl, rfl, rfl, hcache, hv, hw, hne, fun _ h => h, fun i hi => ⟨hl i hi, i, hi, rfl, .inl rfl⟩⟩
    · obtain ⟨r, hr, h⟩ := except_bind_ok h
      obtain ⟨c, hc, h⟩ := except_bind_ok h
      exact hs hr hc h

/-- **C66.** On 3.11+, whatever the options, the code object `to_code` returns for a Bytecode that is `Sound` is one the compiler
could have written: its bytes are instructions with their EXTENDED_ARG and their zeroed inline caches, indexes are within the
tables, jumps and handlers go to instructions, protected regions are apart and made of whole instructions, the constants are the
operands of the instructions. The exception is the start of a region whose first instruction needs an EXTENDED_ARG
(`StartsPlain`, see C66_region_lost). -/
theorem C66_well_formed (hP : P.WF) (h11 : P.py311 = true) (hcache : ∀ e ∈ b.elems, e.isCache = false) (hv : ∀ i, .instr i ∈ b.elems → ValidInstr P i)
    (hl : LabelsOnly b) (hw : WellTried none [] false b.elems) (hne : NoEmptyTry false b.elems) (hs : Sound P key b)
    (hok : ∀ i, .instr i ∈ b.elems → OperandOK P co.varnames i) (hapart : P.py313 = true → ∀ n ∈ co.freevars, n ∉ co.varnames)
    (h : b.toCode P key eff passes stacksize depths = .ok co) (hstart : StartsPlain P co) : CodeOK P co := by
  obtain ⟨b', c, n, hc, he, e1, e2, e3, e4, e5, e6, e7, e8, e9⟩ := toCode_parts hcache hv hl hw hne h
  obtain ⟨T, M, hF⟩ := toConcrete_Final hP e4 e5 hc
  have hcv : co.varnames = c.varnames := by
    unfold Concrete.emit at he
    simp only [h11, if_true] at he
    obtain ⟨table, _, he⟩ := except_bind_ok he
    obtain ⟨exc, _, he⟩ := except_bind_ok he
    simp only [pure, Except.pure, Except.ok.injEq] at he
    subst he; rfl
  have hl' : LabelsOnly b' := fun i hi => (e9 i hi).1
  have hps := program_same hP key b b' hv hl e5 hl' (toConcrete_depths hc) e1 e2 (by rw [e3])
  have hlen : (programB P key b').length = (programB P key (zeroDepths b)).length := by rw [← hps, List.length_map]
  refine hF.codeOK h11 e6 e7 (toConcrete_depths hc) he (e8 _ (hcv ▸ hok)) ?_ ?_ ?_ hstart hapart
  · intro v hvm
    rcases toConcrete_consts hc v hvm with hd | ⟨i, hi, hcst, rfl⟩
    · rw [e3] at hd; exact hs.doc v hd
    · have hA := (e5 i hi).arg_ok
      refine ⟨?_, hA.const hcst⟩
      apply hA.present.1
      exact hP.operand_arg _ _ (e5 i hi).name_op (e5 i hi).base (by simp [hcst])
  · intro i hi
    obtain ⟨_, j, hj, ho, ha⟩ := e9 i hi
    rcases ha with ha | ⟨l, ha⟩
    · rw [← ha, ← ho]; exact hs.intrinsics j hj
    · rw [ha]; exact ⟨by simp, by simp⟩
  · intro o ho
    have ho' : o.noDepth ∈ programB P key (zeroDepths b) := by rw [← hps]; exact List.mem_map_of_mem ho
    rw [hlen]
    refine ⟨fun t ht => hs.jumps _ ho' t ht, fun x hx => ?_, fun hx => hs.lines o.noDepth ho' hx⟩
    exact hs.handlers _ ho' { x with depth := 0 } (by simp [Op.noDepth, hx])

/-- **C66 (written again).** It also meets what the library needs to write it again. -/
theorem C66_rewritable (hP : P.WF) (h11 : P.py311 = true) (hcache : ∀ e ∈ b.elems, e.isCache = false) (hv : ∀ i, .instr i ∈ b.elems → ValidInstr P i)
    (hl : LabelsOnly b) (hw : WellTried none [] false b.elems) (hne : NoEmptyTry false b.elems)
    (hok : ∀ i, .instr i ∈ b.elems → OperandOK P co.varnames i)
    (h : b.toCode P key eff passes stacksize depths = .ok co)
    (hsize : 8 * co.code.length + co.varnames.length + co.cellvars.length + co.freevars.length ≤ 2147483647) : Rewritable P co := by
  obtain ⟨b', c, n, hc, he, e1, e2, e3, e4, e5, e6, e7, e8, e9⟩ := toCode_parts hcache hv hl hw hne h
  obtain ⟨T, M, hF⟩ := toConcrete_Final hP e4 e5 hc
  have hcv : co.varnames = c.varnames := by
    unfold Concrete.emit at he
    simp only [h11, if_true] at he
    obtain ⟨table, _, he⟩ := except_bind_ok he
    obtain ⟨exc, _, he⟩ := except_bind_ok he
    simp only [pure, Except.pure, Except.ok.injEq] at he
    subst he; rfl
  exact hF.rewritable h11 he (e8 _ (hcv ▸ hok)) hsize

/-- **C66 (read back).** The code object `to_code` wrote is read by `from_code`, and the Bytecode read denotes the program that was
written: the same operations in order with the same names, operands, targets of jumps, handlers and locations (as a code
object keeps them), the depths of the handlers apart. -/
theorem C66_read_back (hP : P.WF) (h11 : P.py311 = true) (hcache : ∀ e ∈ b.elems, e.isCache = false) (hv : ∀ i, .instr i ∈ b.elems → ValidInstr P i)
    (hl : LabelsOnly b) (hw : WellTried none [] false b.elems) (hne : NoEmptyTry false b.elems) (hs : Sound P key b)
    (hok : ∀ i, .instr i ∈ b.elems → OperandOK P co.varnames i) (hapart : P.py313 = true → ∀ n ∈ co.freevars, n ∉ co.varnames)
    (h : b.toCode P key eff passes stacksize depths = .ok co) (hstart : StartsPlain P co) :
    ∃ b', Bytecode.fromCode P co = .ok b' ∧ programB P key (zeroDepths b') = (programB P key (zeroDepths b)).map (Op.mapLoc keptLoc) := by
  obtain ⟨b', h1, h2, _⟩ := C51_from_code hP h11 key (C66_well_formed hP h11 hcache hv hl hw hne hs hok hapart h hstart)
  exact ⟨b', h1, by rw [h2, C48_to_code_program hP h11 hcache hv hl hw h hok]⟩

/-- **C66 (read back, depths).** With the stack size given and no depth computation, reading with
`conserve_exception_block_stackdepth=True` gives the depths back too. -/
theorem C66_read_back_exact (hP : P.WF) (h11 : P.py311 = true) (hcache : ∀ e ∈ b.elems, e.isCache = false)
    (hv : ∀ i, .instr i ∈ b.elems → ValidInstr P i)
    (hl : LabelsOnly b) (hw : WellTried none [] false b.elems) (hne : NoEmptyTry false b.elems) (hs : Sound P key b)
    (hok : ∀ i, .instr i ∈ b.elems → OperandOK P co.varnames i) (hapart : P.py313 = true → ∀ n ∈ co.freevars, n ∉ co.varnames) {n : Int}
    (h : b.toCode P key eff passes (some n) false = .ok co) (hstart : StartsPlain P co) :
    ∃ b', Bytecode.fromCode P co true true = .ok b' ∧ programB P key b' = (programB P key b).map (Op.mapLoc keptLoc) := by
  obtain ⟨b', h1, h2⟩ := C51_conserve hP h11 key (C66_well_formed hP h11 hcache hv hl hw hne hs hok hapart h hstart)
  exact ⟨b', h1, by rw [h2, (C48_explicit hP h11 hcache hv hw h hok).1]⟩

/-- **C66 (stable).** Reading and writing what `to_code` wrote, keeping the depths and the stack size, never fails and gives a
code object with the same program: one round trip is enough, the next ones change nothing. -/
theorem C66_stable (hP : P.WF) (h11 : P.py311 = true) (hcache : ∀ e ∈ b.elems, e.isCache = false)
    (hv : ∀ i, .instr i ∈ b.elems → ValidInstr P i)
    (hl : LabelsOnly b) (hw : WellTried none [] false b.elems) (hne : NoEmptyTry false b.elems) (hs : Sound P key b)
    (hok : ∀ i, .instr i ∈ b.elems → OperandOK P co.varnames i) (hapart : P.py313 = true → ∀ n ∈ co.freevars, n ∉ co.varnames)
    (h : b.toCode P key eff passes stacksize depths = .ok co) (hstart : StartsPlain P co)
    (hsize : 8 * co.code.length + co.varnames.length + co.cellvars.length + co.freevars.length ≤ 2147483647)
    (hd : ∀ f ∈ fetched P co, P.dual f.opcode = false) {passes' : Nat} (hp : 3 * jumpsOfCode P co < passes') :
    ∃ b' co', Bytecode.fromCode P co true true = .ok b' ∧ b'.toCode P key eff passes' (some co.stacksize) false = .ok co' ∧
      programCode P key co' = programCode P key co ∧ co'.stacksize = co.stacksize :=
  C62_round_trip_identity hP h11 key eff (C66_well_formed hP h11 hcache hv hl hw hne hs hok hapart h hstart)
    (C66_rewritable hP h11 hcache hv hl hw hne hok h hsize) hd hp

end

/-! ### Examples -/

/-- A test of `Sound`. -/
def soundB (P : Platform) (b : Bytecode) : Bool :=
  let p := programB P (id : Arg → Arg) (zeroDepths b)
  p.all (fun o => match o.operand with | .jump t => decide (t < p.length) | _ => true) &&
  p.all (fun o => match o.handler with | some x => decide (x.target < p.length) | none => true) &&
  p.all (fun o => o.loc.col.isSome || decide (o.loc.lineno ≠ some 0)) &&
  b.elems.all (fun e => match e with
    | .instr i => (match i.arg with | .intr1 v => decide (v ≤ 11) | .intr2 v => decide (v ≤ 4) | _ => true)
    | _ => true) &&
  (match b.attrs.docstring with | some .unset => false | some (.label _) => false | some (.block _) => false | _ => true)

theorem sound_of {P : Platform} {b : Bytecode} (h : soundB P b = true) : Sound P (id : Arg → Arg) b := by
  simp only [soundB, Bool.and_eq_true, List.all_eq_true, decide_eq_true_iff, Bool.or_eq_true] at h
  obtain ⟨⟨⟨⟨h1, h2⟩, h3⟩, h4⟩, h5⟩ := h
  refine ⟨fun o ho t ht => ?_, fun o ho x hx => ?_, fun o ho hc => ?_, fun i hi => ⟨fun _ v hv => ?_, fun _ v hv => ?_⟩, fun v hv => ?_⟩
  · have := h1 o ho; rw [ht] at this; simpa using this
  · have := h2 o ho; rw [hx] at this; simpa using this
  · have := h3 o ho; rw [hc] at this; simpa using this
  · have := h4 _ hi; simp only [hv] at this; simpa using this
  · have := h4 _ hi; simp only [hv] at this; simpa using this
  · rw [hv] at h5
    cases v <;> simp_all

/-- The example of C48 (a loop, a try region, cell and free variables): its code object is read back as the program written. -/
example : Sound Py311.platform (id : Arg → Arg) toCodeEx ∧ StartsPlain Py311.platform toCodeExCode ∧
    ∃ b', Bytecode.fromCode Py311.platform toCodeExCode = .ok b' ∧
      programB Py311.platform (id : Arg → Arg) (zeroDepths b') = (programB Py311.platform (id : Arg → Arg) (zeroDepths toCodeEx)).map (Op.mapLoc keptLoc) := by
  have hs : Sound Py311.platform (id : Arg → Arg) toCodeEx := sound_of (by decide +kernel)
  have hp : StartsPlain Py311.platform toCodeExCode := by unfold StartsPlain; decide +kernel
  have hc := noCache_spec (es := toCodeEx.elems) (by decide +kernel)
  have hv := made_valid Py311.wf (es := toCodeEx.elems) (by decide +kernel)
  refine ⟨hs, hp, C66_read_back Py311.wf (by decide) hc hv (labelsOnly_of (by decide +kernel)) (by decide +kernel) (by decide +kernel) hs ?_
    (fun h => absurd h (by decide)) toCodeEx_code hp⟩
  have : ∀ i, .instr i ∈ toCodeEx.elems → (∀ v, i.arg = .compare v → v ≤ 5) ∧ Py311.platform.dual i.opcode = false := by
    have h1 : toCodeEx.elems.all (fun e => match e with
      | .instr i => (match i.arg with | .compare v => decide (v ≤ 5) | _ => true) && !Py311.platform.dual i.opcode
      | _ => true) = true := by decide +kernel
    intro i hi
    have h2 := List.all_eq_true.1 h1 _ hi
    simp only [Bool.and_eq_true, Bool.not_eq_true'] at h2
    refine ⟨fun v hx => ?_, h2.2⟩
    have := h2.1
    rw [hx] at this
    simpa using this
  intro i hi
  refine ⟨fun _ v hx => ?_, fun hd => ?_⟩
  · exact .inl ((this i hi).1 v hx)
  · rw [(this i hi).2] at hd; cases hd

/-- A try region whose first instruction needs an EXTENDED_ARG. -/
def wideTry : Bytecode where
  attrs := Attrs.default
  argnames := []
  elems := [ins Py311.platform "RESUME" (.int 0), .tryBegin ⟨0, 9, false, some 0⟩, ins Py311.platform "RESUME" (.int 256), ins Py311.platform "NOP", .tryEnd 0,
    ins Py311.platform "NOP", .label 9, ins Py311.platform "PUSH_EXC_INFO", ins Py311.platform "RERAISE" (.int 0)]

/-- Its code object: the region starts at the unit 2, between the EXTENDED_ARG and the opcode. -/
def wideTryCode : Code where
  argcount := 0
  posonlyargcount := 0
  kwonlyargcount := 0
  nlocals := 0
  stacksize := 3
  flags := 0
  code := [151, 0, 144, 1, 151, 0, 9, 0, 9, 0, 35, 0, 119, 0]
  consts := []
  names := []
  varnames := []
  filename := "<string>"
  name := "<module>"
  qualname := "<module>"
  firstlineno := 1
  linetable := [238, 0]
  exctable := [130, 2, 5, 0]
  freevars := []
  cellvars := []

/-- What `from_code` reads. -/
def wideTryRead : Bytecode where
  attrs := Attrs.default
  argnames := []
  elems := [ins Py311.platform "RESUME" (.int 0) (some ⟨some 1, some 1, none, none⟩), ins Py311.platform "RESUME" (.int 256) (some ⟨some 1, some 1, none, none⟩),
    ins Py311.platform "NOP" (loc := some ⟨some 1, some 1, none, none⟩), .tryBegin ⟨0, 5, false, some 0⟩, .tryEnd 0,
    ins Py311.platform "NOP" (loc := some ⟨some 1, some 1, none, none⟩), .label 5, ins Py311.platform "PUSH_EXC_INFO" (loc := some ⟨some 1, some 1, none, none⟩),
    ins Py311.platform "RERAISE" (.int 0) (some ⟨some 1, some 1, none, none⟩)]

/-- **C66 (limit).** When the first instruction of a try region needs an EXTENDED_ARG, the code object written protects it as it
should, but the region starts between the EXTENDED_ARG and the opcode, and `from_code` loses it: the TryBegin comes just before
its TryEnd, and no operation is protected any more. -/
theorem C66_region_lost : wideTry.toCode Py311.platform (id : Arg → Arg) eff311 10 (some 3) false = .ok wideTryCode ∧
    Bytecode.fromCode Py311.platform wideTryCode true true = .ok wideTryRead ∧
    ((programB Py311.platform (id : Arg → Arg) wideTry).map (fun o => o.handler.isSome)) = [false, true, true, false, false, false] ∧
    ((programCode Py311.platform (id : Arg → Arg) wideTryCode).map (fun o => o.handler.isSome)) = [false, true, true, false, false, false] ∧
    ((programB Py311.platform (id : Arg → Arg) wideTryRead).map (fun o => o.handler.isSome)) = [false, false, false, false, false, false] :=
  ⟨toOption_ok (by decide +kernel), toOption_ok (by decide +kernel), by decide +kernel, by decide +kernel, by decide +kernel⟩

end Verif
