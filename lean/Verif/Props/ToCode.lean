import Verif.Proofs.CodeProgram
import Verif.Proofs.Sized
import Verif.Proofs.ProgCode
import Verif.Proofs.Caches
import Verif.Proofs.RoundTrip
import Verif.Props.Convert
import Verif.Props.ConcreteInstr
import Verif.Props.Code
/-
C48: the program of the code object written by `to_code`.
-/
namespace Verif
open Spec
section
variable {κ : Type} [DecidableEq κ]
variable {P : Platform} {key : Arg → κ} {b : Bytecode} {c : Concrete} {T : Tabs} {M : List Cell}

/-! ### The concrete instructions are laid out as CPython wants them -/

theorem cacheLayout_of (P : Platform) (h11 : P.py311 = true) (l : List CInstr) : ∀ n, CachesOK P n l →
    (∀ i ∈ l, i.name ≠ "CACHE" → i.opcode ≠ 0) → (∀ i ∈ l, i.name = "CACHE" → i.opcode = 0 ∧ i.size = 2) →
    ∃ cs rest, l = cs ++ rest ∧ cs.length = n ∧ (∀ c ∈ cs, c.opcode = 0 ∧ c.size = 2) ∧ CacheLayout P rest := by
  induction l with
  | nil =>
    intro n h _ _
    cases n with
    | zero => exact ⟨[], [], rfl, rfl, by simp, .nil⟩
    | succ n => exact absurd h (by simp [CachesOK])
  | cons i l ih =>
    intro n h h1 h2
    have h1' := fun j hj => h1 j (List.mem_cons_of_mem _ hj)
    have h2' := fun j hj => h2 j (List.mem_cons_of_mem _ hj)
    cases n with
    | zero =>
      obtain ⟨hn, h⟩ := h
      obtain ⟨cs, rest, rfl, hlen, hcs, hr⟩ := ih _ h h1' h2'
      refine ⟨[], _, rfl, rfl, by simp, .group i cs rest (h1 i (by simp) hn) ?_ hcs hr⟩
      rw [hlen]; simp [cachesOf, h11]
    | succ n =>
      obtain ⟨hn, h⟩ := h
      obtain ⟨cs, rest, rfl, hlen, hcs, hr⟩ := ih _ h h1' h2'
      refine ⟨i :: cs, rest, rfl, by simp [hlen], ?_, hr⟩
      intro x hx
      rcases List.mem_cons.1 hx with rfl | hx
      · exact h2 _ (by simp) hn
      · exact hcs x hx

theorem Final.plain (h : Final P key b c T M) : ∀ ci ∈ code P M, ci.ext = none ∧ (∃ l, ci.loc = some l) ∧ (ci.name = "CACHE" → ci.size = 2) := by
  intro ci hci
  simp only [code, List.mem_flatMap] at hci
  obtain ⟨d, hd, hci⟩ := hci
  refine ⟨?_, ⟨d.loc, cell_loc d ci hci⟩, ?_⟩
  all_goals
    cases hi : d.e with
    | instr i =>
      obtain ⟨hv, hn, _⟩ := h.mem hd hi
      rcases h.shape hd hi with ⟨a, _, hc⟩ | ⟨n1, i1, n2, i2, _, hs, hc⟩
      · rw [hc, List.mem_cons] at hci
        rcases hci with rfl | hci
        · first | rfl | (intro e; exact absurd e hn)
        · obtain ⟨_, rfl⟩ := List.mem_replicate.1 hci
          first | rfl | (intro _; show sizeFor (some 0) none = 2; decide +kernel)
      · obtain ⟨e1, e2⟩ := split_names hs
        rw [hc, List.mem_cons, List.mem_cons] at hci
        rcases hci with rfl | rfl | hci
        · first | rfl | (intro e; exact absurd e e1)
        · first | rfl | (intro e; exact absurd e e2)
        · obtain ⟨_, rfl⟩ := List.mem_replicate.1 hci
          first | rfl | (intro _; show sizeFor (some 0) none = 2; decide +kernel)
    | _ => simp [Cell.code, hi] at hci

theorem Final.layout (h11 : P.py311 = true) (h : Final P key b c T M) : CacheLayout P (code P M) := by
  have hc := h.caches
  rw [h.elems, instrsOf_map] at hc
  have hname : ∀ ci ∈ code P M, (ci.name = "CACHE" ↔ ci.opcode = 0) := by
    intro ci hci
    have hv := (h.instrs_valid ci hci).1
    constructor
    · intro e
      have := hv.name_op
      rw [e, (h.wf.cache h11).1] at this
      exact (Option.some.inj this).symm
    · intro e
      have h1 := h.wf.name_op _ _ hv.name_op hv.base
      have h2 := h.wf.name_op _ _ (h.wf.cache h11).1 (h.wf.cache h11).2
      rw [e, h2.2] at h1
      exact (Option.some.inj h1.2).symm
  obtain ⟨cs, rest, e, hlen, _, hr⟩ := cacheLayout_of P h11 (code P M) 0 hc (fun i hi hn h0 => hn ((hname i hi).2 h0))
    (fun i hi hn => ⟨(hname i hi).1 hn, (h.plain i hi).2.2 hn⟩)
  rw [List.length_eq_zero_iff.1 hlen, List.nil_append] at e
  rw [e]; exact hr

theorem Final.readable (h : Final P key b c T M) : ∀ ci ∈ code P M, Readable P ci := by
  intro ci hci
  obtain ⟨hv, hn⟩ := h.instrs_valid ci hci
  refine ⟨hv, (C07_size_eq_length_iff P ci hv).2 ?_, hn⟩
  intro n hx
  rw [(h.plain ci hci).1] at hx
  cases hx

omit [DecidableEq κ] in
theorem mapLoc_eq (f : Loc → Loc) : (fun o : Op κ => ({ o with loc := f o.loc } : Op κ)) = Op.mapLoc f := rfl

/-- Conversion and writing: the code object denotes the program. -/
theorem convert_emit_program (hP : P.WF) (h11 : P.py311 = true) {passes : Nat} {n : Int} {co : Code} (hcache : ∀ e ∈ b.elems, e.isCache = false)
    (hv : ∀ i, .instr i ∈ b.elems → ValidInstr P i) (hw : WellTried none [] false b.elems)
    (h : toConcrete P key passes b = .ok c) (he : c.emit P n = .ok co) (hok : ∀ i, .instr i ∈ b.elems → OperandOK P co.varnames i) :
    programCode P key co = (programB P key b).map (Op.mapLoc keptLoc) ∧ co.stacksize = n := by
  obtain ⟨T, M, hF⟩ := toConcrete_Final hP hcache hv h
  have hf : co.varnames = c.varnames ∧ co.stacksize = n := by
    unfold Concrete.emit at he
    simp only [h11, if_true] at he
    obtain ⟨table, _, he⟩ := except_bind_ok he
    obtain ⟨exc, _, he⟩ := except_bind_ok he
    simp only [pure, Except.pure, Except.ok.injEq] at he
    subst he; exact ⟨rfl, rfl⟩
  rw [hf.1] at hok
  refine ⟨?_, hf.2⟩
  rw [emit_program P hP h11 key c (code P M) (fun i => i.loc.getD (Loc.line none)) hF.elems (hF.layout h11) hF.readable ?_ n co he,
    C45_program_preserved hP hcache hv h hok hw, mapLoc_eq]
  intro i hi
  obtain ⟨l, hl⟩ := (hF.plain i hi).2.1
  rw [hl]; rfl

/-- Through the graph: the same, depths apart for the original. -/
theorem sized_emit_program (hP : P.WF) (h11 : P.py311 = true) {eff : Instr → Bool → Py (Int × Int)} {passes : Nat} {depths : Bool} {n : Int} {b' : Bytecode} {co : Code}
    (hcache : ∀ e ∈ b.elems, e.isCache = false) (hv : ∀ i, .instr i ∈ b.elems → ValidInstr P i) (hl : LabelsOnly b)
    (hw : WellTried none [] false b.elems) (hs : b.sized P eff depths = .ok (n, b')) (h : toConcrete P key passes b' = .ok c)
    (he : c.emit P n = .ok co) (hok : ∀ i, .instr i ∈ b.elems → OperandOK P co.varnames i) :
    programCode P key co = (programB P key b').map (Op.mapLoc keptLoc) ∧ co.stacksize = n ∧
    (programCode P key co).map Op.noDepth = (programB P key (zeroDepths b)).map (Op.mapLoc keptLoc) := by
  obtain ⟨h1, h2, h3, _, h5, h6, _⟩ := sized_spec hl hw hs
  have hv' := valid_same hl h1 h6 hv
  obtain ⟨p1, p2⟩ := convert_emit_program hP h11 (noCache_same hl h1 h6 hcache) hv' h5 h he (operandOK_same hl h1 h6 hok)
  refine ⟨p1, p2, ?_⟩
  rw [← program_same hP key b b' hv hl hv' (fun i hi x => ?_) (toConcrete_depths h) h1 h2 (by rw [h3]), p1, List.map_map, List.map_map]
  · rfl
  · obtain ⟨_, _, _, _, _, _, hx⟩ := item_instr hl h1 h6 hi
    exact hx x

variable {eff : Instr → Bool → Py (Int × Int)} {passes : Nat} {co : Code}

/-- **C48.** On 3.11+, whatever the options of `Bytecode.to_code`, the code object it returns denotes the program of the
Bytecode: reading the bytes, tables, table of locations and exception table of the code object as CPython does gives the
operations of the Bytecode in order, with the same names, operands, targets of jumps, locations (as code objects keep
them) and handlers, the depths of handlers apart (they are recomputed, see C48_default). The Bytecode has no manual CACHE
(C19), its operands are those the format can hold (OperandOK, see C45), and its try markers delimit regions. -/
theorem C48_to_code_program (hP : P.WF) (h11 : P.py311 = true) {stacksize : Option Int} {depths : Bool}
    (hcache : ∀ e ∈ b.elems, e.isCache = false) (hv : ∀ i, .instr i ∈ b.elems → ValidInstr P i) (hl : LabelsOnly b)
    (hw : WellTried none [] false b.elems) (h : b.toCode P key eff passes stacksize depths = .ok co)
    (hok : ∀ i, .instr i ∈ b.elems → OperandOK P co.varnames i) :
    (programCode P key co).map Op.noDepth = (programB P key (zeroDepths b)).map (Op.mapLoc keptLoc) := by
  unfold Bytecode.toCode at h
  split at h
  · obtain ⟨r, hr, h⟩ := except_bind_ok h
    obtain ⟨c, hc, h⟩ := except_bind_ok h
    exact (sized_emit_program hP h11 hcache hv hl hw hr hc h hok).2.2
  · split at h
    · obtain ⟨c, hc, h⟩ := except_bind_ok h
      rw [(convert_emit_program hP h11 hcache hv hw hc h hok).1,
        ← program_same hP key b b hv hl hv hl (toConcrete_depths hc) rfl rfl rfl, List.map_map, List.map_map]
      rfl
    · obtain ⟨r, hr, h⟩ := except_bind_ok h
      obtain ⟨c, hc, h⟩ := except_bind_ok h
      exact (sized_emit_program hP h11 hcache hv hl hw hr hc h hok).2.2

/-- **C48 (default options).** On 3.11+ when the depths are computed (or the stack size is not given), the stack size of
the code object and the depths in its exception table are those computed on the graph of the Bytecode: `g` is the graph,
`n` the stack size, `g'` the graph with the depths, `b'` the Bytecode of `g'`, with the code, handlers, attributes and
argument names of `b`; the code object denotes the program of `b'`, depths included, and its stack size is `n`. -/
theorem C48_default (hP : P.WF) (h11 : P.py311 = true) {stacksize : Option Int} {depths : Bool} (hd : depths = true ∨ stacksize = none)
    (hcache : ∀ e ∈ b.elems, e.isCache = false) (hv : ∀ i, .instr i ∈ b.elems → ValidInstr P i) (hl : LabelsOnly b)
    (hw : WellTried none [] false b.elems) (h : b.toCode P key eff passes stacksize depths = .ok co)
    (hok : ∀ i, .instr i ∈ b.elems → OperandOK P co.varnames i) :
    ∃ (g g' : CFG) (n : Int) (b' : Bytecode), fromBytecode P b = .ok g ∧ g.computeStacksize P eff depths = .ok (n, g') ∧ g'.toBytecode P = .ok b' ∧
      codeB b' = codeB b ∧ handlersOf b' = handlersOf b ∧ b'.attrs = b.attrs ∧ b'.argnames = b.argnames ∧
      programCode P key co = (programB P key b').map (Op.mapLoc keptLoc) ∧ co.stacksize = n := by
  have key' : ∃ (r : Int × Bytecode) (c : Concrete), b.sized P eff depths = .ok r ∧ toConcrete P key passes r.2 = .ok c ∧ c.emit P r.1 = .ok co := by
    unfold Bytecode.toCode at h
    split at h
    · obtain ⟨r, hr, h⟩ := except_bind_ok h
      obtain ⟨c, hc, h⟩ := except_bind_ok h
      exact ⟨r, c, hr, hc, h⟩
    · rename_i hx
      split at h
      · rcases hd with hd | hd
        · simp [h11, hd] at hx
        · cases hd
      · obtain ⟨r, hr, h⟩ := except_bind_ok h
        obtain ⟨c, hc, h⟩ := except_bind_ok h
        exact ⟨r, c, hr, hc, h⟩
  obtain ⟨⟨n, b'⟩, c, hr, hc, he⟩ := key'
  obtain ⟨h1, h2, h3, h4, _, _, g, g', h7, h8, h9⟩ := sized_spec hl hw hr
  obtain ⟨p1, p2, _⟩ := sized_emit_program hP h11 hcache hv hl hw hr hc he hok
  exact ⟨g, g', n, b', h7, h8, h9, h1, h2, h3, h4, p1, p2⟩

/-- **C48 (explicit stack size).** With a stack size and without depth computation the depths written are those of the
TryBegin and the stack size is the one given; nothing is asked of the labels. -/
theorem C48_explicit (hP : P.WF) (h11 : P.py311 = true) {n : Int}
    (hcache : ∀ e ∈ b.elems, e.isCache = false) (hv : ∀ i, .instr i ∈ b.elems → ValidInstr P i)
    (hw : WellTried none [] false b.elems) (h : b.toCode P key eff passes (some n) false = .ok co)
    (hok : ∀ i, .instr i ∈ b.elems → OperandOK P co.varnames i) :
    programCode P key co = (programB P key b).map (Op.mapLoc keptLoc) ∧ co.stacksize = n := by
  unfold Bytecode.toCode at h
  simp only [Bool.and_false, Bool.false_eq_true, if_false] at h
  obtain ⟨c, hc, h⟩ := except_bind_ok h
  exact convert_emit_program hP h11 hcache hv hw hc h hok

end

/-! ### A concrete case -/

/-- 3.11: a try region with a conditional jump in it, a loop, cell, free, local and global variables, columns. The depth of
the handler is not set. -/
def toCodeEx : Bytecode where
  attrs := { Attrs.default with cellvars := ["c", "a"], freevars := ["f"], docstring := some (.str "doc") }
  argnames := ["a"]
  elems := [ins Py311.platform "RESUME" (.int 0) (some (Loc.line (some 4))), ins Py311.platform "LOAD_CONST" (.int 7), .label 7,
    .tryBegin ⟨0, 9, true, none⟩, .setLineno 5,
    ins Py311.platform "LOAD_FAST" (.str "b"), ins Py311.platform "LOAD_CONST" (.str "x") (some ⟨some 6, some 6, some 2, some 4⟩),
    ins Py311.platform "COMPARE_OP" (.compare 2), ins Py311.platform "POP_JUMP_FORWARD_IF_FALSE" (.label 8), .tryEnd 0,
    ins Py311.platform "LOAD_GLOBAL" (.tuple [.bool true, .str "print"]), ins Py311.platform "POP_TOP", ins Py311.platform "POP_TOP",
    ins Py311.platform "JUMP_BACKWARD" (.label 7), .label 8,
    ins Py311.platform "LOAD_DEREF" (.free "f"), ins Py311.platform "RETURN_VALUE", .label 9, ins Py311.platform "PUSH_EXC_INFO",
    ins Py311.platform "LOAD_CONST" (.str "doc"), ins Py311.platform "RETURN_VALUE"]

/-- The example with its labels renamed and the depth computed. -/
def toCodeExSized : Bytecode where
  attrs := toCodeEx.attrs
  argnames := ["a"]
  elems := [ins Py311.platform "RESUME" (.int 0) (some (Loc.line (some 4))), ins Py311.platform "LOAD_CONST" (.int 7), .label 1,
    .tryBegin ⟨0, 4, true, some 1⟩, .setLineno 5,
    ins Py311.platform "LOAD_FAST" (.str "b"), ins Py311.platform "LOAD_CONST" (.str "x") (some ⟨some 6, some 6, some 2, some 4⟩),
    ins Py311.platform "COMPARE_OP" (.compare 2), ins Py311.platform "POP_JUMP_FORWARD_IF_FALSE" (.label 3), .tryEnd 0,
    ins Py311.platform "LOAD_GLOBAL" (.tuple [.bool true, .str "print"]), ins Py311.platform "POP_TOP", ins Py311.platform "POP_TOP",
    ins Py311.platform "JUMP_BACKWARD" (.label 1), .label 3,
    ins Py311.platform "LOAD_DEREF" (.free "f"), ins Py311.platform "RETURN_VALUE", .label 4, ins Py311.platform "PUSH_EXC_INFO",
    ins Py311.platform "LOAD_CONST" (.str "doc"), ins Py311.platform "RETURN_VALUE"]

/-- Its code object: 44 bytes of code, locations and handlers in the formats of 3.11. -/
def toCodeExCode : Code where
  argcount := 0
  posonlyargcount := 0
  kwonlyargcount := 0
  nlocals := 2
  stacksize := 5
  flags := 0
  code := [151, 0, 100, 1, 124, 1, 100, 2, 107, 2, 0, 0, 0, 0, 114, 9, 116, 1, 0, 0, 0, 0, 0, 0, 0, 0, 0, 0, 1, 0, 1,
    0, 140, 15, 137, 3, 83, 0, 35, 0, 100, 0, 83, 0]
  consts := [.str "doc", .int 7, .str "x"]
  names := ["print"]
  varnames := ["a", "b"]
  filename := "<string>"
  name := "<module>"
  qualname := "<module>"
  firstlineno := 1
  linetable := [233, 6, 232, 2, 223, 2, 4, 135, 34, 130, 34]
  exctable := [130, 6, 19, 3]
  freevars := ["f"]
  cellvars := ["a", "c"]

theorem toOption_ok {α : Type} {x : Py α} {a : α} (h : x.toOption = some a) : x = .ok a := by
  cases x with
  | error e => cases h
  | ok y => exact congrArg Except.ok (Option.some.inj h)

theorem toCodeEx_sized : toCodeEx.sized Py311.platform eff311 true = .ok (5, toCodeExSized) := toOption_ok (by decide +kernel)

theorem toCodeExSized_emit : ((toConcrete Py311.platform (id : Arg → Arg) 10 toCodeExSized).toOption.bind (fun c => (c.emit Py311.platform 5).toOption)) = some toCodeExCode := by
  decide +kernel

theorem toCodeEx_code : toCodeEx.toCode Py311.platform (id : Arg → Arg) eff311 = .ok toCodeExCode := by
  unfold Bytecode.toCode
  rw [if_pos (by decide), toCodeEx_sized]
  have h := toCodeExSized_emit
  show (toConcrete Py311.platform (id : Arg → Arg) 10 toCodeExSized >>= fun c => c.emit Py311.platform 5) = _
  cases hc : toConcrete Py311.platform (id : Arg → Arg) 10 toCodeExSized with
  | error e => rw [hc] at h; cases h
  | ok c => rw [hc] at h; exact toOption_ok h

example : (programCode Py311.platform (id : Arg → Arg) toCodeExCode).map Op.noDepth =
      (programB Py311.platform (id : Arg → Arg) (zeroDepths toCodeEx)).map (Op.mapLoc keptLoc) := by
  have hc := noCache_spec (es := toCodeEx.elems) (by decide +kernel)
  have hv := made_valid Py311.wf (es := toCodeEx.elems) (by decide +kernel)
  refine C48_to_code_program Py311.wf (by decide) hc hv (labelsOnly_of (by decide +kernel)) (by decide +kernel) toCodeEx_code ?_
  intro i hi
  have : ∀ i, .instr i ∈ toCodeEx.elems → (∀ v, i.arg = .compare v → v ≤ 5) ∧ Py311.platform.dual i.opcode = false := by
    have h1 : toCodeEx.elems.all (fun e => match e with
      | .instr i => (match i.arg with | .compare v => decide (v ≤ 5) | _ => true) && !Py311.platform.dual i.opcode
      | _ => true) = true := by decide +kernel
    intro i hi
    have := List.all_eq_true.1 h1 _ hi
    simp only [Bool.and_eq_true, Bool.not_eq_true'] at this
    refine ⟨fun v hv => ?_, this.2⟩
    have h3 := this.1
    rw [hv] at h3
    simpa using h3
  obtain ⟨h1, h2⟩ := this i hi
  exact ⟨fun _ v hv => .inl (h1 v hv), fun h => by rw [h2] at h; simp at h⟩

/-- The stack size and the program: the conditional jump (operation 5) is protected by the handler, operation 12, at the
depth 1 computed, with the last instruction. -/
example : ((programCode Py311.platform (id : Arg → Arg) toCodeExCode)[5]?.map (fun o : Op Arg => (o.name, o.operand, o.loc, o.handler))) =
    some ("POP_JUMP_FORWARD_IF_FALSE", .jump 10, ⟨some 6, some 6, some 2, some 4⟩, some ⟨12, true, 1⟩) := by
  decide +kernel

end Verif
