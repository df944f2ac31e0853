import Verif.Proofs.OldProgram
import Verif.Props.ToCode
import Verif.Instances.Py39
/-
C63: the program of the code object written by `to_code` on 3.8 to 3.10.
-/
namespace Verif
open Spec
section
variable {κ : Type} [DecidableEq κ]
variable {P : Platform} {key : Arg → κ} {b : Bytecode} {c : Concrete} {T : Tabs} {M : List Cell}

theorem cachesOK_old (h11 : P.py311 = false) (l : List CInstr) (h : CachesOK P 0 l) : ∀ i ∈ l, i.name ≠ "CACHE" := by
  induction l with
  | nil => simp
  | cons i l ih =>
    obtain ⟨h1, h2⟩ := h
    have : cachesOf P i = 0 := by simp [cachesOf, h11]
    rw [this] at h2
    intro j hj
    rcases List.mem_cons.1 hj with rfl | hj
    · exact h1
    · exact ih h2 j hj

theorem Final.noCacheName (h11 : P.py311 = false) (h : Final P key b c T M) : ∀ i ∈ code P M, i.name ≠ "CACHE" := by
  have hc := h.caches
  rw [h.elems, instrsOf_map] at hc
  exact cachesOK_old h11 _ hc

/-- Before 3.13 an instruction is one operation. -/
theorem opsI_lines (h13 : P.py313 = false) (l : List CInstr) (hn : ∀ i ∈ l, i.name ≠ "CACHE") (hl : ∀ i ∈ l, ∃ x, i.loc = some x) : ∀ cur,
    (opsI P key c cur l).map (fun o => o.loc.lineno) = l.map (fun i => i.loc.bind (·.lineno)) := by
  induction l with
  | nil => intro cur; rfl
  | cons i l ih =>
    intro cur
    rw [opsI, List.map_append, ih (fun x hx => hn x (by simp [hx])) (fun x hx => hl x (by simp [hx]))]
    have hlen := expand_length_C (P := P) (key := key) (c := c) ((i.getJumpTarget P cur).bind (fun t => opAt P t 0 0 c.elems)) i
    have h1 : opCount P i.name i.opcode = 1 := by
      unfold opCount; rw [if_neg (hn i (by simp))]; simp [Platform.dual, Platform.dualSingles, h13]
    rw [h1] at hlen
    obtain ⟨p, hp⟩ := List.length_eq_one_iff.1 hlen
    obtain ⟨x, hx⟩ := hl i (by simp)
    rw [hp]
    simp [hx]

theorem extNeeded_le3 {a : Nat} (h : a ≤ 2147483647) : extNeeded a ≤ 3 := by
  rw [extNeeded]; split
  · omega
  rw [extNeeded]; split
  · omega
  rw [extNeeded]; split
  · omega
  rw [extNeeded]; split <;> omega

theorem Final.size8 (h : Final P key b c T M) : ∀ i ∈ code P M, i.size ≤ 8 := by
  intro i hi
  have hv := (h.readable i hi).valid
  rw [hv.size_eq, (h.plain i hi).1]
  cases ha : i.arg with
  | none =>
    have : extNeeded 0 = 0 := by rw [extNeeded]; simp
    simp [sizeFor, this]
  | some a =>
    have := extNeeded_le3 (hv.arg_range a ha)
    simp only [sizeFor, Option.getD_some]
    omega

omit [DecidableEq κ] in
theorem linesWritable_all {first : Nat} (ls : List (Option Nat)) (h : ∀ l ∈ ls, l ≠ none) : LinesWritable P first ls := by
  unfold LinesWritable
  split
  · have : ∀ prev, LinesKept prev 0 ls := by
      induction ls with
      | nil => intro _; trivial
      | cons l ls ih =>
        intro prev
        cases l with
        | none => exact absurd rfl (h none (by simp))
        | some n => exact ⟨.inl rfl, ih (fun x hx => h x (by simp [hx])) n⟩
    exact this first
  · exact h

/-- Conversion and writing before 3.11. -/
theorem convert_emit_old (hP : P.WF) (h11 : P.py311 = false) {passes : Nat} {n : Int} {co : Code} (hcache : ∀ e ∈ b.elems, e.isCache = false)
    (hv : ∀ i, .instr i ∈ b.elems → ValidInstr P i) (hw : WellTried none [] false b.elems)
    (h : toConcrete P key passes b = .ok c) (he : c.emit P n = .ok co) (hok : ∀ i, .instr i ∈ b.elems → OperandOK P co.varnames i) :
    (programOld P key co).map (fun o => (o.name, o.operand)) = (programB P key b).map (fun o => (o.name, o.operand)) ∧ co.stacksize = n ∧
    (LinesWritable P b.attrs.firstLineno ((programB P key b).map (·.loc.lineno)) → programOld P key co = (programB P key b).map Op.lineOnly) := by
  obtain ⟨T, M, hF⟩ := toConcrete_Final hP hcache hv h
  obtain ⟨_, _, _, h4, _, _, _, h8, _⟩ := emit_old h11 he
  rw [h4] at hok
  have hp := C45_program_preserved hP hcache hv h hok hw
  refine ⟨?_, h8, ?_⟩
  · rw [emit_program_old_noloc hP h11 key he (code P M) hF.elems hF.readable (hF.noCacheName h11), hp]
  · intro hl
    have hloc : ∀ i ∈ code P M, ∃ l, i.loc = some l := fun i hi => (hF.plain i hi).2.1
    rw [emit_program_old hP h11 key he (code P M) hF.elems hF.readable hF.size8 (hF.noCacheName h11) hloc ?_, hp]
    have h13 : P.py313 = false := by simp [Platform.py313, Platform.py311] at *; omega
    rw [← opsI_lines (P := P) (key := key) (c := c) h13 (code P M) (hF.noCacheName h11) hloc 0, ← opsC_opsI _ (code_loc M) c.attrs.firstLineno, ← hF.elems]
    rw [← hp] at hl
    rw [hF.attrs] at *
    have e : programC P key c = opsC P key c c.attrs.firstLineno 0 c.elems := rfl
    rw [hF.attrs] at e
    rw [e] at hl
    exact hl

omit [DecidableEq κ] in
theorem opsB_zero {β : Type} (f : Op κ → β) (hf : ∀ o h, f { o with handler := h } = f o) (tgt : Nat → Option Nat) (es : List BElem) :
    ∀ (loc : Loc) (tr tr' : Option TryB), (opsB P key tgt loc tr (es.map zeroDepth)).map f = (opsB P key tgt loc tr' es).map f := by
  induction es with
  | nil => intro _ _ _; rfl
  | cons e es ih =>
    intro loc tr tr'
    cases e with
    | instr i =>
      simp only [List.map_cons, zeroDepth, opsB, List.map_append, ih _ tr tr', List.map_map]
      congr 1
      apply List.map_congr_left
      intro p _
      simp only [Function.comp]
      rw [← hf ⟨p.1, p.2, i.loc.getD loc, tr.bind (handlerB tgt)⟩ none, ← hf ⟨p.1, p.2, i.loc.getD loc, tr'.bind (handlerB tgt)⟩ none]
    | _ => exact ih _ _ _

omit [DecidableEq κ] in
theorem labelPos_zero (l : Nat) (es : List BElem) : ∀ n, labelPos P l n (es.map zeroDepth) = labelPos P l n es := by
  induction es with
  | nil => intro _; rfl
  | cons e es ih => intro n; cases e <;> simp only [List.map_cons, zeroDepth, labelPos, ih]

omit [DecidableEq κ] in
theorem programB_zero {β : Type} (f : Op κ → β) (hf : ∀ o h, f { o with handler := h } = f o) :
    (programB P key (zeroDepths b)).map f = (programB P key b).map f := by
  have : (fun l => labelPos P l 0 (zeroDepths b).elems) = fun l => labelPos P l 0 b.elems := funext fun l => labelPos_zero l b.elems 0
  unfold programB
  rw [this]
  exact opsB_zero f hf _ _ _ _ _

/-- Through the graph. -/
theorem sized_emit_old (hP : P.WF) (h11 : P.py311 = false) {eff : Instr → Bool → Py (Int × Int)} {passes : Nat} {depths : Bool} {n : Int} {b' : Bytecode} {co : Code}
    (hcache : ∀ e ∈ b.elems, e.isCache = false) (hv : ∀ i, .instr i ∈ b.elems → ValidInstr P i) (hl : LabelsOnly b)
    (hw : WellTried none [] false b.elems) (hs : b.sized P eff depths = .ok (n, b')) (h : toConcrete P key passes b' = .ok c)
    (he : c.emit P n = .ok co) (hok : ∀ i, .instr i ∈ b.elems → OperandOK P co.varnames i) :
    (programOld P key co).map (fun o => (o.name, o.operand)) = (programB P key (zeroDepths b)).map (fun o => (o.name, o.operand)) ∧ co.stacksize = n ∧
    (LinesWritable P b.attrs.firstLineno ((programB P key b).map (·.loc.lineno)) → programOld P key co = (programB P key (zeroDepths b)).map Op.lineOnly) := by
  obtain ⟨h1, h2, h3, _, h5, h6, _⟩ := sized_spec hl hw hs
  have hv' := valid_same hl h1 h6 hv
  obtain ⟨p1, p2, p3⟩ := convert_emit_old hP h11 (noCache_same hl h1 h6 hcache) hv' h5 h he (operandOK_same hl h1 h6 hok)
  have hsame := program_same hP key b b' hv hl hv' (fun i hi x => by
    obtain ⟨_, _, _, _, _, _, hx⟩ := item_instr hl h1 h6 hi
    exact hx x) (toConcrete_depths h) h1 h2 (by rw [h3])
  rw [← hsame, List.map_map, List.map_map]
  refine ⟨p1, p2, fun hli => p3 ?_⟩
  have hpa := congrArg (List.map (fun o : Op κ => o.loc.lineno)) hsame
  simp only [List.map_map] at hpa
  rw [programB_zero _ (fun _ _ => rfl)] at hpa
  rw [h3, show (programB P key b').map (fun o => o.loc.lineno) = (programB P key b).map (fun o => o.loc.lineno) from hpa]
  exact hli

variable {eff : Instr → Bool → Py (Int × Int)} {passes : Nat} {co : Code}

theorem toCode_old (hP : P.WF) (h11 : P.py311 = false) {stacksize : Option Int} {depths : Bool}
    (hcache : ∀ e ∈ b.elems, e.isCache = false) (hv : ∀ i, .instr i ∈ b.elems → ValidInstr P i) (hl : LabelsOnly b)
    (hw : WellTried none [] false b.elems) (h : b.toCode P key eff passes stacksize depths = .ok co)
    (hok : ∀ i, .instr i ∈ b.elems → OperandOK P co.varnames i) :
    (programOld P key co).map (fun o => (o.name, o.operand)) = (programB P key b).map (fun o => (o.name, o.operand)) ∧
    (LinesWritable P b.attrs.firstLineno ((programB P key b).map (·.loc.lineno)) → programOld P key co = (programB P key b).map Op.lineOnly) ∧
    (∀ n, stacksize = some n → co.stacksize = n) ∧
    (stacksize = none → ∃ (g g' : CFG), fromBytecode P b = .ok g ∧ g.computeStacksize P eff depths = .ok (co.stacksize, g')) := by
  unfold Bytecode.toCode at h
  rw [h11] at h
  simp only [Bool.false_and, Bool.false_eq_true, if_false] at h
  cases stacksize with
  | some n =>
    simp only at h
    obtain ⟨c, hc, h⟩ := except_bind_ok h
    obtain ⟨p1, p2, p3⟩ := convert_emit_old hP h11 hcache hv hw hc h hok
    exact ⟨p1, p3, fun m hm => by cases hm; exact p2, by simp⟩
  | none =>
    simp only at h
    obtain ⟨⟨n, b'⟩, hr, h⟩ := except_bind_ok h
    obtain ⟨c, hc, h⟩ := except_bind_ok h
    obtain ⟨p1, p2, p3⟩ := sized_emit_old hP h11 hcache hv hl hw hr hc h hok
    obtain ⟨_, _, _, _, _, _, g, g', h7, h8, _⟩ := sized_spec hl hw hr
    refine ⟨?_, fun hli => ?_, by simp, fun _ => ⟨g, g', h7, by rw [p2]; exact h8⟩⟩
    · rw [p1, programB_zero _ (fun _ _ => rfl)]
    · rw [p3 hli, programB_zero _ (fun _ _ => rfl)]

/-- **C63.** On 3.8 to 3.10, whatever the options of `Bytecode.to_code`, the code object it returns denotes the program of
the Bytecode: reading the bytes and tables of the code object as CPython does gives the operations of the Bytecode in
order, with the same names, operands and targets of jumps (in bytes before 3.10, in code units on 3.10). -/
theorem C63_to_code_operations (hP : P.WF) (h11 : P.py311 = false) {stacksize : Option Int} {depths : Bool}
    (hcache : ∀ e ∈ b.elems, e.isCache = false) (hv : ∀ i, .instr i ∈ b.elems → ValidInstr P i) (hl : LabelsOnly b)
    (hw : WellTried none [] false b.elems) (h : b.toCode P key eff passes stacksize depths = .ok co)
    (hok : ∀ i, .instr i ∈ b.elems → OperandOK P co.varnames i) :
    (programOld P key co).map (fun o => (o.name, o.operand)) = (programB P key b).map (fun o => (o.name, o.operand)) :=
  (toCode_old hP h11 hcache hv hl hw h hok).1

/-- **C63 (lines).** The table of lines of the code object (`co_lnotab` before 3.10, `co_linetable` on 3.10) also gives each
operation its line, or none, when the lines are writable: before 3.10 each operation has a line; on 3.10 at most 31 operations in a
row have no line, and the line after such a run is not the one before it. (Otherwise lines can be wrong: C05, C06, `C65_line_lost`.) -/
theorem C63_to_code_lines (hP : P.WF) (h11 : P.py311 = false) {stacksize : Option Int} {depths : Bool}
    (hcache : ∀ e ∈ b.elems, e.isCache = false) (hv : ∀ i, .instr i ∈ b.elems → ValidInstr P i) (hl : LabelsOnly b)
    (hw : WellTried none [] false b.elems) (h : b.toCode P key eff passes stacksize depths = .ok co)
    (hok : ∀ i, .instr i ∈ b.elems → OperandOK P co.varnames i)
    (hline : LinesWritable P b.attrs.firstLineno ((programB P key b).map (·.loc.lineno))) :
    programOld P key co = (programB P key b).map Op.lineOnly :=
  (toCode_old hP h11 hcache hv hl hw h hok).2.1 hline

omit [DecidableEq κ] in
theorem opsB_lines (tgt : Nat → Option Nat) (es : List BElem) (hl : ∀ i, .instr i ∈ es → ∀ l, i.loc = some l → l.lineno ≠ none) :
    ∀ (loc : Loc) (tr : Option TryB), loc.lineno ≠ none → ∀ o ∈ opsB P key tgt loc tr es, o.loc.lineno ≠ none := by
  induction es with
  | nil => intro loc tr _ o ho; cases ho
  | cons e es ih =>
    intro loc tr h o ho
    have ih' := ih (fun i hi => hl i (by simp [hi]))
    cases e with
    | instr i =>
      have hg : (i.loc.getD loc).lineno ≠ none := by
        cases hi : i.loc with
        | none => exact h
        | some l => exact hl i (by simp) l hi
      rw [opsB, List.mem_append] at ho
      rcases ho with ho | ho
      · obtain ⟨p, _, rfl⟩ := List.mem_map.1 ho
        exact hg
      · exact ih' _ _ hg o ho
    | label x => exact ih' loc tr h o ho
    | setLineno n => exact ih' _ tr (by simp [Loc.line]) o ho
    | tryBegin t => exact ih' loc _ h o ho
    | tryEnd t => exact ih' loc _ h o ho

/-- **C63 (all lines).** In particular, when every location of the Bytecode has a line. -/
theorem C63_to_code_all_lines (hP : P.WF) (h11 : P.py311 = false) {stacksize : Option Int} {depths : Bool}
    (hcache : ∀ e ∈ b.elems, e.isCache = false) (hv : ∀ i, .instr i ∈ b.elems → ValidInstr P i) (hl : LabelsOnly b)
    (hw : WellTried none [] false b.elems) (h : b.toCode P key eff passes stacksize depths = .ok co)
    (hok : ∀ i, .instr i ∈ b.elems → OperandOK P co.varnames i)
    (hline : ∀ i, .instr i ∈ b.elems → ∀ l, i.loc = some l → l.lineno ≠ none) :
    programOld P key co = (programB P key b).map Op.lineOnly := by
  refine C63_to_code_lines hP h11 hcache hv hl hw h hok (linesWritable_all _ ?_)
  intro l hl
  obtain ⟨o, ho, rfl⟩ := List.mem_map.1 hl
  exact opsB_lines _ b.elems hline _ none (by simp [Loc.line]) o ho

/-- **C63 (stack size).** The stack size of the code object is the one given, or the one computed on the graph. -/
theorem C63_stacksize (hP : P.WF) (h11 : P.py311 = false) {stacksize : Option Int} {depths : Bool}
    (hcache : ∀ e ∈ b.elems, e.isCache = false) (hv : ∀ i, .instr i ∈ b.elems → ValidInstr P i) (hl : LabelsOnly b)
    (hw : WellTried none [] false b.elems) (h : b.toCode P key eff passes stacksize depths = .ok co)
    (hok : ∀ i, .instr i ∈ b.elems → OperandOK P co.varnames i) :
    (∀ n, stacksize = some n → co.stacksize = n) ∧
    (stacksize = none → ∃ (g g' : CFG), fromBytecode P b = .ok g ∧ g.computeStacksize P eff depths = .ok (co.stacksize, g')) :=
  (toCode_old hP h11 hcache hv hl hw h hok).2.2
end

/-! ### A concrete case, on 3.9 and 3.10 -/

/-- A loop, a block set up by SETUP_FINALLY, an argument over 255, cell, free, local and global variables; lines go up and
down, and by more than 127. -/
def oldEx (P : Platform) : Bytecode where
  attrs := { Attrs.default with firstLineno := 10, cellvars := ["c", "a"], freevars := ["f"] }
  argnames := ["a"]
  elems := [ins P "LOAD_CONST" (.int 7) (some (Loc.line (some 11))), .label 7, .setLineno 300,
    ins P "UNPACK_SEQUENCE" (.int 300), ins P "STORE_FAST" (.str "b"), ins P "LOAD_CONST" (.str "x") (some (Loc.line (some 12))),
    ins P "COMPARE_OP" (.compare 2), ins P "POP_JUMP_IF_FALSE" (.label 8), .setLineno 13, ins P "SETUP_FINALLY" (.label 9),
    ins P "LOAD_GLOBAL" (.str "print"), ins P "POP_TOP", ins P "POP_BLOCK", ins P "JUMP_ABSOLUTE" (.label 7), .label 8,
    ins P "LOAD_DEREF" (.free "f"), ins P "RETURN_VALUE", .label 9, ins P "LOAD_CLOSURE" (.cell "a"), ins P "RETURN_VALUE"]

/-- Its code object on 3.9: jumps in bytes, `co_lnotab`. -/
def oldEx39 : Code where
  argcount := 0
  posonlyargcount := 0
  kwonlyargcount := 0
  nlocals := 2
  stacksize := 305
  flags := 0
  code := [100, 0, 144, 1, 92, 44, 125, 1, 100, 1, 107, 2, 114, 24, 122, 12, 116, 0, 1, 0, 87, 0, 113, 2, 136, 2, 83, 0, 135, 1, 83, 0]
  consts := [.int 7, .str "x"]
  names := ["print"]
  varnames := ["a", "b"]
  filename := "<string>"
  name := "<module>"
  qualname := "<module>"
  firstlineno := 10
  linetable := [0, 1, 2, 127, 0, 127, 0, 35, 6, 128, 0, 128, 0, 224, 6, 1]
  exctable := []
  freevars := ["f"]
  cellvars := ["c", "a"]

/-- Its code object on 3.10: jumps in code units, `co_linetable`. -/
def oldEx310 : Code where
  argcount := 0
  posonlyargcount := 0
  kwonlyargcount := 0
  nlocals := 2
  stacksize := 305
  flags := 0
  code := [100, 0, 144, 1, 92, 44, 125, 1, 100, 1, 107, 2, 114, 12, 122, 6, 116, 0, 1, 0, 87, 0, 113, 1, 136, 2, 83, 0, 135, 1, 83, 0]
  consts := [.int 7, .str "x"]
  names := ["print"]
  varnames := ["a", "b"]
  filename := "<string>"
  name := "<module>"
  qualname := "<module>"
  firstlineno := 10
  linetable := [2, 1, 0, 127, 0, 127, 6, 35, 0, 129, 0, 129, 6, 222, 18, 1]
  exctable := []
  freevars := ["f"]
  cellvars := ["c", "a"]

theorem oldEx_code : (oldEx Py39.platform).toCode Py39.platform (id : Arg → Arg) (effOf Py39.platform true) = .ok oldEx39 ∧
    (oldEx Py310.platform).toCode Py310.platform (id : Arg → Arg) (effOf Py310.platform true) = .ok oldEx310 :=
  ⟨toOption_ok (by decide +kernel), toOption_ok (by decide +kernel)⟩

theorem oldEx_fits {P : Platform} (vs : List String) {es : List BElem} (h : es.all (fun e => match e with
      | .instr i => (match i.arg with | .compare v => decide (v ≤ 5) | _ => true) && !P.dual i.opcode
      | _ => true) = true) : ∀ i, .instr i ∈ es → OperandOK P vs i := by
  intro i hi
  have := List.all_eq_true.1 h _ hi
  simp only [Bool.and_eq_true, Bool.not_eq_true'] at this
  refine ⟨fun _ v hv => .inl ?_, fun h => by rw [this.2] at h; simp at h⟩
  have h3 := this.1
  rw [hv] at h3
  simpa using h3

example : programOld Py39.platform (id : Arg → Arg) oldEx39 = (programB Py39.platform (id : Arg → Arg) (oldEx Py39.platform)).map Op.lineOnly :=
  C63_to_code_lines Py39.wf (by decide) (noCache_spec (by decide +kernel)) (made_valid Py39.wf (by decide +kernel)) (labelsOnly_of (by decide +kernel))
    (by decide +kernel) oldEx_code.1 (oldEx_fits _ (by decide +kernel)) (by decide +kernel)

example : programOld Py310.platform (id : Arg → Arg) oldEx310 = (programB Py310.platform (id : Arg → Arg) (oldEx Py310.platform)).map Op.lineOnly :=
  C63_to_code_lines Py310.wf (by decide) (noCache_spec (by decide +kernel)) (made_valid Py310.wf (by decide +kernel)) (labelsOnly_of (by decide +kernel))
    (by decide +kernel) oldEx_code.2 (oldEx_fits _ (by decide +kernel)) (by decide +kernel)

/-- What the code objects say: the jump back goes to the second operation, whose line is 300. -/
example : ((programOld Py39.platform (id : Arg → Arg) oldEx39)[10]?.map (fun o : Op Arg => (o.name, o.operand, o.loc.lineno))) = some ("JUMP_ABSOLUTE", .jump 1, some 13) ∧
    ((programOld Py310.platform (id : Arg → Arg) oldEx310)[1]?.map (fun o : Op Arg => (o.name, o.operand, o.loc.lineno))) = some ("UNPACK_SEQUENCE", .int 300, some 300) := by
  decide +kernel

end Verif
