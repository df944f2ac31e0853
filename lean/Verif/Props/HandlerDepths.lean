import Verif.Proofs.ProgDepths
import Verif.Proofs.Joined
import Verif.Props.GraphCode
import Verif.Props.StackSizeEx
/-
C56: the stack depths of the handlers, from the graph to the code object.
-/
namespace Verif
open Spec
section
variable {κ : Type} [DecidableEq κ]
variable {P : Platform} {key : Arg → κ} {eff : Instr → Bool → Py (Int × Int)}

/-- **C56 (partial), `to_bytecode`.** When the regions of a graph with the same handler (and the same lasti flag) record the same
depth, the Bytecode that `to_bytecode` returns denotes the program of the graph, the depth of each handler included, although
regions are joined and their depths merged on the way. Missing: regions recording different depths, `C56_statement_false`. -/
theorem C56_to_bytecode_partial (hP : P.WF) (c : CFG) (b : Bytecode) (hn : c.blocks.Nodup) (hb : BlocksOnly c)
    (hv : ∀ i, .instr i ∈ allCode c → ValidInstr P i) (hw : WellTriedG none [] false (allCode c)) (hsd : SameDepth (allCode c))
    (h : c.toBytecode P = .ok b) :
    programB P key b = programG P key c ∧ handlersD b = handlersDG c :=
  have ho := (wellTriedG_ordered hw).1
  ⟨to_programD hP key hn hb hv ho hsd h, to_depths hn ho hsd h⟩

/-- **C56 (partial), `ControlFlowGraph.to_code`.** `c'` is the graph with the depths `compute_stacksize` gives (or the graph itself when
a stack size is given): when its regions with the same handler record the same depth, reading the code object as CPython does gives
the program of `c'`, each exception handler being started with the depth recorded in `c'`. -/
theorem C56_graph_code_partial (hP : P.WF) (h11 : P.py311 = true) (c : CFG) (co : Code) (stacksize : Option Int) (depths : Bool) (hn : c.blocks.Nodup)
    (hb : BlocksOnly c) (hv : ∀ i, .instr i ∈ allCode c → ValidInstr P i) (hcache : ∀ e ∈ allCode c, e.isCache = false)
    (hw : WellTriedG none [] false (allCode c)) (h : c.toCode P key eff stacksize depths = .ok co)
    (hok : ∀ i, .instr i ∈ allCode c → OperandOK P co.varnames i) :
    ∃ c', (stacksize = none → c.computeStacksize P eff depths = .ok (co.stacksize, c')) ∧ (stacksize ≠ none → c' = c) ∧
      (SameDepth (allCode c') → programCode P key co = (programG P key c').map (Op.mapLoc keptLoc)) := by
  unfold CFG.toCode at h
  obtain ⟨⟨n, c'⟩, hr, h⟩ := except_bind_ok h
  obtain ⟨b, hbc, h⟩ := except_bind_ok h
  have hd : DepthsOnly c c' := by
    split at hr
    · simp only [Except.ok.injEq, Prod.mk.injEq] at hr
      rw [← hr.2]; exact .refl c
    · exact computeStacksize_only hr
  have hmem : ∀ i, BElem.instr i ∈ allCode c' → BElem.instr i ∈ allCode c := by
    intro i hi
    have : BElem.instr i ∈ (allCode c').map eraseD := List.mem_map.2 ⟨_, hi, rfl⟩
    rw [flatMap_erase hd] at this
    obtain ⟨e, he, hx⟩ := List.mem_map.1 this
    cases e <;> simp [eraseD] at hx
    subst hx; exact he
  have hinstr : ∀ i, BElem.instr i ∈ b.elems → ∃ j, BElem.instr j ∈ allCode c ∧ i = { j with arg := argLab j.arg } := by
    intro i hi
    obtain ⟨j, hj, e⟩ := to_instr hbc hi
    exact ⟨j, hmem j hj, e⟩
  have hvb : ∀ i, BElem.instr i ∈ b.elems → ValidInstr P i := by
    intro i hi
    obtain ⟨j, hj, rfl⟩ := hinstr i hi
    exact valid_lab (hv j hj)
  have hcb : ∀ e ∈ b.elems, e.isCache = false := by
    intro e he
    cases e with
    | instr i =>
      obtain ⟨j, hj, rfl⟩ := hinstr i he
      have := hcache _ hj
      exact this
    | _ => rfl
  have hokb : ∀ i, BElem.instr i ∈ b.elems → OperandOK P co.varnames i := by
    intro i hi
    obtain ⟨j, hj, rfl⟩ := hinstr i hi
    have := hok j hj
    refine ⟨fun hc v hx => this.compare hc v ?_, fun hc x y hx => this.dual hc x y ?_⟩ <;>
    · cases ha : j.arg <;> simp only [ha, argLab] at hx <;> cases hx
      rfl
  obtain ⟨ho, hs⟩ := wellTriedG_ordered hw
  have ho' : Ordered (allCode c') := ordered_marks (marks_only hd).symm ho
  have hs' : stW nextId none (allCode c') = none := by
    have := stW_marks (marks_only hd) (c := none) (c' := none) rfl
    rw [hs] at this
    cases hh : stW nextId none (allCode c') with
    | none => rfl
    | some t => rw [hh] at this; cases this
  have hn' : c'.blocks.Nodup := by rw [hd.blocks]; exact hn
  have hwb := to_well ho' hs' hbc
  unfold Bytecode.toCode at h
  simp only [Bool.and_false, Bool.false_eq_true, if_false] at h
  obtain ⟨cc, hcc, h⟩ := except_bind_ok h
  obtain ⟨p1, p2⟩ := convert_emit_program hP h11 hcb hvb hwb hcc h hokb
  refine ⟨c', ?_, ?_, ?_⟩
  · rintro rfl
    rw [p2]; exact hr
  · intro hne
    cases stacksize with
    | none => exact absurd rfl hne
    | some m =>
      simp only [Except.ok.injEq, Prod.mk.injEq] at hr
      exact hr.2.symm
  · intro hsd
    rw [p1, to_programD hP key hn' (blocksOnly_only hd hb) (fun i hi => hv i (hmem i hi)) ho' hsd hbc]

/-- **C56 (partial), `Bytecode.to_code`.** With the default options: `g'` is the graph of the Bytecode with the depths
`compute_stacksize` gives, `b'` the Bytecode made from it, whose program, depths included, is the one the code object denotes. When
the regions of `g'` with the same handler record the same depth, the handlers of `b'` have the depths recorded in `g'`. -/
theorem C56_to_code_partial (hP : P.WF) (h11 : P.py311 = true) (b : Bytecode) (co : Code) (passes : Nat) (stacksize : Option Int) (depths : Bool)
    (hd : depths = true ∨ stacksize = none) (hcache : ∀ e ∈ b.elems, e.isCache = false) (hv : ∀ i, .instr i ∈ b.elems → ValidInstr P i)
    (hl : LabelsOnly b) (hw : WellTried none [] false b.elems) (h : b.toCode P key eff passes stacksize depths = .ok co)
    (hok : ∀ i, .instr i ∈ b.elems → OperandOK P co.varnames i) :
    ∃ (g g' : CFG) (b' : Bytecode), fromBytecode P b = .ok g ∧ g.computeStacksize P eff depths = .ok (co.stacksize, g') ∧
      programCode P key co = (programB P key b').map (Op.mapLoc keptLoc) ∧ codeB b' = codeB b ∧
      (SameDepth (allCode g') → handlersD b' = handlersDG g') := by
  obtain ⟨g, g', n, b', h1, h2, h3, h4, h5, h6, h7, h8, h9⟩ := C48_default hP h11 hd hcache hv hl hw h hok
  have hdo := computeStacksize_only h2
  refine ⟨g, g', b', h1, by rw [h9]; exact h2, h8, h4, fun hsd => ?_⟩
  have hn' : g'.blocks.Nodup := by rw [hdo.blocks]; exact (C26_from P b g hl h1).2.2.2.1
  exact to_depths hn' (ordered_marks (marks_only hdo).symm (from_tries hw h1).1) hsd h3

/-- **C56, `to_bytecode`, exactly.** For every graph with well-formed try markers, whatever the depths recorded: the handler of each instruction of the
Bytecode has the target and the flag it has in the graph, and the depth of the joined pieces, `Spec/Joined`. -/
theorem C56_joined (c : CFG) (b : Bytecode) (hn : c.blocks.Nodup) (hw : WellTriedG none [] false (allCode c)) (h : c.toBytecode P = .ok b) :
    handlersD b = handlersJ c :=
  to_joined hn (wellTriedG_ordered hw).1 h

/-- **C56, `Bytecode.to_code`, exactly.** As `C56_to_code_partial`, for every depth that `compute_stacksize` records. -/
theorem C56_to_code_joined (hP : P.WF) (h11 : P.py311 = true) (b : Bytecode) (co : Code) (passes : Nat) (stacksize : Option Int) (depths : Bool)
    (hd : depths = true ∨ stacksize = none) (hcache : ∀ e ∈ b.elems, e.isCache = false) (hv : ∀ i, .instr i ∈ b.elems → ValidInstr P i)
    (hl : LabelsOnly b) (hw : WellTried none [] false b.elems) (h : b.toCode P key eff passes stacksize depths = .ok co)
    (hok : ∀ i, .instr i ∈ b.elems → OperandOK P co.varnames i) :
    ∃ (g g' : CFG) (b' : Bytecode), fromBytecode P b = .ok g ∧ g.computeStacksize P eff depths = .ok (co.stacksize, g') ∧
      programCode P key co = (programB P key b').map (Op.mapLoc keptLoc) ∧ codeB b' = codeB b ∧ handlersD b' = handlersJ g' := by
  obtain ⟨g, g', n, b', h1, h2, h3, h4, h5, h6, h7, h8, h9⟩ := C48_default hP h11 hd hcache hv hl hw h hok
  have hdo := computeStacksize_only h2
  refine ⟨g, g', b', h1, by rw [h9]; exact h2, h8, h4, ?_⟩
  have hn' : g'.blocks.Nodup := by rw [hdo.blocks]; exact (C26_from P b g hl h1).2.2.2.1
  exact to_joined hn' (ordered_marks (marks_only hdo).symm (from_tries hw h1).1) h3

end

/-! ### A concrete case -/

/-- A region in three pieces, one after the other, with depths 5, 3 and 4: joined, they have depth 3. A region in two pieces: the smaller depth. An
instruction between two regions: they are not joined. -/
example (x : Instr) : guardsJ .out [.instr x, .tryBegin ⟨0, 9, true, some 5⟩, .instr x, .tryEnd 0, .tryBegin ⟨1, 9, true, some 3⟩, .instr x, .tryEnd 1,
      .tryBegin ⟨2, 9, true, some 4⟩, .instr x, .tryEnd 2, .instr x, .tryBegin ⟨3, 9, true, some 7⟩, .instr x, .tryEnd 3, .tryBegin ⟨4, 9, true, some 6⟩, .instr x] =
    [none, some (9, true, some 3), some (9, true, some 3), some (9, true, some 3), none, some (9, true, some 6), some (9, true, some 6)] := rfl

def sameDepthB (es : List BElem) : Bool := es.all (fun
  | .tryBegin t => es.all (fun
    | .tryBegin u => !(t.target == u.target && t.lasti == u.lasti) || t.depth == u.depth
    | _ => true)
  | _ => true)

theorem sameDepth_of {es : List BElem} (h : sameDepthB es = true) : SameDepth es := by
  intro t u ht hu h1 h2
  have a := List.all_eq_true.1 h _ ht
  have b := List.all_eq_true.1 a _ hu
  simpa [h1, h2] using b

/-- The hypotheses are met: reading the code object of `graphEx` gives the program of the graph with the depths computed. -/
example : ∃ c', graphEx.computeStacksize Py311.platform eff311 true = .ok (4, c') ∧
    programCode Py311.platform (id : Arg → Arg) graphExCode = (programG Py311.platform (id : Arg → Arg) c').map (Op.mapLoc keptLoc) := by
  have hmem : ∀ b ∈ graphEx.blocks, ∀ i, BElem.instr i ∈ (graphEx.heap b).elems → BElem.instr i ∈ allCode graphEx :=
    fun b hb i hi => List.mem_flatMap.2 ⟨b, hb, hi⟩
  obtain ⟨c', h1, _, h3⟩ := C56_graph_code_partial Py311.wf (by decide) graphEx graphExCode none true (by decide) (by
      intro b hb i hi l hl
      have h1 : (allCode graphEx).all (fun e => match e with
        | .instr i => (match i.arg with | .label _ => false | _ => true)
        | _ => true) = true := by decide +kernel
      have := List.all_eq_true.1 h1 _ (hmem b hb i hi)
      simp only [hl] at this
      cases this) (made_valid Py311.wf (es := allCode graphEx) (by decide +kernel))
    (noCache_spec (es := allCode graphEx) (by decide +kernel)) (by decide +kernel) graphEx_code (by
      intro i hi
      have h1 : (allCode graphEx).all (fun e => match e with
        | .instr i => !Py311.platform.hascompare i.opcode && !Py311.platform.dual i.opcode
        | _ => true) = true := by decide +kernel
      have := List.all_eq_true.1 h1 _ hi
      simp only [Bool.and_eq_true, Bool.not_eq_true'] at this
      exact ⟨(fun h => by rw [this.1] at h; cases h), (fun h => by rw [this.2] at h; cases h)⟩)
  have h1 := h1 rfl
  refine ⟨c', h1, h3 (sameDepth_of ?_)⟩
  have h2 : (graphEx.computeStacksize Py311.platform eff311 true).toOption.map (fun r => sameDepthB (allCode r.2)) = some true := by decide +kernel
  rw [h1] at h2
  simpa [Except.toOption] using h2

/-- A region cut in three by returns, no instruction of the second and third parts being reachable. -/
def deadTry : Bytecode where
  attrs := Attrs.default
  argnames := []
  elems := [i311 "LOAD_CONST" (.int 0), .tryBegin ⟨0, 9, false, none⟩, i311 "LOAD_CONST" (.int 1), i311 "RETURN_VALUE", i311 "LOAD_CONST" (.int 2), i311 "RETURN_VALUE",
    i311 "LOAD_CONST" (.int 3), i311 "RETURN_VALUE", .tryEnd 0, .label 9, i311 "PUSH_EXC_INFO", i311 "POP_TOP", i311 "RERAISE" (.int 0)]

/-- The depths are not always those of the graph: `compute_stacksize` gives depth 1 to the part of the region of `deadTry` that
can be executed, and 32768 to the two parts that cannot; `to_bytecode` joins the three, and keeps 32768, the minimum for the last two,
for the whole region: the handler of `LOAD_CONST 1` is to be started with 32768 values, when the stack size is 3. -/
theorem C56_statement_false : WellTried none [] false deadTry.elems ∧
    ((fromBytecode Py311.platform deadTry).toOption.bind (fun g => (g.computeStacksize Py311.platform eff311 true).toOption)).map
      (fun r => decide (r.1 = 3 ∧ (handlersDG r.2)[1]? = some (some (some 7, false, some 1)))) = some true ∧
    (deadTry.sized Py311.platform eff311 true).toOption.map (fun r => decide (r.1 = 3 ∧ (handlersD r.2)[1]? = some (some (some 7, false, some 32768)))) = some true := by
  refine ⟨by decide +kernel, by decide +kernel, by decide +kernel⟩

end Verif
