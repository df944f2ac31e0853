import Verif.Proofs.GraphProgram
import Verif.Props.ToCode
/-
C54: the program of the code object written by `ControlFlowGraph.to_code`.
-/
namespace Verif
open Spec
section
variable {κ : Type} [DecidableEq κ]
variable {P : Platform} {key : Arg → κ} {eff : Instr → Bool → Py (Int × Int)} {c : CFG} {co : Code}

/-- **C54.** On 3.11+, whatever the options of `ControlFlowGraph.to_code`, the code object it returns denotes the program of the
graph: reading the bytes and tables of the code object as CPython does gives the operations of the blocks, one block after the
other, with the same names, operands, locations (as code objects keep them), jumps and handlers to the same blocks, the depths of
handlers apart; and its stack size is the one given, or the one `compute_stacksize` gives. The graph has been made and edited by any
means, has no manual CACHE, and its try markers delimit regions. -/
theorem C54_to_code (hP : P.WF) (h11 : P.py311 = true) {stacksize : Option Int} {depths : Bool} (hn : c.blocks.Nodup) (hb : BlocksOnly c)
    (hv : ∀ i, .instr i ∈ allCode c → ValidInstr P i) (hcache : ∀ e ∈ allCode c, e.isCache = false)
    (hw : WellTriedG none [] false (allCode c)) (h : c.toCode P key eff stacksize depths = .ok co)
    (hok : ∀ i, .instr i ∈ allCode c → OperandOK P co.varnames i) :
    (programCode P key co).map Op.noDepth = (programG P key (zeroDepthsG c)).map (Op.mapLoc keptLoc) ∧
    (∀ n, stacksize = some n → co.stacksize = n) ∧
    (stacksize = none → ∃ c', c.computeStacksize P eff depths = .ok (co.stacksize, c')) := by
  unfold CFG.toCode at h
  obtain ⟨⟨n, c'⟩, hr, h⟩ := except_bind_ok h
  obtain ⟨b, hbc, h⟩ := except_bind_ok h
  have hd : DepthsOnly c c' := by
    split at hr
    · simp only [Except.ok.injEq, Prod.mk.injEq] at hr
      rw [← hr.2]; exact .refl c
    · exact computeStacksize_only hr
  -- the graph with the depths
  have hmem : ∀ i, BElem.instr i ∈ allCode c' → BElem.instr i ∈ allCode c := by
    intro i hi
    have : BElem.instr i ∈ (allCode c').map eraseD := List.mem_map.2 ⟨_, hi, rfl⟩
    rw [flatMap_erase hd] at this
    obtain ⟨e, he, hx⟩ := List.mem_map.1 this
    cases e <;> simp [eraseD] at hx
    subst hx; exact he
  have hinstr : ∀ i, BElem.instr i ∈ b.elems → ∃ j, BElem.instr j ∈ allCode c ∧ i = { j with arg := argLab j.arg } := by
    intro i hi
    obtain ⟨j, hj, e⟩ := to_instr hbc hi
    exact ⟨j, hmem j hj, e⟩
  have hvb : ∀ i, BElem.instr i ∈ b.elems → ValidInstr P i := by
    intro i hi
    obtain ⟨j, hj, rfl⟩ := hinstr i hi
    exact valid_lab (hv j hj)
  have hlb : LabelsOnly b := by
    intro i hi x hx
    obtain ⟨j, hj, rfl⟩ := hinstr i hi
    have hx' : argLab j.arg = .block x := hx
    cases ha : j.arg <;> rw [ha] at hx' <;> cases hx'
  have hcb : ∀ e ∈ b.elems, e.isCache = false := by
    intro e he
    cases e with
    | instr i =>
      obtain ⟨j, hj, rfl⟩ := hinstr i he
      have := hcache _ hj
      exact this
    | _ => rfl
  have hokb : ∀ i, BElem.instr i ∈ b.elems → OperandOK P co.varnames i := by
    intro i hi
    obtain ⟨j, hj, rfl⟩ := hinstr i hi
    have := hok j hj
    refine ⟨fun hc v hx => this.compare hc v ?_, fun hc x y hx => this.dual hc x y ?_⟩ <;>
    · cases ha : j.arg <;> simp only [ha, argLab] at hx <;> cases hx
      rfl
  obtain ⟨ho, hs⟩ := wellTriedG_ordered hw
  have ho' : Ordered (allCode c') := ordered_marks (marks_only hd).symm ho
  have hs' : stW nextId none (allCode c') = none := by
    have := stW_marks (marks_only hd) (c := none) (c' := none) rfl
    rw [hs] at this
    cases hh : stW nextId none (allCode c') with
    | none => rfl
    | some t => rw [hh] at this; cases this
  have hn' : c'.blocks.Nodup := by rw [hd.blocks]; exact hn
  have hwb := to_well ho' hs' hbc
  obtain ⟨b1, b2, _⟩ := C26_to P c' b hn' (blocksOnly_only hd hb) hbc
  have b4 := to_tries hn' ho' hbc
  unfold Bytecode.toCode at h
  simp only [Bool.and_false, Bool.false_eq_true, if_false] at h
  obtain ⟨cc, hcc, h⟩ := except_bind_ok h
  obtain ⟨p1, p2⟩ := convert_emit_program hP h11 hcb hvb hwb hcc h hokb
  refine ⟨?_, ?_, ?_⟩
  · have hp := program_items hP key b hvb hlb (toConcrete_depths hcc)
    rw [b1, b4, b2, codeG_only hd, handlersG_only hd, hd.attrs, ← programG_zero hP key c hv hb] at hp
    rw [p1, ← hp, List.map_map, List.map_map]
    rfl
  · rintro m rfl
    simp only [Except.ok.injEq, Prod.mk.injEq] at hr
    rw [p2, hr.1]
  · rintro rfl
    exact ⟨c', by rw [p2]; exact hr⟩

end

/-! ### A concrete case -/

/-- 3.11: four blocks, a loop, a protected region ending in two blocks, its handler; the depth of the handler is not set. -/
def graphEx : CFG := mkCFG [
  ⟨[ins Py311.platform "RESUME" (.int 0) (some (Loc.line (some 4))), .setLineno 5, .tryBegin ⟨0, 3, true, none⟩,
    ins Py311.platform "LOAD_GLOBAL" (.tuple [.bool true, .str "print"]), ins Py311.platform "LOAD_FAST" (.str "b") (some ⟨some 6, some 6, some 2, some 4⟩),
    ins Py311.platform "POP_JUMP_FORWARD_IF_FALSE" (.block 2)], some 1⟩,
  ⟨[ins Py311.platform "POP_TOP", ins Py311.platform "POP_TOP", .tryEnd 0, ins Py311.platform "JUMP_BACKWARD" (.block 0)], none⟩,
  ⟨[.tryEnd 0, ins Py311.platform "LOAD_CONST" (.int 7), ins Py311.platform "RETURN_VALUE"], none⟩,
  ⟨[ins Py311.platform "PUSH_EXC_INFO", ins Py311.platform "LOAD_CONST" (.str "doc"), ins Py311.platform "RETURN_VALUE"], none⟩]

/-- Its Bytecode, with the depth computed. -/
def graphExBytecode : Bytecode where
  attrs := Attrs.default
  argnames := []
  elems := [.label 0, ins Py311.platform "RESUME" (.int 0) (some (Loc.line (some 4))), .setLineno 5, .tryBegin ⟨0, 3, true, some 0⟩,
    ins Py311.platform "LOAD_GLOBAL" (.tuple [.bool true, .str "print"]), ins Py311.platform "LOAD_FAST" (.str "b") (some ⟨some 6, some 6, some 2, some 4⟩),
    ins Py311.platform "POP_JUMP_FORWARD_IF_FALSE" (.label 2), ins Py311.platform "POP_TOP", ins Py311.platform "POP_TOP", .tryEnd 0,
    ins Py311.platform "JUMP_BACKWARD" (.label 0), .label 2, ins Py311.platform "LOAD_CONST" (.int 7), ins Py311.platform "RETURN_VALUE",
    .label 3, ins Py311.platform "PUSH_EXC_INFO", ins Py311.platform "LOAD_CONST" (.str "doc"), ins Py311.platform "RETURN_VALUE"]

/-- Its code object. -/
def graphExCode : Code where
  argcount := 0
  posonlyargcount := 0
  kwonlyargcount := 0
  nlocals := 1
  stacksize := 4
  flags := 0
  code := [151, 0, 116, 1, 0, 0, 0, 0, 0, 0, 0, 0, 0, 0, 124, 0, 114, 3, 1, 0, 1, 0, 140, 12, 100, 0, 83, 0, 35, 0, 100, 1, 83, 0]
  consts := [.int 7, .str "doc"]
  names := ["print"]
  varnames := ["b"]
  filename := "<string>"
  name := "<module>"
  qualname := "<module>"
  firstlineno := 1
  linetable := [232, 6, 237, 2, 223, 2, 4, 129, 34]
  exctable := [129, 10, 14, 1]
  freevars := []
  cellvars := []

theorem graphEx_code : graphEx.toCode Py311.platform (id : Arg → Arg) eff311 = .ok graphExCode := by
  have h1 : ((graphEx.computeStacksize Py311.platform eff311 true).toOption.bind (fun r => (r.2.toBytecode Py311.platform).toOption.map (fun b => (r.1, b)))) =
      some (4, graphExBytecode) := by decide +kernel
  have h2 : ((toConcrete Py311.platform (id : Arg → Arg) 10 graphExBytecode).toOption.bind (fun c => (c.emit Py311.platform 4).toOption)) = some graphExCode := by
    decide +kernel
  unfold CFG.toCode
  cases hr : graphEx.computeStacksize Py311.platform eff311 true with
  | error e => rw [hr] at h1; cases h1
  | ok r =>
    obtain ⟨n, g⟩ := r
    rw [hr] at h1
    simp only [Except.toOption, Option.bind_some] at h1
    show (g.toBytecode Py311.platform >>= fun b => b.toCode Py311.platform id eff311 10 (some n) false) = _
    cases hb : g.toBytecode Py311.platform with
    | error e => rw [hb] at h1; cases h1
    | ok b =>
      rw [hb] at h1
      simp only [Option.map_some, Option.some.injEq, Prod.mk.injEq] at h1
      obtain ⟨rfl, rfl⟩ := h1
      show graphExBytecode.toCode Py311.platform id eff311 10 (some 4) false = _
      unfold Bytecode.toCode
      rw [if_neg (by simp)]
      show (toConcrete Py311.platform (id : Arg → Arg) 10 graphExBytecode >>= fun c => c.emit Py311.platform 4) = _
      cases hc : toConcrete Py311.platform (id : Arg → Arg) 10 graphExBytecode with
      | error e => rw [hc] at h2; cases h2
      | ok c => rw [hc] at h2; exact toOption_ok h2

/-- The hypotheses of C54 are met. -/
example : (programCode Py311.platform (id : Arg → Arg) graphExCode).map Op.noDepth =
      (programG Py311.platform (id : Arg → Arg) (zeroDepthsG graphEx)).map (Op.mapLoc keptLoc) := by
  have hmem : ∀ b ∈ graphEx.blocks, ∀ i, BElem.instr i ∈ (graphEx.heap b).elems → BElem.instr i ∈ allCode graphEx :=
    fun b hb i hi => List.mem_flatMap.2 ⟨b, hb, hi⟩
  refine (C54_to_code Py311.wf (by decide) (by decide) ?_ (made_valid Py311.wf (es := allCode graphEx) (by decide +kernel))
    (noCache_spec (es := allCode graphEx) (by decide +kernel)) (by decide +kernel) graphEx_code ?_).1
  · intro b hb i hi l hl
    have h1 : (allCode graphEx).all (fun e => match e with
      | .instr i => (match i.arg with | .label _ => false | _ => true)
      | _ => true) = true := by decide +kernel
    have := List.all_eq_true.1 h1 _ (hmem b hb i hi)
    simp only [hl] at this
    cases this
  · intro i hi
    have h1 : (allCode graphEx).all (fun e => match e with
      | .instr i => !Py311.platform.hascompare i.opcode && !Py311.platform.dual i.opcode
      | _ => true) = true := by decide +kernel
    have := List.all_eq_true.1 h1 _ hi
    simp only [Bool.and_eq_true, Bool.not_eq_true'] at this
    exact ⟨(fun h => by rw [this.1] at h; cases h), (fun h => by rw [this.2] at h; cases h)⟩

/-- What the program says: the conditional jump (operation 3) goes to operation 7, the beginning of block 2, and is protected by the
handler, operation 9. -/
example : ((programG Py311.platform (id : Arg → Arg) (zeroDepthsG graphEx))[3]?.map (fun o : Op Arg => (o.name, o.operand, o.loc, o.handler))) =
    some ("POP_JUMP_FORWARD_IF_FALSE", .jump 7, ⟨some 6, some 6, some 2, some 4⟩, some ⟨9, true, 0⟩) := by
  decide +kernel

end Verif
