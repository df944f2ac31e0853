import Verif.Props.OldRoundTrip
/-
Concrete cases of C64 and C65, on 3.9 and 3.10.
-/
namespace Verif
open Spec

/-- A test of `OldCodeOK`. -/
def oldCodeOKB (P : Platform) (co : Code) : Bool :=
  let fs := fetched P co
  wellCodedB P [] (co.code.length + 1) co.code &&
  (List.range co.code.length).all (fun k => decide (lineOfByte P co (2 * k) = lineOfByte P co (2 * k + 1)) || decide (co.code.length ≤ 2 * k)) &&
  (List.range co.code.length).all (fun k => (lineOfByte P co (2 * k)).all (fun l => decide (1 ≤ l)) || decide (co.code.length ≤ 2 * k)) &&
  (!P.py310 || decide (co.code.length ≤ (readLinetable co.firstlineno co.linetable).length)) &&
  fs.all (fun f => (jumpByte P f).all (fun (t : Int) => fs.any (fun g => decide (t = 2 * (g.first : Int))))) &&
  (programOld P (id : Arg → Arg) co).all (fun o => decide (o.operand ≠ .invalid)) &&
  fs.all (fun f => !P.hascompare f.opcode || decide (CompareMember P (compareOf P f.arg))) &&
  co.consts.all (fun v => match v with
    | .unset | .label _ | .block _ => false
    | _ => true)

theorem oldCodeOK_of {P : Platform} {co : Code} (h : oldCodeOKB P co = true) : OldCodeOK P co := by
  simp only [oldCodeOKB, Bool.and_eq_true, List.all_eq_true, decide_eq_true_iff, Bool.or_eq_true, Option.all_eq_true, List.any_eq_true, List.mem_range] at h
  obtain ⟨⟨⟨⟨⟨⟨⟨h1, h2⟩, h3⟩, h4⟩, h5⟩, h6⟩, h7⟩, h8⟩ := h
  refine ⟨?_, ⟨?_, ?_, ?_⟩, h5, h6, ?_, ?_⟩
  · have := wellCoded_of P _ [] _ (by simp) h1
    simpa using this
  · intro k hk
    rcases h2 k (by omega) with h | h
    · exact h
    · omega
  · intro k hk l hl
    rcases h3 k (by omega) with h | h
    · exact h l hl
    · omega
  · intro h10
    rcases h4 with h | h
    · rw [h10] at h; cases h
    · exact h
  · intro f hf hc
    rcases h7 f hf with h | h
    · rw [hc] at h; cases h
    · exact h
  · intro v hv
    have := h8 v hv
    refine ⟨?_, ?_, ?_⟩
    · rintro rfl; cases this
    · rintro l rfl; cases this
    · rintro l rfl; cases this

theorem oldEx39_ok : OldCodeOK Py39.platform oldEx39 := oldCodeOK_of (by decide +kernel)
theorem oldEx310_ok : OldCodeOK Py310.platform oldEx310 := oldCodeOK_of (by decide +kernel)

example : ∃ b, Bytecode.fromCodeOld Py39.platform oldEx39 = .ok b ∧
    programB Py39.platform (id : Arg → Arg) b = programOld Py39.platform (id : Arg → Arg) oldEx39 := by
  obtain ⟨b, h1, h2, _⟩ := C64_from_code Py39.wf (by decide) (id : Arg → Arg) oldEx39_ok true false
  exact ⟨b, h1, h2⟩

example : ∃ b co', Bytecode.fromCodeOld Py39.platform oldEx39 = .ok b ∧ b.toCode Py39.platform (id : Arg → Arg) (effOf Py39.platform true) 10 (some 305) = .ok co' ∧
    programOld Py39.platform (id : Arg → Arg) co' = programOld Py39.platform (id : Arg → Arg) oldEx39 ∧ co'.stacksize = 305 :=
  C65_round_trip_identity Py39.wf (by decide) (id : Arg → Arg) (effOf Py39.platform true) oldEx39_ok ⟨by decide, by decide⟩
    (C65_lines_before_310 (by decide)) (by decide +kernel) true

example : ∃ b co', Bytecode.fromCodeOld Py310.platform oldEx310 = .ok b ∧ b.toCode Py310.platform (id : Arg → Arg) (effOf Py310.platform true) 10 (some 305) = .ok co' ∧
    programOld Py310.platform (id : Arg → Arg) co' = programOld Py310.platform (id : Arg → Arg) oldEx310 ∧ co'.stacksize = 305 :=
  C65_round_trip_identity Py310.wf (by decide) (id : Arg → Arg) (effOf Py310.platform true) oldEx310_ok ⟨by decide, by decide⟩
    (by decide +kernel) (by decide +kernel) true

/-- A code object of 3.10 where the second instruction has no line. -/
def noLine310 : Code where
  argcount := 0
  posonlyargcount := 0
  kwonlyargcount := 0
  nlocals := 0
  stacksize := 1
  flags := 0
  code := [100, 0, 1, 0, 100, 0, 83, 0]
  consts := [.other 0]
  names := []
  varnames := []
  filename := "<string>"
  name := "<module>"
  qualname := "<module>"
  firstlineno := 10
  linetable := [2, 1, 2, 128, 4, 0]
  exctable := []
  freevars := []
  cellvars := []

/-- The same code where the third instruction is on another line: the missing line is kept. -/
example : ∃ b co', Bytecode.fromCodeOld Py310.platform { noLine310 with linetable := [2, 1, 2, 128, 4, 2] } = .ok b ∧
    b.toCode Py310.platform (id : Arg → Arg) (effOf Py310.platform true) 10 (some 1) = .ok co' ∧
    programOld Py310.platform (id : Arg → Arg) co' = programOld Py310.platform (id : Arg → Arg) { noLine310 with linetable := [2, 1, 2, 128, 4, 2] } ∧ co'.stacksize = 1 :=
  C65_round_trip_identity Py310.wf (by decide) (id : Arg → Arg) (effOf Py310.platform true) (oldCodeOK_of (by decide +kernel)) ⟨by decide, by decide⟩
    (by decide +kernel) (by decide +kernel) true

/-- **C65 (lines).** Without `LinesWritable` the statement is false on 3.10: the third and fourth instructions are on line 11
in the code object read, and have no line in the code object written. -/
theorem C65_line_lost : OldCodeOK Py310.platform noLine310 ∧
    (programOld Py310.platform (id : Arg → Arg) noLine310).map (fun o : Op Arg => o.loc.lineno) = [some 11, none, some 11, some 11] ∧
    (Bytecode.fromCodeOld Py310.platform noLine310 >>= fun b => (b.toCode Py310.platform (id : Arg → Arg) (effOf Py310.platform true) 10 (some 1)).map
      (fun co => (programOld Py310.platform (id : Arg → Arg) co).map (fun o : Op Arg => o.loc.lineno))).toOption = some [some 11, none, none, none] :=
  ⟨oldCodeOK_of (by decide +kernel), by decide +kernel, by decide +kernel⟩

end Verif
