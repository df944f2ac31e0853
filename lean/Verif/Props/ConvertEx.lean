import Verif.Props.Convert
import Verif.Props.Instr
/-
Concrete cases for C14-C21, C45, and the cases where the full statements fail.
-/
namespace Verif
open Spec

/-- Instructions are as their constructor would build them. -/
def made (P : Platform) (es : List BElem) : Bool :=
  es.all (fun e => match e with
    | .instr i => decide (Instr.make P (some i.name) i.arg .unset i.loc = .ok i) && (match i.loc with
      | none => true
      | some l => decide (Loc.make P.py311 (l.lineno.map Int.ofNat) (l.endLineno.map Int.ofNat) (l.col.map Int.ofNat) (l.endCol.map Int.ofNat) = .ok l))
    | _ => true)

theorem made_valid {P : Platform} (hP : P.WF) {es : List BElem} (h : made P es = true) : ∀ i, .instr i ∈ es → ValidInstr P i := by
  intro i hi
  have := List.all_eq_true.1 h _ hi
  simp only [Bool.and_eq_true, decide_eq_true_eq] at this
  refine (C10_constructed_valid P hP _ _ _ _ ?_ i this.1).1
  intro l hl
  have h2 := this.2
  rw [hl] at h2
  exact Loc.make_coherent (of_decide_eq_true h2)

def noCache (es : List BElem) : Bool := es.all (fun e => !e.isCache)
theorem noCache_spec {es : List BElem} (h : noCache es = true) : ∀ e ∈ es, e.isCache = false := by
  intro e he
  have := List.all_eq_true.1 h e he
  simpa using this


/-- An instruction of an example. -/
def ins (P : Platform) (n : String) (a : Arg := .unset) (loc : Option Loc := none) : BElem := .instr ⟨n, (P.opmap n).getD 0, a, loc⟩

/-- 3.11: a try region, a forward and a backward jump, cell, free, local and global variables, a comparison. -/
def ex311 : Bytecode where
  attrs := { Attrs.default with cellvars := ["c", "a"], freevars := ["f"], docstring := some (.str "doc") }
  argnames := ["a"]
  elems := [ins Py311.platform "RESUME" (.int 0) (some (Loc.line (some 4))), .label 7, .tryBegin ⟨0, 9, true, some 1⟩, .setLineno 5,
    ins Py311.platform "LOAD_GLOBAL" (.tuple [.bool true, .str "print"]), ins Py311.platform "LOAD_FAST" (.str "b"),
    ins Py311.platform "LOAD_CONST" (.str "x") (some ⟨some 6, some 6, some 2, some 4⟩),
    ins Py311.platform "COMPARE_OP" (.compare 2), ins Py311.platform "POP_JUMP_FORWARD_IF_FALSE" (.label 8), .tryEnd 0,
    ins Py311.platform "LOAD_DEREF" (.cell "c"), ins Py311.platform "JUMP_BACKWARD" (.label 7), .label 8,
    ins Py311.platform "LOAD_DEREF" (.free "f"), ins Py311.platform "RETURN_VALUE", .label 9, ins Py311.platform "PUSH_EXC_INFO",
    ins Py311.platform "LOAD_CONST" (.str "doc"), ins Py311.platform "RETURN_VALUE"]

example : ∃ c, toConcrete Py311.platform id 10 ex311 = .ok c ∧ programC Py311.platform id c = programB Py311.platform id ex311 ∧
    CachesOK Py311.platform 0 (instrsOf c.elems) := by
  have hc := noCache_spec (es := ex311.elems) (by decide +kernel)
  have hv := made_valid Py311.wf (es := ex311.elems) (by decide +kernel)
  have hok : (toConcrete Py311.platform id 10 ex311).isOk = true := by decide +kernel
  cases h : toConcrete Py311.platform id 10 ex311 with
  | error e => rw [h] at hok; simp [Except.isOk, Except.toBool] at hok
  | ok c =>
    refine ⟨c, rfl, C45_program_preserved Py311.wf hc hv h ?_ (by decide +kernel), C19_caches_emitted_partial Py311.wf hc hv h⟩
    intro i hi
    have : ∀ i, .instr i ∈ ex311.elems → (∀ v, i.arg = .compare v → v ≤ 5) ∧ Py311.platform.dual i.opcode = false := by
      have h1 : ex311.elems.all (fun e => match e with
        | .instr i => (match i.arg with | .compare v => decide (v ≤ 5) | _ => true) && !Py311.platform.dual i.opcode
        | _ => true) = true := by decide +kernel
      intro i hi
      have := List.all_eq_true.1 h1 _ hi
      simp only [Bool.and_eq_true, Bool.not_eq_true'] at this
      refine ⟨fun v hv => ?_, this.2⟩
      have h3 := this.1
      rw [hv] at h3
      simpa using h3
    obtain ⟨h1, h2⟩ := this i hi
    exact ⟨fun _ v hv => .inl (h1 v hv), fun h => by rw [h2] at h; simp at h⟩

/-- The program of the result, `[]` if the conversion fails. -/
def resultOf (P : Platform) (b : Bytecode) : List (Op Arg) :=
  match toConcrete P (id : Arg → Arg) 10 b with
  | .ok c => programC P id c
  | .error _ => []

/-- The conditional jump (operation 5, in the try region) goes to the LOAD_DEREF of the free variable (operation 8). -/
example : labelPos Py311.platform 8 0 ex311.elems = some 8 ∧
    ((resultOf Py311.platform ex311)[5]?.map (fun o => (o.name, o.operand, o.handler))) =
      some ("POP_JUMP_FORWARD_IF_FALSE", .jump 8, some ⟨10, true, 1⟩) ∧
    ((resultOf Py311.platform ex311)[8]?.map (fun o => (o.name, o.operand, o.handler))) = some ("LOAD_DEREF", .slot (.free "f"), none) := by
  decide +kernel

/-- **C16 fails** for an empty region before the first instruction: the stop index is -1, which Python takes as the last
instruction: the handler protects the whole code. -/
theorem C16_statement_false : ∃ (b : Bytecode) (c : Concrete), (∀ e ∈ b.elems, e.isCache = false) ∧
    (∀ i, .instr i ∈ b.elems → ValidInstr Py311.platform i) ∧ (iterElems false b.elems).2 = .ok () ∧
    toConcrete Py311.platform (id : Arg → Arg) 10 b = .ok c ∧
    (programB Py311.platform (id : Arg → Arg) b).map (fun o => o.handler) = [none, none, none] ∧
    (programC Py311.platform (id : Arg → Arg) c).map (fun o => o.handler) = [some ⟨0, false, 0⟩, some ⟨0, false, 0⟩, some ⟨0, false, 0⟩] := by
  let b : Bytecode := ⟨Attrs.default, [], [.tryBegin ⟨0, 1, false, some 0⟩, .tryEnd 0, .label 1, ins Py311.platform "NOP",
    ins Py311.platform "LOAD_CONST" (.int 0), ins Py311.platform "RETURN_VALUE"]⟩
  have hok : (toConcrete Py311.platform (id : Arg → Arg) 10 b).isOk = true := by decide +kernel
  cases h : toConcrete Py311.platform (id : Arg → Arg) 10 b with
  | error e => rw [h] at hok; simp [Except.isOk, Except.toBool] at hok
  | ok c =>
    refine ⟨b, c, noCache_spec (by decide +kernel), made_valid Py311.wf (by decide +kernel), by decide +kernel, h, by decide +kernel, ?_⟩
    have : (match toConcrete Py311.platform (id : Arg → Arg) 10 b with
      | .ok c => (programC Py311.platform (id : Arg → Arg) c).map (fun o => o.handler)
      | .error _ => []) = [some ⟨0, false, 0⟩, some ⟨0, false, 0⟩, some ⟨0, false, 0⟩] := by decide +kernel
    rw [h] at this
    exact this

/-- **C19 fails** for manual caches: LOAD_METHOD (10 entries on 3.11) followed by one manual CACHE is accepted and gets
only this one; followed by two it is refused. -/
theorem C19_statement_false : (∃ (b : Bytecode) (c : Concrete), (∀ i, .instr i ∈ b.elems → ValidInstr Py311.platform i) ∧
      toConcrete Py311.platform (id : Arg → Arg) 10 b = .ok c ∧ ¬ CachesOK Py311.platform 0 (instrsOf c.elems)) ∧
    (∃ b : Bytecode, (∀ i, .instr i ∈ b.elems → ValidInstr Py311.platform i) ∧
      b.elems = [ins Py311.platform "LOAD_GLOBAL" (.tuple [.bool false, .str "x"]), ins Py311.platform "CACHE", ins Py311.platform "CACHE",
        ins Py311.platform "CACHE", ins Py311.platform "CACHE", ins Py311.platform "CACHE"] ∧
      Py311.platform.cacheEntries ((Py311.platform.opmap "LOAD_GLOBAL").getD 0) = 5 ∧
      toConcrete Py311.platform (id : Arg → Arg) 10 b = .error .runtimeError) := by
  constructor
  · let b : Bytecode := ⟨Attrs.default, [], [ins Py311.platform "LOAD_METHOD" (.str "x"), ins Py311.platform "CACHE", ins Py311.platform "RETURN_VALUE"]⟩
    have hok : (toConcrete Py311.platform (id : Arg → Arg) 10 b).isOk = true := by decide +kernel
    cases h : toConcrete Py311.platform (id : Arg → Arg) 10 b with
    | error e => rw [h] at hok; simp [Except.isOk, Except.toBool] at hok
    | ok c =>
      refine ⟨b, c, made_valid Py311.wf (by decide +kernel), h, ?_⟩
      have : (match toConcrete Py311.platform (id : Arg → Arg) 10 b with
        | .ok c => decide (CachesOK Py311.platform 0 (instrsOf c.elems))
        | .error _ => true) = false := by decide +kernel
      rw [h] at this
      exact of_decide_eq_false this
  · refine ⟨⟨Attrs.default, [], _⟩, made_valid Py311.wf ?_, rfl, by decide +kernel, ?_⟩ <;> decide +kernel

/-- **C21 fails**: with 17 variables before, (v0, v16) is packed as 0 * 16 + 16, which CPython reads as (v1, v0). -/
theorem C21_statement_false : ∃ (b : Bytecode) (c : Concrete), (∀ e ∈ b.elems, e.isCache = false) ∧
    (∀ i, .instr i ∈ b.elems → ValidInstr Py313.platform i) ∧ b.argnames.Nodup ∧
    toConcrete Py313.platform (id : Arg → Arg) 10 b = .ok c ∧
    ((programB Py313.platform (id : Arg → Arg) b).map (fun o => (o.name, o.operand))).take 2 =
      [("LOAD_FAST", .slot (.named "v0")), ("LOAD_FAST", .slot (.named "v16"))] ∧
    ((programC Py313.platform (id : Arg → Arg) c).map (fun o => (o.name, o.operand))).take 2 =
      [("LOAD_FAST", .slot (.named "v1")), ("LOAD_FAST", .slot (.named "v0"))] := by
  let b : Bytecode := ⟨Attrs.default, ["v0", "v1", "v2", "v3", "v4", "v5", "v6", "v7", "v8", "v9", "v10", "v11", "v12", "v13", "v14", "v15", "v16"],
    [ins Py313.platform "LOAD_FAST_LOAD_FAST" (.tuple [.str "v0", .str "v16"]), ins Py313.platform "RETURN_VALUE"]⟩
  have hok : (toConcrete Py313.platform (id : Arg → Arg) 10 b).isOk = true := by decide +kernel
  cases h : toConcrete Py313.platform (id : Arg → Arg) 10 b with
  | error e => rw [h] at hok; simp [Except.isOk, Except.toBool] at hok
  | ok c =>
    refine ⟨b, c, noCache_spec (by decide +kernel), made_valid Py313.wf (by decide +kernel), by decide +kernel, h, by decide +kernel, ?_⟩
    have : (match toConcrete Py313.platform (id : Arg → Arg) 10 b with
      | .ok c => ((programC Py313.platform (id : Arg → Arg) c).map (fun o => (o.name, o.operand))).take 2
      | .error _ => []) = [("LOAD_FAST", .slot (.named "v1")), ("LOAD_FAST", .slot (.named "v0"))] := by decide +kernel
    rw [h] at this
    exact this

/-- 3.13: packed and split two-variable opcodes, a comparison with a cast, a flagged attribute. -/
def ex313 : Bytecode where
  attrs := Attrs.default
  argnames := ["v0", "v1", "v2", "v3", "v4", "v5", "v6", "v7", "v8", "v9", "v10", "v11", "v12", "v13", "v14", "v15", "v16", "v17"]
  elems := [ins Py313.platform "LOAD_FAST_LOAD_FAST" (.tuple [.str "v3", .str "v15"]),
    ins Py313.platform "STORE_FAST_LOAD_FAST" (.tuple [.str "v2", .str "v17"]), ins Py313.platform "COMPARE_OP" (.compare 18),
    ins Py313.platform "LOAD_ATTR" (.tuple [.bool true, .str "x"]), ins Py313.platform "RETURN_VALUE"]

example : ((resultOf Py313.platform ex313).map (fun o => (o.name, o.operand))) =
    [("LOAD_FAST", .slot (.named "v3")), ("LOAD_FAST", .slot (.named "v15")), ("STORE_FAST", .slot (.named "v2")),
     ("LOAD_FAST", .slot (.named "v17")), ("COMPARE_OP", .compare 18), ("LOAD_ATTR", .flagName true "x"), ("RETURN_VALUE", .none)] := by
  decide +kernel
example : made Py313.platform ex313.elems = true ∧ noCache ex313.elems = true ∧ (toConcrete Py313.platform id 10 ex313).isOk = true := by
  decide +kernel

/-- A jump that needs an EXTENDED_ARG: a second pass is needed, and one pass is not enough. -/
def exFar : Bytecode where
  attrs := Attrs.default
  argnames := []
  elems := ins Py311.platform "JUMP_FORWARD" (.label 0) :: (List.replicate 256 (ins Py311.platform "NOP") ++
    [.label 0, ins Py311.platform "LOAD_CONST" (.int 0), ins Py311.platform "RETURN_VALUE"])

example : toConcrete Py311.platform id 1 exFar = .error .runtimeError ∧ (toConcrete Py311.platform id 2 exFar).isOk = true ∧
    made Py311.platform exFar.elems = true ∧ noCache exFar.elems = true ∧ jumpCount exFar.elems = 1 := by
  decide +kernel

end Verif
