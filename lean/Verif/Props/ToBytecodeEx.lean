import Verif.Props.ToBytecode
import Verif.Props.ConvertEx
/-
Concrete cases for C22, C23, and the cases where the full statements fail.
-/
namespace Verif
open Spec

/-- A concrete instruction of an example. -/
def cins (P : Platform) (n : String) (a : Option Nat := none) (loc : Option Loc := none) : CElem :=
  .instr ⟨n, (P.opmap n).getD 0, a, loc, none, sizeFor a none⟩

/-- Concrete instructions are as their constructor would build them. -/
def cmade (P : Platform) (es : List CElem) : Bool :=
  es.all (fun e => match e with
    | .instr i => decide (CInstr.make P (some i.name) (.ofOpt i.arg) .unset i.loc i.ext = .ok i) && i.loc.isNone
    | _ => true)

theorem cmade_valid {P : Platform} {es : List CElem} (h : cmade P es = true) : ∀ i, .instr i ∈ es → ValidCInstr P i := by
  intro i hi
  have := List.all_eq_true.1 h _ hi
  simp only [Bool.and_eq_true, decide_eq_true_eq, Option.isNone_iff_eq_none] at this
  refine (C09_constructed_valid P _ _ _ _ ?_ _ i this.1).1
  intro l hl
  rw [this.2] at hl; simp at hl

/-- The round trip, `none` if it fails. -/
def roundTrip (P : Platform) (b : Bytecode) : Option Bytecode :=
  match toConcrete P (id : Arg → Arg) 10 b with
  | .ok c => match toBytecode P true true c with
    | .ok b' => some b'
    | .error _ => none
  | .error _ => none

theorem roundTrip_some {P : Platform} {b b' : Bytecode} (h : roundTrip P b = some b') :
    ∃ c, toConcrete P (id : Arg → Arg) 10 b = .ok c ∧ toBytecode P true true c = .ok b' := by
  unfold roundTrip at h
  split at h
  · rename_i c hc
    split at h
    · rename_i b'' hb
      simp only [Option.some.injEq] at h
      subst h
      exact ⟨c, hc, hb⟩
    · simp at h
  · simp at h

/-- The hypotheses of `C23_roundtrip_partial`, checked by evaluation. -/
example : (roundTrip Py311.platform ex311).isSome = true ∧ WellTried none [] false ex311.elems ∧ NoEmptyTry false ex311.elems ∧
    (match toConcrete Py311.platform (id : Arg → Arg) 10 ex311 with
      | .ok c => c.excTable.length == 1 && decide (∀ e ∈ c.excTable, ∃ k ∈ starts Py311.platform 0 c.elems, e.start = k) && decide (TableOK Py311.platform c)
      | .error _ => false) = true := by
  decide +kernel

/-- The round trip of `ex311`: same program (the handler of operation 5 included), label at each jump target. -/
example : (roundTrip Py311.platform ex311).map (fun b => programB Py311.platform id b) = some (programB Py311.platform id ex311) := by
  decide +kernel

/-- 3.13: two-variable opcodes, a comparison with a cast, a flagged attribute. -/
example : (roundTrip Py313.platform ex313).map (fun b => programB Py313.platform id b) = some (programB Py313.platform id ex313) := by
  decide +kernel

/-- **C22 fails** on 3.13 when a free variable is also a local one (as with inlined comprehensions): index 1 is the free
variable x, `to_bytecode` gives the free variable f. -/
theorem C22_statement_false : ∃ (c : Concrete) (b : Bytecode), (∀ ci, .instr ci ∈ c.elems → ValidCInstr Py313.platform ci) ∧
    toBytecode Py313.platform true true c = .ok b ∧
    (programC Py313.platform (id : Arg → Arg) c).map (fun o => (o.name, o.operand)) =
      [("LOAD_FAST", .slot (.free "x")), ("RETURN_VALUE", .none)] ∧
    (programB Py313.platform (id : Arg → Arg) b).map (fun o => (o.name, o.operand)) =
      [("LOAD_FAST", .slot (.free "f")), ("RETURN_VALUE", .none)] := by
  let c : Concrete := ⟨{ Attrs.default with freevars := ["x", "f"] }, [], [], ["x"], [],
    [cins Py313.platform "LOAD_FAST" (some 1), cins Py313.platform "RETURN_VALUE"]⟩
  have hok : (toBytecode Py313.platform true true c).isOk = true := by decide +kernel
  cases h : toBytecode Py313.platform true true c with
  | error e => rw [h] at hok; simp [Except.isOk, Except.toBool] at hok
  | ok b =>
    refine ⟨c, b, cmade_valid (by decide +kernel), h, by decide +kernel, ?_⟩
    have : (match toBytecode Py313.platform true true c with
      | .ok b => (programB Py313.platform (id : Arg → Arg) b).map (fun o => (o.name, o.operand))
      | .error _ => []) = [("LOAD_FAST", .slot (.free "f")), ("RETURN_VALUE", .none)] := by decide +kernel
    rw [h] at this
    exact this

/-- **C23 fails** for a try region whose first instruction has an EXTENDED_ARG: the entry starts at the opcode, after the
prefix, where `to_bytecode` does not look for it. The handler of the instructions of the region is lost. -/
theorem C23_statement_false : ∃ (b b' : Bytecode) (c : Concrete), (∀ e ∈ b.elems, e.isCache = false) ∧
    (∀ i, .instr i ∈ b.elems → ValidInstr Py311.platform i) ∧ WellTried none [] false b.elems ∧ NoEmptyTry false b.elems ∧
    toConcrete Py311.platform (id : Arg → Arg) 10 b = .ok c ∧ toBytecode Py311.platform true true c = .ok b' ∧
    (programB Py311.platform (id : Arg → Arg) b).map (fun o => o.handler) = [some ⟨2, true, 1⟩, some ⟨2, true, 1⟩, none] ∧
    (programB Py311.platform (id : Arg → Arg) b').map (fun o => o.handler) = [none, none, none] := by
  let b : Bytecode := ⟨Attrs.default, [], [.tryBegin ⟨0, 9, true, some 1⟩, ins Py311.platform "BUILD_LIST" (.int 300), ins Py311.platform "NOP", .tryEnd 0,
    .label 9, ins Py311.platform "RETURN_VALUE"]⟩
  have hok : ((roundTrip Py311.platform b).map (fun b => (programB Py311.platform (id : Arg → Arg) b).map (fun o => o.handler))) = some [none, none, none] := by
    decide +kernel
  cases h : roundTrip Py311.platform b with
  | none => rw [h] at hok; simp at hok
  | some b' =>
    obtain ⟨c, h1, h2⟩ := roundTrip_some h
    refine ⟨b, b', c, noCache_spec (by decide +kernel), made_valid Py311.wf (by decide +kernel), by decide +kernel, by decide +kernel, h1, h2,
      by decide +kernel, ?_⟩
    rw [h] at hok
    simpa using hok

/-- The round trip of a try region followed by an empty one gives markers that cannot be iterated over (nested
TryBegin). -/
theorem C23_nested_try_false : ∃ b b' : Bytecode, (∀ e ∈ b.elems, e.isCache = false) ∧ (∀ i, .instr i ∈ b.elems → ValidInstr Py311.platform i) ∧
    WellTried none [] false b.elems ∧ roundTrip Py311.platform b = some b' ∧ (iterElems false b.elems).2 = .ok () ∧
    (iterElems false b'.elems).2 = .error .runtimeError := by
  let b : Bytecode := ⟨Attrs.default, [], [.tryBegin ⟨0, 9, true, some 1⟩, ins Py311.platform "BUILD_LIST" (.int 3), ins Py311.platform "NOP", .tryEnd 0,
    .tryBegin ⟨1, 9, true, some 1⟩, .tryEnd 1, .label 9, ins Py311.platform "RETURN_VALUE"]⟩
  have hok : ((roundTrip Py311.platform b).map (fun b => (iterElems false b.elems).2)) = some (.error .runtimeError) := by
    decide +kernel
  cases h : roundTrip Py311.platform b with
  | none => rw [h] at hok; simp at hok
  | some b' =>
    refine ⟨b, b', noCache_spec (by decide +kernel), made_valid Py311.wf (by decide +kernel), by decide +kernel, h, by decide +kernel, ?_⟩
    rw [h] at hok
    simpa using hok

/-- A jump to the end of the code converts to concrete code, but not back: KeyError. -/
theorem C23_label_at_end_false : ∃ (b : Bytecode) (c : Concrete), (∀ e ∈ b.elems, e.isCache = false) ∧
    (∀ i, .instr i ∈ b.elems → ValidInstr Py311.platform i) ∧ toConcrete Py311.platform (id : Arg → Arg) 10 b = .ok c ∧
    toBytecode Py311.platform true true c = .error .keyError := by
  let b : Bytecode := ⟨Attrs.default, [], [ins Py311.platform "JUMP_FORWARD" (.label 1), .label 1]⟩
  have hok : (toConcrete Py311.platform (id : Arg → Arg) 10 b).isOk = true := by decide +kernel
  cases h : toConcrete Py311.platform (id : Arg → Arg) 10 b with
  | error e => rw [h] at hok; simp [Except.isOk, Except.toBool] at hok
  | ok c =>
    refine ⟨b, c, noCache_spec (by decide +kernel), made_valid Py311.wf (by decide +kernel), h, ?_⟩
    have : (match toConcrete Py311.platform (id : Arg → Arg) 10 b with
      | .ok c => decide (toBytecode Py311.platform true true c = .error .keyError)
      | .error _ => false) = true := by decide +kernel
    rw [h] at this
    exact of_decide_eq_true this

/-- A concrete code with a SetLineno, an EXTENDED_ARG, caches and two exception table entries. -/
def exC : Concrete where
  attrs := { Attrs.default with cellvars := ["c"], freevars := ["f"] }
  consts := [.str "doc", .int 7]
  names := ["a", "b"]
  varnames := ["x"]
  excTable := [⟨1, 7, 11, 2, true⟩, ⟨10, 10, 11, 0, false⟩]
  elems := [cins Py311.platform "RESUME" (some 0), .setLineno 12, cins Py311.platform "LOAD_GLOBAL" (some 3), cins Py311.platform "CACHE" (some 0),
    cins Py311.platform "CACHE" (some 0), cins Py311.platform "CACHE" (some 0), cins Py311.platform "CACHE" (some 0), cins Py311.platform "CACHE" (some 0),
    cins Py311.platform "LOAD_CONST" (some 1), cins Py311.platform "EXTENDED_ARG" (some 0), cins Py311.platform "LOAD_DEREF" (some 2),
    cins Py311.platform "POP_JUMP_FORWARD_IF_FALSE" (some 0), cins Py311.platform "RETURN_VALUE"]

example : cmade Py311.platform exC.elems = true ∧ (toBytecode Py311.platform true true exC).isOk = true ∧
    (match removeExtendedArgs Py311.platform 0 none exC.elems with
      | .ok es => decide (TableOK Py311.platform { exC with elems := es }) &&
        decide (∀ o ∈ programC Py311.platform (id : Arg → Arg) { exC with elems := es }, o.operand ≠ .invalid)
      | .error _ => false) = true := by
  decide +kernel

example : (match toBytecode Py311.platform true true exC with
    | .ok b => (programB Py311.platform (id : Arg → Arg) b).map (fun o => (o.name, o.operand, o.loc.lineno, o.handler))
    | .error _ => []) =
    [("RESUME", .int 0, some 1, none), ("LOAD_GLOBAL", .flagName true "b", some 12, some ⟨5, true, 2⟩),
     ("LOAD_CONST", .const (.int 7), some 12, some ⟨5, true, 2⟩), ("LOAD_DEREF", .slot (.free "f"), some 12, none),
     ("POP_JUMP_FORWARD_IF_FALSE", .jump 5, some 12, some ⟨5, false, 0⟩), ("RETURN_VALUE", .none, some 12, none)] := by
  decide +kernel

end Verif
