import Verif.Props.GraphCodeErrors
import Verif.Props.GraphErrors
import Verif.Props.ToCodeErrorsEx
/-
Examples for C83.
-/
namespace Verif
open Spec

/-- The exception of `ControlFlowGraph.to_code`. -/
def graphErr (bs : List Blk) (stacksize : Option Int := none) (depths : Bool := true) (a : Attrs := Attrs.default) : Option PyErr :=
  match (CFG.ofBlocks a [] bs).toCode Py311.platform (id : Arg → Arg) eff311 stacksize depths with
  | .ok _ => none
  | .error e => some e

example : graphErr [⟨[i311 "LOAD_CONST" (.int 0), i311 "RETURN_VALUE"], none⟩] = none := by decide +kernel
/-- A jump to a block that is not in the graph, refused by the conversion to Bytecode or by the stack size. -/
example : graphErr [⟨[i311 "JUMP_FORWARD" (.block 3)], none⟩] (some 1) = some .keyError := by decide +kernel
/-- A forward jump to its own block, a backward jump over an instruction. -/
example : graphErr [⟨[i311 "JUMP_FORWARD" (.block 0)], none⟩] (some 1) = some .valueError := by decide +kernel
example : graphErr [⟨[i311 "JUMP_BACKWARD" (.block 2)], none⟩, ⟨[i311 "NOP"], none⟩, ⟨[i311 "NOP"], none⟩] (some 1) = some .valueError := by decide +kernel
/-- A cell variable that is not declared, a location over two lines without columns. -/
example : graphErr [⟨[i311 "LOAD_DEREF" (.cell "x"), i311 "RETURN_VALUE"], none⟩] = some .valueError := by decide +kernel
example : graphErr [⟨[ins Py311.platform "LOAD_CONST" (.int 0) (some ⟨some 1, some 2, none, none⟩), i311 "RETURN_VALUE"], none⟩] = some .valueError := by decide +kernel
/-- A TryBegin without depth, when the depths are not computed. -/
example : graphErr [⟨[.tryBegin ⟨0, 0, false, none⟩, i311 "NOP", .tryEnd 0], none⟩] (some 1) = some .assertionError := by decide +kernel

theorem wellMadeG_spec {P : Platform} {c : CFG} (hP : P.WF) (h : wellMade P { attrs := c.attrs, argnames := c.argnames, elems := allCode c } = true) : WellMadeG P c := by
  have := wellMade_spec hP h
  exact ⟨this.valid, this.compare, this.intrinsic, this.size⟩

theorem blocksOnly_of {c : CFG} (h : (allCode c).all (fun e => match e with
      | .instr i => (match i.arg with | .label _ => false | _ => true)
      | _ => true) = true) : BlocksOnly c := by
  intro b hb i hi l hl
  have := List.all_eq_true.1 h _ (List.mem_flatMap.2 ⟨b, hb, hi⟩)
  simp only [hl] at this
  cases this

/-- Two blocks; the second, the handler of the first, uses an undeclared cell variable. -/
def badGraph : CFG := CFG.ofBlocks Attrs.default [] [
  ⟨[.tryBegin ⟨0, 1, false, some 0⟩, i311 "LOAD_CONST" (.int 0), i311 "RETURN_VALUE", .tryEnd 0], none⟩,
  ⟨[i311 "PUSH_EXC_INFO", i311 "LOAD_DEREF" (.cell "x"), i311 "RETURN_VALUE"], none⟩]

theorem badGraph_full : FullTries badGraph := by
  intro pre t mid post he hm
  have h0 : allCode badGraph = [.tryBegin ⟨0, 1, false, some 0⟩, i311 "LOAD_CONST" (.int 0), i311 "RETURN_VALUE", .tryEnd 0,
    i311 "PUSH_EXC_INFO", i311 "LOAD_DEREF" (.cell "x"), i311 "RETURN_VALUE"] := by decide +kernel
  rw [h0] at he
  cases pre with
  | nil =>
    simp only [List.nil_append, List.cons_append, List.cons.injEq] at he
    cases mid with
    | nil => have := he.2; simp only [List.nil_append, List.cons.injEq] at this; exact absurd this.1 (by simp [i311, ins])
    | cons m mid =>
      simp only [List.cons_append, List.cons.injEq] at he
      exact ⟨_, by rw [← he.2.1]; exact List.mem_cons_self ..⟩
  | cons p pre =>
    exfalso
    simp only [List.cons_append, List.cons.injEq] at he
    have : BElem.tryBegin t ∈ [i311 "LOAD_CONST" (.int 0), i311 "RETURN_VALUE", .tryEnd 0, i311 "PUSH_EXC_INFO", i311 "LOAD_DEREF" (.cell "x"), i311 "RETURN_VALUE"] := by
      rw [he.2]; simp
    have h1 : ([i311 "LOAD_CONST" (.int 0), i311 "RETURN_VALUE", .tryEnd 0, i311 "PUSH_EXC_INFO", i311 "LOAD_DEREF" (.cell "x"), i311 "RETURN_VALUE"] : List BElem).all
        (fun e => match e with | .tryBegin _ => false | _ => true) = true := by decide +kernel
    have := List.all_eq_true.1 h1 _ this
    cases this

/-- The theorem used: the hypotheses are met, and the mistake is found from the exception. -/
example : WrongBlocks Py311.platform badGraph .valueError ∨ WrongCode Py311.platform badGraph .valueError := by
  refine C83_given (key := (id : Arg → Arg)) (eff := eff311) (n := 3) (depths := true) Py311.wf (wellMadeG_spec Py311.wf (by decide +kernel)) (by decide)
    (blocksOnly_of (by decide +kernel)) (by decide +kernel) badGraph_full ?_
  have : (match badGraph.toCode Py311.platform (id : Arg → Arg) eff311 (some 3) true with | .error e => decide (e = .valueError) | .ok _ => false) = true := by
    decide +kernel
  split at this
  · simp_all
  · cases this

end Verif
