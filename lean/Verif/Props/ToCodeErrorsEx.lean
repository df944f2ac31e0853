import Verif.Props.ToCodeErrors
import Verif.Props.ToCodeTotalEx
import Verif.Props.DecodeErrorsEx
/-
Examples for C82.
-/
namespace Verif
open Spec

/-- The exception of `to_code()`. -/
def codeErr (es : List BElem) (stacksize : Option Int := none) (depths : Bool := true) (a : Attrs := Attrs.default) : Option PyErr :=
  match ({ attrs := a, argnames := [], elems := es } : Bytecode).toCode Py311.platform (id : Arg → Arg) eff311 10 stacksize depths with
  | .ok _ => none
  | .error e => some e

example : codeErr [i311 "LOAD_CONST" (.int 0), i311 "RETURN_VALUE"] = none := by decide +kernel
/-- A jump to a label that is not there. -/
example : codeErr [i311 "JUMP_FORWARD" (.label 3)] = some .keyError := by decide +kernel
/-- Popping from an empty stack; the same is written when the size is given and the depths are not computed. -/
example : codeErr [i311 "POP_TOP"] = some .runtimeError := by decide +kernel
example : codeErr [i311 "POP_TOP"] (some 1) false = none := by decide +kernel
/-- A cell variable that is not declared. -/
example : codeErr [i311 "LOAD_DEREF" (.cell "x"), i311 "RETURN_VALUE"] = some .valueError := by decide +kernel
/-- A location over two lines without columns. -/
example : codeErr [ins Py311.platform "LOAD_CONST" (.int 0) (some ⟨some 1, some 2, none, none⟩), i311 "RETURN_VALUE"] = some .valueError := by decide +kernel
/-- The theorem used: the cell variable is found from the exception. -/
example : Wrong Py311.platform { attrs := Attrs.default, argnames := [], elems := [i311 "LOAD_DEREF" (.cell "x"), i311 "RETURN_VALUE"] } 10 .valueError := by
  rcases C82_default (P := Py311.platform) (key := (id : Arg → Arg)) (eff := eff311) (stacksize := none) (e := .valueError) (passes := 10)
    (b := { attrs := Attrs.default, argnames := [], elems := [i311 "LOAD_DEREF" (.cell "x"), i311 "RETURN_VALUE"] })
    Py311.wf (by decide) (wellMade_spec Py311.wf (by decide +kernel)) (labelsOnly_of (by decide +kernel)) (by decide +kernel) (by decide +kernel)
    (by
      have : codeErr [i311 "LOAD_DEREF" (.cell "x"), i311 "RETURN_VALUE"] = some .valueError := by decide +kernel
      unfold codeErr at this
      cases h : Bytecode.toCode Py311.platform (id : Arg → Arg) eff311
        { attrs := Attrs.default, argnames := [], elems := [i311 "LOAD_DEREF" (.cell "x"), i311 "RETURN_VALUE"] } 10 none true with
      | ok c => rw [h] at this; cases this
      | error e => rw [h] at this; cases this; rfl) with ⟨h, _⟩ | ⟨g, hg, hr⟩ | h | ⟨_, i, l, hi, hl, _⟩
  · cases h
  · exfalso
    have : (match fromBytecode Py311.platform { attrs := Attrs.default, argnames := [], elems := [i311 "LOAD_DEREF" (.cell "x"), i311 "RETURN_VALUE"] } with
      | .ok g => (g.computeStacksize Py311.platform eff311 true).isOk | .error _ => true) = true := by decide +kernel
    rw [hg] at this
    simp only [hr] at this
    cases this
  · exact h
  · exfalso
    rcases List.mem_cons.1 hi with hi | hi
    · cases hi; cases hl
    · rcases List.mem_cons.1 hi with hi | hi
      · cases hi; cases hl
      · cases hi

/-- The exception of `ConcreteBytecode.to_code` with a stack size and no computation of depths. -/
def concreteErr (c : Concrete) : Option PyErr :=
  match c.toCode Py311.platform (id : Arg → Arg) eff311 (some 1) false with
  | .ok _ => none
  | .error e => some e

/-- Entries of the exception table: one that stops a unit before it starts is written, as the empty region it is; two units is refused. -/
example : concreteErr (small [cins Py311.platform "NOP"] [⟨3, 2, 0, 0, false⟩]) = none := by decide +kernel
example : concreteErr (small [cins Py311.platform "NOP"] [⟨3, 1, 0, 0, false⟩]) = some .assertionError := by decide +kernel
example : concreteErr (small [cins Py311.platform "NOP"] [⟨3, 5, 0, -1, false⟩]) = some .assertionError := by decide +kernel
/-- The location comes first. -/
example : concreteErr (small [cins Py311.platform "NOP" none (some ⟨some 1, some 2, none, none⟩)] [⟨3, 1, 0, 0, false⟩]) = some .valueError := by decide +kernel

end Verif
