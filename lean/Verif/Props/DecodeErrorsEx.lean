import Verif.Props.DecodeErrors
import Verif.Props.ToBytecodeEx
import Verif.Instances.Py39
import Verif.Instances.Py313
/-
C79: each mistake occurs, with its exception; code without mistake is converted.
-/
namespace Verif
open Spec

/-- A ConcreteBytecode with the constant None, the name "n", the local variable "x" and the free variable "f". -/
def small (es : List CElem) (tab : List ExcEntry := []) : Concrete :=
  { attrs := { Attrs.default with freevars := ["f"] }, consts := [.other 0], names := ["n"], varnames := ["x"], excTable := tab, elems := es }

def raises (P : Platform) (c : Concrete) (prune : Bool := true) : Option PyErr :=
  match toBytecode P prune true c with
  | .ok _ => none
  | .error e => some e

open Py311 in
/-- Each mistake of the table above, on 3.11. -/
example : cmade platform [cins platform "LOAD_CONST" (some 1), cins platform "EXTENDED_ARG" (some 1), cins platform "JUMP_FORWARD" (some 9)] = true ∧
    raises platform (small [cins platform "LOAD_CONST" (some 1)]) = some .indexError ∧
    raises platform (small [cins platform "LOAD_FAST" (some 1)]) = some .indexError ∧
    raises platform (small [cins platform "LOAD_NAME" (some 1)]) = some .indexError ∧
    raises platform (small [cins platform "LOAD_GLOBAL" (some 2)]) = some .indexError ∧
    raises platform (small [cins platform "LOAD_DEREF" (some 2)]) = some .indexError ∧
    raises platform (small [cins platform "COMPARE_OP" (some 6)]) = some .valueError ∧
    raises platform (small [cins platform "CACHE" (some 0)]) false = some .valueError ∧
    raises platform (small [cins platform "JUMP_FORWARD" (some 9)]) = some .keyError ∧
    raises platform (small [cins platform "NOP"] [⟨0, 0, 7, 0, false⟩]) = some .keyError ∧
    raises platform (small [cins platform "NOP"] [⟨0, 0, 0, 0, false⟩, ⟨0, 1, 0, 0, false⟩]) = some .assertionError ∧
    raises platform (small [cins platform "EXTENDED_ARG" (some 1)]) = some .valueError ∧
    raises platform (small [cins platform "EXTENDED_ARG" (some 1), cins platform "RETURN_VALUE"]) = some .typeError ∧
    raises platform (small [cins platform "EXTENDED_ARG" (some 8388608), cins platform "LOAD_CONST" (some 0)]) = some .valueError := by
  decide +kernel

open Py311 in
/-- No mistake: the last constant, variable, name and free variable, a CACHE without argument, an EXTENDED_ARG before NOP, an entry whose
handler does not exist but that is never looked at. -/
example : raises platform (small [cins platform "LOAD_CONST" (some 0), cins platform "LOAD_FAST" (some 0), cins platform "LOAD_GLOBAL" (some 1),
    cins platform "LOAD_DEREF" (some 1), cins platform "COMPARE_OP" (some 5), cins platform "CACHE", cins platform "EXTENDED_ARG" (some 1), cins platform "NOP",
    cins platform "EXTENDED_ARG" (some 0), cins platform "LOAD_CONST" (some 0)] [⟨7, 20, 99, 0, false⟩]) false = none := by decide +kernel

/-- Before 3.11: a line 0; on 3.13: two local variables of which one is a free variable. -/
example : raises Py39.platform { small [cins Py39.platform "NOP"] with attrs := { Attrs.default with firstLineno := 0 } } = some .valueError ∧
    raises Py39.platform (small [cins Py39.platform "NOP"]) = none ∧
    raises Py313.platform (small [cins Py313.platform "LOAD_FAST_LOAD_FAST" (some 1)]) = some .typeError ∧
    raises Py313.platform (small [cins Py313.platform "LOAD_FAST_LOAD_FAST" (some 2)]) = some .indexError ∧
    raises Py313.platform (small [cins Py313.platform "LOAD_FAST_LOAD_FAST" (some 0)]) = none := by decide +kernel

/-- The theorem on such a case. -/
example : Undecodable Py311.platform (small [cins Py311.platform "LOAD_CONST" (some 1)]) true [cins Py311.platform "LOAD_CONST" (some 1)] .indexError := by
  refine (C79_plain (prune := true) (conserve := true) (c := small [cins Py311.platform "LOAD_CONST" (some 1)]) Py311.wf (cmade_valid (by decide +kernel)) ?_).2 _ ?_
  · intro ci hci
    simp only [small, cins, List.mem_singleton, CElem.instr.injEq] at hci
    subst hci; decide
  · have h : raises Py311.platform (small [cins Py311.platform "LOAD_CONST" (some 1)]) = some .indexError := by decide +kernel
    unfold raises at h
    split at h
    · cases h
    · rename_i e he; cases h; exact he

end Verif
