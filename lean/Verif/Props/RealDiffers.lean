import Verif.Props.RealCodes
/-
A code object compiled by CPython 3.11.10 that the default round trip changes: why C69 needs a stack map. CPython's table says that the exception of the
inner `finally` body (24 to 42) drops every value (depth 0) although the value to return is on the stack there; `compute_stacksize` records the smallest
depth it met in the region, 1.
-/
namespace Verif
open Spec

/--
    def returnFinally(f, g):
        try:
            try:
                return f()
            finally:
                g()
        finally:
            del f
-/
def returnFinallyCode : Code where
  argcount := 2
  posonlyargcount := 0
  kwonlyargcount := 0
  nlocals := 2
  stacksize := 4
  flags := 3
  code := [151, 0, 9, 0, 9, 0, 2, 0, 124, 0, 166, 0, 0, 0, 171, 0, 0, 0, 0, 0, 0, 0, 0, 0, 2, 0, 124, 1, 166, 0, 0, 0, 171, 0, 0, 0, 0, 0, 0, 0, 0, 0, 1, 0, 126, 0, 83, 0, 35, 0, 2, 0, 124, 1, 166, 0, 0, 0, 171, 0, 0, 0, 0, 0, 0, 0, 0, 0, 1, 0, 119, 0, 120, 3, 89, 0, 119, 1, 35, 0, 126, 0, 119, 0, 120, 3, 89, 0, 119, 1]
  consts := [.other 0]
  names := []
  varnames := ["f", "g"]
  filename := "<string>"
  name := "returnFinally"
  qualname := "returnFinally"
  firstlineno := 1
  linetable := [128, 0, 240, 2, 6, 5, 14, 240, 2, 3, 9, 16, 216, 19, 20, 144, 49, 145, 51, 148, 51, 224, 12, 13, 136, 65, 137, 67, 140, 67, 136, 67, 224, 12, 13, 136, 65, 248, 240, 5, 0, 13, 14, 136, 65, 137, 67, 140, 67, 136, 67, 136, 67, 248, 248, 248, 248, 224, 12, 13, 136, 5, 136, 5, 136, 5, 136, 5]
  exctable := [131, 9, 24, 0, 140, 10, 39, 0, 152, 12, 36, 3, 164, 3, 39, 0, 167, 3, 42, 3]
  freevars := []
  cellvars := []

/-- The handlers the machine finds in a code object: where, with which depth. -/
def handlersOf (P : Platform) (co : Code) : List (Option (Nat × Nat)) := (programCode P (id : Arg → Arg) co).map (fun o => o.handler.map (fun h => (h.target, h.depth)))

/-- The code object is well formed and the round trip succeeds; instructions, operands and the targets of the handlers are the same, but the depth of one handler is 1
where CPython had 0, and the stack size 5 where it had 4. -/
theorem C69_any_code_statement_false :
    codeOKB Py311.platform returnFinallyCode = true ∧ rewritableB Py311.platform returnFinallyCode = true ∧
    ∃ b co', Bytecode.fromCode Py311.platform returnFinallyCode = .ok b ∧ b.toCode Py311.platform (id : Arg → Arg) eff311 = .ok co' ∧
      (programCode Py311.platform (id : Arg → Arg) co').map (fun o => (o.name, o.operand)) =
        (programCode Py311.platform (id : Arg → Arg) returnFinallyCode).map (fun o => (o.name, o.operand)) ∧
      (handlersOf Py311.platform returnFinallyCode)[7]? = some (some (24, 0)) ∧ (handlersOf Py311.platform co')[7]? = some (some (24, 1)) ∧
      returnFinallyCode.stacksize = 4 ∧ co'.stacksize = 5 := by
  refine ⟨by decide +kernel, by decide +kernel, ?_⟩
  have h : (match Bytecode.fromCode Py311.platform returnFinallyCode with
    | .error _ => false
    | .ok b => match b.toCode Py311.platform (id : Arg → Arg) eff311 with
      | .error _ => false
      | .ok co' => decide ((programCode Py311.platform (id : Arg → Arg) co').map (fun o => (o.name, o.operand)) =
        (programCode Py311.platform (id : Arg → Arg) returnFinallyCode).map (fun o => (o.name, o.operand)) ∧
      (handlersOf Py311.platform returnFinallyCode)[7]? = some (some (24, 0)) ∧ (handlersOf Py311.platform co')[7]? = some (some (24, 1)) ∧
      returnFinallyCode.stacksize = 4 ∧ co'.stacksize = 5)) = true := by decide +kernel
  split at h
  · simp at h
  · rename_i b hb
    split at h
    · simp at h
    · rename_i co' hc
      exact ⟨b, co', hb, hc, of_decide_eq_true h⟩

end Verif
