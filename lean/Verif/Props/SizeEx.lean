import Verif.Props.RealEx
import Verif.Props.ToCodeTotalEx
/-
Concrete cases of C17 (exact), C70 and C71.
-/
namespace Verif
open Spec

/-- C17 (exact) on the example of C48: the docstring first, then the constants loaded, the names used, the argument `a` and the local variable `b`. -/
example : toCodeExCode.consts = firsts (id : Arg → Arg) (toCodeEx.attrs.docstring.toList ++ usesOf (constUse Py311.platform) toCodeEx.elems) ∧
    toCodeExCode.consts = [.str "doc", .int 7, .str "x"] ∧ toCodeExCode.names = ["print"] ∧ toCodeExCode.varnames = ["a", "b"] :=
  ⟨(C17_to_code_exact Py311.wf (by decide +kernel) (made_valid Py311.wf (by decide +kernel)) (labelsOnly_of (by decide +kernel)) (by decide +kernel) toCodeEx_code).1,
    rfl, rfl, rfl⟩

/-- The chain of jumps assembled. -/
def chainCode : Concrete := (toConcrete Py311.platform (id : Arg → Arg) 31 exChain).toOption.get (by decide +kernel)
theorem chainCode_ok : toConcrete Py311.platform (id : Arg → Arg) 31 exChain = .ok chainCode := toOption_ok (by simp [chainCode])

/-- **C70, the bound is exact.** The jumps of this chain get 10 EXTENDED_ARG, one in each pass: 11 passes are enough, as `C70_concrete` says, and 10,
the default, are not. -/
theorem C70_exact : jumpPrefixes Py311.platform (instrsOf chainCode.elems) = 10 ∧
    toConcrete Py311.platform (id : Arg → Arg) 11 exChain = .ok chainCode ∧ toConcrete Py311.platform (id : Arg → Arg) 10 exChain = .error .runtimeError := by
  have h : jumpPrefixes Py311.platform (instrsOf chainCode.elems) = 10 := by decide +kernel
  exact ⟨h, C70_concrete Py311.wf (by decide +kernel) (made_valid Py311.wf (by decide +kernel)) chainCode_ok 11 (by omega), exChain_fails⟩

/-- A code object with 257 constants, the first of which is loaded last, and twice. -/
def manyConsts : Code where
  argcount := 0
  posonlyargcount := 0
  kwonlyargcount := 0
  nlocals := 0
  stacksize := 5
  flags := 0
  code := [151, 0] ++ ((List.range 255).map (fun n => [100, n + 1, 1, 0])).flatten ++ [144, 1, 100, 0, 1, 0, 100, 0, 1, 0, 100, 0, 83, 0]
  consts := (List.range 257).map (fun n => .int n)
  names := []
  varnames := []
  filename := "f.py"
  name := "f"
  qualname := "f"
  firstlineno := 1
  linetable := [128, 0]
  exctable := []
  freevars := []
  cellvars := []

def manyRead : Bytecode := (Bytecode.fromCode Py311.platform manyConsts).toOption.get (by decide +kernel)
theorem manyRead_ok : Bytecode.fromCode Py311.platform manyConsts = .ok manyRead := toOption_ok (by simp [manyRead])

theorem any_ok {α : Type} {x : Py α} {p : α → Bool} (h : x.toOption.any p = true) : ∃ a, x = .ok a ∧ p a = true := by
  cases x with
  | error e => cases h
  | ok a => exact ⟨a, rfl, h⟩

set_option maxHeartbeats 2000000 in
/-- **C71 without its condition is false.** Constants are stored again in the order of first use: with more than 256 of them, the code can get longer. -/
theorem C71_no_condition_statement_false : CodeOK Py311.platform manyConsts ∧ ∃ co',
    manyRead.toCode Py311.platform (id : Arg → Arg) eff311 10 (some 5) false = .ok co' ∧ manyConsts.code.length < co'.code.length := by
  refine ⟨codeOK_of (by decide +kernel), ?_⟩
  obtain ⟨co', h1, h2⟩ := any_ok (x := manyRead.toCode Py311.platform (id : Arg → Arg) eff311 10 (some 5) false)
    (p := fun co' => decide (manyConsts.code.length < co'.code.length)) (by decide +kernel)
  exact ⟨co', h1, of_decide_eq_true h2⟩

end Verif
