import Verif.Proofs.ErrorsB
import Verif.Proofs.CfgToTotal
import Verif.Props.Assemblable
/-
C75: what an exception of `to_concrete_bytecode` says.
-/
namespace Verif
open Spec
section
variable {κ : Type} [DecidableEq κ] {P : Platform} {b : Bytecode} {passes : Nat}

/-- **C75.** The class of the exception names the mistake: whatever `to_concrete_bytecode` raises, the Bytecode has one of the
mistakes that exception stands for. -/
theorem C75_says (hP : P.WF) (key : Arg → κ) (hw : WellMade P b) {e : PyErr} (h : toConcrete P key passes b = .error e) : Wrong P b passes e :=
  toConcrete_err hP key hw h

/-- No other exception is raised. -/
theorem C75_classes (hP : P.WF) (key : Arg → κ) (hw : WellMade P b) {e : PyErr} (h : toConcrete P key passes b = .error e) :
    e = .valueError ∨ e = .keyError ∨ e = .indexError ∨ e = .assertionError ∨ e = .runtimeError := by
  cases C75_says hP key hw h <;> simp

/-- Each mistake is noticed: apart from the number of passes, none of them goes through. -/
theorem C75_noticed (hP : P.WF) (key : Arg → κ) (hw : WellMade P b) {e : PyErr} (h : Wrong P b passes e) (hp : 3 * jumpCount b.elems < passes) :
    ∃ e', toConcrete P key passes b = .error e' ∧ Wrong P b passes e' := by
  cases hc : toConcrete P key passes b with
  | error e' => exact ⟨e', rfl, C75_says hP key hw hc⟩
  | ok c =>
    exfalso
    have ha := toConcrete_rules hP hw hc
    cases h with
    | line h1 h2 => rcases ha.line with h | h; · rw [h1] at h; cases h
                    · omega
    | cell h1 h2 h3 h4 => exact h4 (ha.cells _ _ h1 h2 h3)
    | free h1 h2 h3 h4 => exact h4 (ha.frees _ _ h1 h2 h3)
    | forward h1 h2 h3 h4 h5 => exact h5 (ha.forward _ _ _ _ h1 h2 h3)
    | backward h1 h2 h3 h4 => exact ha.backward _ _ _ _ _ h1 h2 h3 _ h4
    | label h1 h2 h3 =>
      obtain ⟨l, g1, g2⟩ := ha.jumps _ h1 (argOK_jump (hw.valid _ h1).1.arg_ok (.inl ⟨_, h2⟩))
      rw [h2] at g1; cases g1
      exact h3 g2
    | handler h1 h2 =>
      obtain ⟨pre, post, he⟩ := List.append_of_mem h1
      exact h2 (ha.begins pre _ post he).2.1
    | end_ h1 h2 =>
      obtain ⟨t, g1, g2⟩ := ha.ends _ _ _ h1
      exact h2 t g1 g2
    | last h1 h2 =>
      obtain ⟨_, _, i, hi⟩ := ha.begins _ _ _ h1
      exact h2 i hi
    | depth h1 h2 =>
      obtain ⟨pre, post, he⟩ := List.append_of_mem h1
      exact (ha.begins pre _ post he).1 h2
    | dual h1 h2 h3 =>
      obtain ⟨x, y, g⟩ := ha.duals _ h1 h2
      exact h3 x y g
    | block h1 h2 h3 =>
      obtain ⟨l, g, _⟩ := ha.jumps _ h1 h2
      rw [h3] at g; cases g
    | nested h1 h2 =>
      obtain ⟨id, g⟩ := ha.nested _ _ _ _ _ h1
      exact h2 id g
    | passes h1 => omega

/-- RuntimeError from code without exception handlers is about the passes only. -/
theorem C75_passes (hP : P.WF) (key : Arg → κ) (hw : WellMade P b) (hn : ∀ t, .tryBegin t ∉ b.elems)
    (h : toConcrete P key passes b = .error .runtimeError) : passes ≤ 3 * jumpCount b.elems := by
  cases C75_says hP key hw h with
  | @nested pre mid post t t' h1 h2 => exact absurd (by rw [h1]; simp) (hn t)
  | passes h1 => exact h1

/-- A KeyError names a Label, or a TryEnd. -/
theorem C75_key (hP : P.WF) (key : Arg → κ) (hw : WellMade P b) (hj : ∀ i l, .instr i ∈ b.elems → i.arg = .label l → .label l ∈ b.elems)
    (ht : ∀ t, .tryBegin t ∈ b.elems → .label t.target ∈ b.elems) (h : toConcrete P key passes b = .error .keyError) :
    ∃ pre id post, b.elems = pre ++ .tryEnd id :: post ∧ ∀ t, .tryBegin t ∈ pre → t.id ≠ id := by
  cases C75_says hP key hw h with
  | label h1 h2 h3 => exact absurd (hj _ _ h1 h2) h3
  | handler h1 h2 => exact absurd (ht _ h1) h2
  | end_ h1 h2 => exact ⟨_, _, _, h1, h2⟩

end

/-- One program for each mistake. -/
def wrongWith (es : List BElem) (A : Attrs := Attrs.default) : Bytecode where
  attrs := A
  argnames := []
  elems := es ++ [ins Py311.platform "LOAD_CONST" (.int 0), ins Py311.platform "RETURN_VALUE"]

/-- The exception and whether the constructors accept the parts. -/
def wrongOf (b : Bytecode) : Bool × Option PyErr :=
  (wellMade Py311.platform b, match toConcrete Py311.platform (id : Arg → Arg) 10 b with | .error e => some e | .ok _ => none)

example : wrongOf (wrongWith [ins Py311.platform "LOAD_CLOSURE" (.cell "x")]) = (true, some .valueError) := by decide +kernel
example : wrongOf (wrongWith [ins Py311.platform "LOAD_DEREF" (.free "x")] { Attrs.default with freevars := ["y"] }) = (true, some .valueError) := by decide +kernel
example : wrongOf (wrongWith [.label 3, ins Py311.platform "NOP", ins Py311.platform "JUMP_FORWARD" (.label 3)]) = (true, some .valueError) := by decide +kernel
example : wrongOf (wrongWith [ins Py311.platform "JUMP_BACKWARD" (.label 3), ins Py311.platform "NOP", .label 3]) = (true, some .valueError) := by decide +kernel
/-- A backward jump to the next instruction is accepted. -/
example : wrongOf (wrongWith [ins Py311.platform "JUMP_BACKWARD" (.label 3), .label 3]) = (true, none) := by decide +kernel
example : wrongOf (wrongWith [ins Py311.platform "JUMP_FORWARD" (.label 3)]) = (true, some .keyError) := by decide +kernel
example : wrongOf (wrongWith [.tryBegin ⟨0, 5, false, some 0⟩, ins Py311.platform "NOP", .tryEnd 0]) = (true, some .keyError) := by decide +kernel
example : wrongOf (wrongWith [.tryEnd 0]) = (true, some .keyError) := by decide +kernel
example : wrongOf { wrongWith [.label 5] with elems := [.label 5, ins Py311.platform "NOP", .tryBegin ⟨0, 5, false, some 0⟩, .tryEnd 0] } = (true, some .indexError) := by decide +kernel
example : wrongOf (wrongWith [.label 5, .tryBegin ⟨0, 5, false, none⟩, ins Py311.platform "NOP", .tryEnd 0]) = (true, some .assertionError) := by decide +kernel
example : wrongOf (wrongWith [ins Py311.platform "JUMP_FORWARD" (.block 3)]) = (true, some .assertionError) := by decide +kernel
example : wrongOf (wrongWith [.label 5, .tryBegin ⟨0, 5, false, some 0⟩, ins Py311.platform "NOP", .tryBegin ⟨1, 5, false, some 0⟩,
    ins Py311.platform "NOP", .tryEnd 1]) = (true, some .runtimeError) := by decide +kernel
example : toConcrete Py311.platform (id : Arg → Arg) 10 exChain = .error .runtimeError := exChain_fails
/-- 3.13: two variables at once, one of them a cell variable. -/
example : (let b : Bytecode := { attrs := { Attrs.default with cellvars := ["x"] }, argnames := [], elems := [ins Py313.platform "LOAD_FAST_LOAD_FAST" (.tuple [.str "y", .cell "x"])] };
    (wellMade Py313.platform b, match toConcrete Py313.platform (id : Arg → Arg) 10 b with | .error e => some e | .ok _ => none)) =
    (true, some .assertionError) := by decide +kernel
/-- 3.10: the first line. -/
example : (let b : Bytecode := { attrs := { Attrs.default with firstLineno := 0 }, argnames := [], elems := [] };
    (wellMade Py310.platform b, match toConcrete Py310.platform (id : Arg → Arg) 10 b with | .error e => some e | .ok _ => none)) =
    (true, some .valueError) := by decide +kernel

/-- The theorem used: a forward jump backwards, found from the exception. -/
example : Wrong Py311.platform (wrongWith [.label 3, ins Py311.platform "NOP", ins Py311.platform "JUMP_FORWARD" (.label 3)]) 10 .valueError :=
  C75_says Py311.wf (id : Arg → Arg) (wellMade_spec Py311.wf (by decide +kernel)) (by decide +kernel)

end Verif
