import Verif.Spec.Program
import Verif.Spec.Tries
/-
What keeps the result of `to_concrete_bytecode` from being converted back.
-/
namespace Verif.Spec

/-- A value that may be a constant: anything but UNSET, a Label and a BasicBlock. -/
def IsValue (v : Arg) : Prop := v ≠ .unset ∧ (∀ l, v ≠ .label l) ∧ ∀ b, v ≠ .block b

/-- Intrinsics are members of `Intrinsic1Op` and `Intrinsic2Op` (as any object of these types is). -/
structure IntrinsicOK (i : Instr) : Prop where
  one : ∀ v, i.arg = .intr1 v → v ≤ 11
  two : ∀ v, i.arg = .intr2 v → v ≤ 4

/-- No instruction comes after the label. -/
def AtEnd (es : List BElem) (l : Nat) : Prop := ∃ pre post, es = pre ++ .label l :: post ∧ ∀ i, .instr i ∉ post

/-- A jump to the label, or a handler that starts at it. -/
def Aimed (es : List BElem) (l : Nat) : Prop := (∃ i, .instr i ∈ es ∧ i.arg = .label l) ∨ ∃ t, .tryBegin t ∈ es ∧ t.target = l

/-- Two TryBegin without instruction in between: the region of the first is empty. -/
def SameStart (es : List BElem) : Prop :=
  ∃ pre t mid t' post, es = pre ++ .tryBegin t :: (mid ++ .tryBegin t' :: post) ∧ ∀ i, .instr i ∉ mid

/-- What keeps the code made of the elements `es` from being converted back, and the exception it leads to. -/
inductive NotBack (es : List BElem) (caches prune : Bool) : PyErr → Prop
  /-- AssertionError: two regions start at the same instruction -/
  | same : SameStart es → NotBack es caches prune .assertionError
  /-- KeyError: a jump to the end of the code, or a handler there -/
  | atEnd {l : Nat} : Aimed es l → AtEnd es l → NotBack es caches prune .keyError
  /-- ValueError: `prune_caches=False` when there are CACHE entries -/
  | caches : caches = true → prune = false → NotBack es caches prune .valueError

end Verif.Spec
