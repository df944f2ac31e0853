import Verif.Model.Equal
import Verif.Spec.Iter
import Mathlib.Data.List.Forall2
/-
When are two lists of elements the same code up to the identity of labels and try markers?
-/
namespace Verif.Spec

/-- Number of instructions and SetLineno: labels and try markers take no place. -/
def places (es : List BElem) : Nat :=
  es.countP (fun e => match e with | .instr _ => true | .setLineno _ => true | _ => false)

/-- The place a label stands for: that of its last occurrence. -/
def LandsAt (es : List BElem) (l n : Nat) : Prop :=
  ∃ pre post, es = pre ++ .label l :: post ∧ .label l ∉ post ∧ n = places pre

/-- The Python int a value is, if any: True is 1, False is 0, a member of an IntEnum class is its value. -/
def intOf : Arg → Option Int
  | .int v => some v
  | .bool true => some 1
  | .bool false => some 0
  | .compare v => some (v : Int)
  | .intr1 v => some (v : Int)
  | .intr2 v => some (v : Int)
  | _ => none

/-- Likewise for the items of a tuple. -/
def atomInt : Atom → Option Int
  | .int v => some v
  | .bool true => some 1
  | .bool false => some 0
  | _ => none

/-- Python's `==` on arguments: the same object or int, or tuples with equal items. UNSET only equals itself. -/
def PyEq (x y : Arg) : Prop :=
  x = y ∨ (∃ v, intOf x = some v ∧ intOf y = some v) ∨
  ∃ l m, x = .tuple l ∧ y = .tuple m ∧ List.Forall₂ (fun a b => a = b ∨ ∃ v, atomInt a = some v ∧ atomInt b = some v) l m

/-- Two arguments are equal Python values: for constants, `0`, `0.0` and `False` differ (their keys do); elsewhere bools
and enumeration members count as integers. -/
def EqArg {κ : Type} (P : Platform) (key : Arg → κ) (op : Nat) (x y : Arg) : Prop :=
  if P.hasconst op then key x = key y else PyEq x y

/-- The argument is a label. -/
def isLabelArg (x : Arg) : Prop := ∃ l, x = .label l

/-- Two elements correspond. -/
def Corresponds {κ : Type} (P : Platform) (key : Arg → κ) (a b : List BElem) : BElem → BElem → Prop
  | .label _, .label _ => True
  | .setLineno n, .setLineno m => n = m
  | .instr i, .instr j => i.name = j.name ∧ i.loc = j.loc ∧
      ((∃ l m n, i.arg = .label l ∧ j.arg = .label m ∧ LandsAt a l n ∧ LandsAt b m n) ∨
       (¬ isLabelArg i.arg ∧ ¬ isLabelArg j.arg ∧ EqArg P key i.opcode i.arg j.arg))
  | .tryBegin t, .tryBegin u => t.lasti = u.lasti ∧ ∃ n, LandsAt a t.target n ∧ LandsAt b u.target n
  | .tryEnd _, .tryEnd _ => True
  | _, _ => False

/-- The TryBegin object a marker refers to. -/
def markerOf : BElem → Option Nat
  | .tryBegin t => some t.id
  | .tryEnd id => some id
  | _ => none

/-- The elements correspond one by one, and try markers are paired alike: two markers belong to the same region in one
list iff they do in the other. -/
structure SameCode {κ : Type} (P : Platform) (key : Arg → κ) (a b : List BElem) : Prop where
  length : a.length = b.length
  elems : ∀ (k : Nat) (x y : BElem), a[k]? = some x → b[k]? = some y → Corresponds P key a b x y
  pairing : ∀ (j k s t s' t' : Nat), a[j]?.bind markerOf = some s → a[k]?.bind markerOf = some t →
    b[j]?.bind markerOf = some s' → b[k]?.bind markerOf = some t' → (s = t ↔ s' = t')

/-- Code that can be compared: regions are not nested, a TryEnd comes after its TryBegin, labels that are used occur. -/
structure Comparable (es : List BElem) : Prop where
  flat : Iterable (es.map some)
  paired : ∀ a id b, es = a ++ .tryEnd id :: b → ∃ t, .tryBegin t ∈ a ∧ t.id = id
  jumps : ∀ i l, .instr i ∈ es → i.arg = .label l → .label l ∈ es
  handlers : ∀ t, .tryBegin t ∈ es → .label t.target ∈ es

/-- The same code with other label and TryBegin objects. -/
def renameElem (ρ σ : Nat → Nat) : BElem → BElem
  | .label l => .label (ρ l)
  | .instr i => match i.arg with
    | .label l => .instr { i with arg := .label (ρ l) }
    | _ => .instr i
  | .tryBegin t => .tryBegin { t with id := σ t.id, target := ρ t.target }
  | .tryEnd id => .tryEnd (σ id)
  | e => e

end Verif.Spec
