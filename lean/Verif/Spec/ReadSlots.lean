import Verif.Spec.Program
/-
Which local variable indexes `to_bytecode` reads right from 3.13 on.
-/
namespace Verif.Spec

/-- The indexes of the local variables an instruction uses. -/
def localIndexes (P : Platform) (ci : CInstr) : List Nat :=
  if ci.name = "CACHE" ∨ P.haslocal ci.opcode = false then []
  else match ci.arg with
    | none => []
    | some a => if P.dual ci.opcode then [a / 16, a % 16] else [a]

/-- The number of frame slots before the one of the first free variable that is also a local variable (all of them if
there is none). -/
def slotsBefore (c : Concrete) : Nat :=
  c.varnames.length + (c.attrs.cellvars.filter (fun n => !(c.varnames.contains n))).length +
    (c.attrs.freevars.takeWhile (fun n => !(c.varnames.contains n))).length

/-- What `to_bytecode` reads for an operation: the same name and location, and the same operand, except that on 3.13 an
operation on local variables with the `j`-th free variable is read as one with the `j`-th of the free variables that are
not local variables. -/
structure ReadAs {κ : Type} (P : Platform) (c : Concrete) (read given : Op κ) : Prop where
  name : read.name = given.name
  loc : read.loc = given.loc
  same : P.py313 = false ∨ (∀ op, P.opmap given.name = some op → P.haslocal op = false) ∨ (∀ n, given.operand ≠ .slot (.free n)) →
    read.operand = given.operand
  free : P.py313 = true → (∃ op, P.opmap given.name = some op ∧ P.haslocal op = true) → ∀ n, given.operand = .slot (.free n) →
    ∃ (j : Nat) (m : String), c.attrs.freevars[j]? = some n ∧ (c.attrs.freevars.filter (fun n => !(c.varnames.contains n)))[j]? = some m ∧
      read.operand = .slot (.free m)

end Verif.Spec
