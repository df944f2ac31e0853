import Verif.Model.Instr
import Verif.Spec.Instr
/-
What argument each kind of opcode takes, from the documentation (doc/api.rst, "Instr").
-/
namespace Verif.Spec

/-- The documented argument of an opcode, one clause per kind of opcode. -/
structure ArgOK (P : Platform) (op : Nat) (arg : Arg) : Prop where
  /-- arguments are present exactly when required -/
  present : P.hasArg op = true ↔ arg ≠ .unset
  /-- jumps take a Label or a BasicBlock -/
  jump : P.hasJump op = true → (∃ l, arg = .label l) ∨ (∃ b, arg = .block b)
  /-- closure opcodes take a CellVar or a FreeVar -/
  free : P.hasfree op = true → (∃ n, arg = .cell n) ∨ (∃ n, arg = .free n)
  /-- names are strings; flagged ones tuples (bool, str) or (bool, bool, str) -/
  name : P.hasname op = true → P.bitflag op = false → P.bitflag2 op = false → ∃ n, arg = .str n
  flag : P.bitflag op = true → ∃ b n, arg = .tuple [.bool b, .str n]
  flag2 : P.bitflag2 op = true → ∃ b c n, arg = .tuple [.bool b, .bool c, .str n]
  /-- locals are strings (from 3.13 on also cell and free variables) -/
  local_ : P.haslocal op = true → P.dual op = false →
    (∃ n, arg = .str n) ∨ (P.py313 = true ∧ ((∃ n, arg = .cell n) ∨ ∃ n, arg = .free n))
  dual : P.dual op = true → ∃ x y, arg = .tuple [x, y] ∧ ((∃ n, x = .str n) ∨ ∃ n, x = .cell n) ∧
      ((∃ n, y = .str n) ∨ ∃ n, y = .cell n)
  /-- constants are anything but labels and blocks -/
  const : P.hasconst op = true → (∀ l, arg ≠ .label l) ∧ ∀ b, arg ≠ .block b
  compare : P.hascompare op = true → ∃ v, arg = .compare v
  intr1 : P.intrinsic1 op = true → ∃ v, arg = .intr1 v
  intr2 : P.intrinsic2 op = true → ∃ v, arg = .intr2 v
  /-- the other opcodes with an argument take an int in 0..2147483647 -/
  int : (P.hasJump op || P.hasfree op || P.haslocal op || P.hasname op || P.hasconst op || P.hascompare op ||
      P.intrinsic1 op || P.intrinsic2 op) = false → P.hasArg op = true →
    ∃ v : Int, arg.asInt = some v ∧ 0 ≤ v ∧ v ≤ 2147483647

/-- The documented invariant of an `Instr`. -/
structure ValidInstr (P : Platform) (s : Instr) : Prop where
  name_op : P.opmap s.name = some s.opcode
  base : s.opcode < P.minInstrumented
  not_ext : s.name ≠ "EXTENDED_ARG"
  arg_ok : ArgOK P s.opcode s.arg
  loc_ok : ∀ l, s.loc = some l → Coherent l

end Verif.Spec
