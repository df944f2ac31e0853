import Verif.Instances.Table
/-
A part of the opcode table of CPython 3.9, transcribed by hand: used for examples and counterexamples only; no
theorem depends on the numbers. Stack effects of the opcodes listed.
-/
namespace Verif.Py39

def table : List (String × Nat) := [
  ("POP_TOP", 1), ("ROT_TWO", 2), ("ROT_THREE", 3), ("DUP_TOP", 4),
  ("DUP_TOP_TWO", 5), ("ROT_FOUR", 6), ("NOP", 9), ("UNARY_NOT", 12),
  ("BINARY_ADD", 23), ("BINARY_SUBTRACT", 24), ("BINARY_SUBSCR", 25), ("RERAISE", 48), ("GET_ITER", 68),
  ("RETURN_VALUE", 83), ("YIELD_VALUE", 86), ("POP_BLOCK", 87), ("POP_EXCEPT", 89),
  ("STORE_NAME", 90), ("DELETE_NAME", 91), ("UNPACK_SEQUENCE", 92), ("FOR_ITER", 93),
  ("STORE_ATTR", 95), ("LOAD_CONST", 100), ("LOAD_NAME", 101), ("BUILD_TUPLE", 102),
  ("LOAD_ATTR", 106), ("COMPARE_OP", 107), ("JUMP_FORWARD", 110), ("JUMP_IF_FALSE_OR_POP", 111),
  ("JUMP_IF_TRUE_OR_POP", 112), ("JUMP_ABSOLUTE", 113), ("POP_JUMP_IF_FALSE", 114), ("POP_JUMP_IF_TRUE", 115),
  ("LOAD_GLOBAL", 116), ("SETUP_FINALLY", 122), ("LOAD_FAST", 124),
  ("STORE_FAST", 125), ("DELETE_FAST", 126), ("RAISE_VARARGS", 130), ("CALL_FUNCTION", 131),
  ("LOAD_CLOSURE", 135), ("LOAD_DEREF", 136), ("STORE_DEREF", 137), ("EXTENDED_ARG", 144)]

def hasconst : List Nat := [100]
def haslocal : List Nat := [124, 125, 126]
def hasname : List Nat := [90, 91, 95, 101, 106, 116]
def hasfree : List Nat := [135, 136, 137]
def hascompare : List Nat := [107]
def hasjrel : List Nat := [93, 110, 122]
def hasjabs : List Nat := [111, 112, 113, 114, 115]

/-- opcodes with a constant effect -/
def effects : List (Nat × Int) := [(1, -1), (2, 0), (3, 0), (4, 1), (5, 2), (6, 0), (9, 0), (12, 0), (23, -1), (24, -1), (25, -1), (68, 0),
  (83, -1), (86, 0), (87, 0), (89, -3), (90, -1), (91, 0), (95, -2), (100, 1), (101, 1), (106, 0), (107, -1), (110, 0), (113, 0),
  (114, -1), (115, -1), (116, 1), (48, -3), (124, 1), (125, -1), (126, 0), (135, 1), (136, 1), (137, -1), (144, 0)]

/-- opcodes whose effect depends on the jump: opcode, max, taken, not taken -/
def jumpEffects : List (Nat × Int × Int × Int) := [(93, 1, -1, 1), (111, 0, 0, -1), (112, 0, 0, -1), (122, 6, 6, 0)]

/-- opcodes whose effect depends on the argument -/
def argEffect (op a : Nat) : Option Int :=
  match op with
  | 92 => some ((a : Int) - 1)      -- UNPACK_SEQUENCE
  | 102 => some (1 - (a : Int))     -- BUILD_TUPLE
  | 130 => some (-(a : Int))        -- RAISE_VARARGS
  | 131 => some (-(a : Int))        -- CALL_FUNCTION
  | _ => none

def stackEffect (op : Nat) (arg : Option Nat) (jump : Option Bool) : Option Int :=
  if (90 ≤ op) ≠ arg.isSome then none
  else match effects.find? (·.1 == op) with
    | some e => some e.2
    | none => match jumpEffects.find? (·.1 == op) with
      | some (_, m, t, f) => some (match jump with | none => m | some true => t | some false => f)
      | none => argEffect op (arg.getD 0)

def platform : Platform := mkPlatform 9 table [] (fun op => decide (90 ≤ op)) 256 144
  hasconst haslocal hasname hasfree hascompare hasjrel hasjabs stackEffect

theorem wf : platform.WF := mkPlatform_wf (by decide +kernel) (by decide +kernel) (by decide +kernel) (by decide +kernel)
  (by decide +kernel) (by decide +kernel) (by decide +kernel) (by decide +kernel) (by decide +kernel) (by decide +kernel)
  (by decide +kernel) (by decide +kernel) (by decide +kernel) (by decide +kernel) (by decide +kernel) (by decide +kernel) (by decide +kernel)

end Verif.Py39
