import Verif.Instances.Table
/-
The complete opcode table of CPython 3.11, generated from the standard library modules `opcode` and `dis` of a
3.11.10 interpreter (tables only; no project code was run). `stackEffect` reproduces `dis.stack_effect`: the
opcodes whose effect depends on the argument are written out below, the others are constants per (opcode, jump).
-/
namespace Verif.Py311

def table : List (String × Nat) := [
  ("CACHE", 0), ("POP_TOP", 1), ("PUSH_NULL", 2), ("NOP", 9),
  ("UNARY_POSITIVE", 10), ("UNARY_NEGATIVE", 11), ("UNARY_NOT", 12), ("UNARY_INVERT", 15),
  ("BINARY_SUBSCR", 25), ("GET_LEN", 30), ("MATCH_MAPPING", 31), ("MATCH_SEQUENCE", 32),
  ("MATCH_KEYS", 33), ("PUSH_EXC_INFO", 35), ("CHECK_EXC_MATCH", 36), ("CHECK_EG_MATCH", 37),
  ("WITH_EXCEPT_START", 49), ("GET_AITER", 50), ("GET_ANEXT", 51), ("BEFORE_ASYNC_WITH", 52),
  ("BEFORE_WITH", 53), ("END_ASYNC_FOR", 54), ("STORE_SUBSCR", 60), ("DELETE_SUBSCR", 61),
  ("GET_ITER", 68), ("GET_YIELD_FROM_ITER", 69), ("PRINT_EXPR", 70), ("LOAD_BUILD_CLASS", 71),
  ("LOAD_ASSERTION_ERROR", 74), ("RETURN_GENERATOR", 75), ("LIST_TO_TUPLE", 82), ("RETURN_VALUE", 83),
  ("IMPORT_STAR", 84), ("SETUP_ANNOTATIONS", 85), ("YIELD_VALUE", 86), ("ASYNC_GEN_WRAP", 87),
  ("PREP_RERAISE_STAR", 88), ("POP_EXCEPT", 89), ("STORE_NAME", 90), ("DELETE_NAME", 91),
  ("UNPACK_SEQUENCE", 92), ("FOR_ITER", 93), ("UNPACK_EX", 94), ("STORE_ATTR", 95),
  ("DELETE_ATTR", 96), ("STORE_GLOBAL", 97), ("DELETE_GLOBAL", 98), ("SWAP", 99),
  ("LOAD_CONST", 100), ("LOAD_NAME", 101), ("BUILD_TUPLE", 102), ("BUILD_LIST", 103),
  ("BUILD_SET", 104), ("BUILD_MAP", 105), ("LOAD_ATTR", 106), ("COMPARE_OP", 107),
  ("IMPORT_NAME", 108), ("IMPORT_FROM", 109), ("JUMP_FORWARD", 110), ("JUMP_IF_FALSE_OR_POP", 111),
  ("JUMP_IF_TRUE_OR_POP", 112), ("POP_JUMP_FORWARD_IF_FALSE", 114), ("POP_JUMP_FORWARD_IF_TRUE", 115), ("LOAD_GLOBAL", 116),
  ("IS_OP", 117), ("CONTAINS_OP", 118), ("RERAISE", 119), ("COPY", 120),
  ("BINARY_OP", 122), ("SEND", 123), ("LOAD_FAST", 124), ("STORE_FAST", 125),
  ("DELETE_FAST", 126), ("POP_JUMP_FORWARD_IF_NOT_NONE", 128), ("POP_JUMP_FORWARD_IF_NONE", 129), ("RAISE_VARARGS", 130),
  ("GET_AWAITABLE", 131), ("MAKE_FUNCTION", 132), ("BUILD_SLICE", 133), ("JUMP_BACKWARD_NO_INTERRUPT", 134),
  ("MAKE_CELL", 135), ("LOAD_CLOSURE", 136), ("LOAD_DEREF", 137), ("STORE_DEREF", 138),
  ("DELETE_DEREF", 139), ("JUMP_BACKWARD", 140), ("CALL_FUNCTION_EX", 142), ("EXTENDED_ARG", 144),
  ("LIST_APPEND", 145), ("SET_ADD", 146), ("MAP_ADD", 147), ("LOAD_CLASSDEREF", 148),
  ("COPY_FREE_VARS", 149), ("RESUME", 151), ("MATCH_CLASS", 152), ("FORMAT_VALUE", 155),
  ("BUILD_CONST_KEY_MAP", 156), ("BUILD_STRING", 157), ("LOAD_METHOD", 160), ("LIST_EXTEND", 162),
  ("SET_UPDATE", 163), ("DICT_MERGE", 164), ("DICT_UPDATE", 165), ("PRECALL", 166),
  ("CALL", 171), ("KW_NAMES", 172), ("POP_JUMP_BACKWARD_IF_NOT_NONE", 173), ("POP_JUMP_BACKWARD_IF_NONE", 174),
  ("POP_JUMP_BACKWARD_IF_FALSE", 175), ("POP_JUMP_BACKWARD_IF_TRUE", 176)]

/-- (opcode, number of inline cache entries), others have none. -/
def caches : List (Nat × Nat) := [(25, 4), (60, 1), (92, 1), (95, 4), (106, 4), (107, 2), (116, 5), (122, 1), (160, 10), (166, 1), (171, 4)]

def hasconst : List Nat := [100, 172]
def haslocal : List Nat := [124, 125, 126]
def hasname : List Nat := [90, 91, 95, 96, 97, 98, 101, 106, 108, 109, 116, 160]
def hasfree : List Nat := [135, 136, 137, 138, 139, 148]
def hascompare : List Nat := [107]
def hasjrel : List Nat := [93, 110, 111, 112, 114, 115, 123, 128, 129, 134, 140, 173, 174, 175, 176]
def hasjabs : List Nat := []

/-- opcodes with a constant effect -/
def effects : List (Nat × Int) := [(0, 0), (1, -1), (2, 1), (9, 0), (10, 0), (11, 0), (12, 0), (15, 0), (25, -1), (30, 1), (31, 1), (32, 1), (33, 1), (35, 1), (36, 0), (37, 0), (49, 1), (50, 0), (51, 1), (52, 1), (53, 1), (54, -2), (60, -3), (61, -2), (68, 0), (69, 0), (70, -1), (71, 1), (74, 1), (75, 0), (82, 0), (83, -1), (84, -1), (85, 0), (86, 0), (87, 0), (88, -1), (89, -1), (90, -1), (91, 0), (95, -2), (96, -1), (97, -1), (98, 0), (99, 0), (100, 1), (101, 1), (106, 0), (107, -1), (108, -1), (109, 1), (110, 0), (114, -1), (115, -1), (117, -1), (118, -1), (119, -1), (120, 1), (122, -1), (124, 1), (125, -1), (126, 0), (128, -1), (129, -1), (131, 0), (134, 0), (135, 0), (136, 1), (137, 1), (138, -1), (139, 0), (140, 0), (144, 0), (145, -1), (146, -1), (147, -2), (148, 1), (149, 0), (151, 0), (152, -2), (160, 1), (162, -1), (163, -1), (164, -1), (165, -1), (171, -1), (172, 0), (173, -1), (174, -1), (175, -1), (176, -1)]

/-- opcodes whose effect depends on the jump: opcode, max, taken, not taken -/
def jumpEffects : List (Nat × Int × Int × Int) := [(93, 1, -1, 1), (111, 0, 0, -1), (112, 0, 0, -1), (123, 0, -1, 0)]

/-- opcodes whose effect depends on the argument -/
def argEffect (op a : Nat) : Option Int :=
  match op with
  | 92 => some ((a : Int) - 1)                         -- UNPACK_SEQUENCE
  | 94 => some ((a % 256 : Nat) + (a / 256 : Nat))     -- UNPACK_EX
  | 102 | 103 | 104 | 157 => some (1 - (a : Int))      -- BUILD_TUPLE/LIST/SET/STRING
  | 105 => some (1 - 2 * (a : Int))                    -- BUILD_MAP
  | 116 => some (1 + (a % 2 : Nat))                    -- LOAD_GLOBAL
  | 130 | 166 => some (-(a : Int))                     -- RAISE_VARARGS, PRECALL
  | 132 => some (-((a % 2 : Nat) + (a / 2 % 2 : Nat) + (a / 4 % 2 : Nat) + (a / 8 % 2 : Nat)))  -- MAKE_FUNCTION
  | 133 => some (if a = 3 then -2 else -1)             -- BUILD_SLICE
  | 142 => some (-2 - (a % 2 : Nat))                   -- CALL_FUNCTION_EX
  | 155 => some (if a / 4 % 2 = 1 then -1 else 0)      -- FORMAT_VALUE
  | 156 => some (-(a : Int))                           -- BUILD_CONST_KEY_MAP
  | _ => none

def stackEffect (op : Nat) (arg : Option Nat) (jump : Option Bool) : Option Int :=
  -- dis.stack_effect raises when an argument is given to / missing from the opcode
  if (90 ≤ op) ≠ arg.isSome then none
  else match effects.find? (·.1 == op) with
    | some e => some e.2
    | none => match jumpEffects.find? (·.1 == op) with
      | some (_, m, t, f) => some (match jump with | none => m | some true => t | some false => f)
      | none => argEffect op (arg.getD 0)

def platform : Platform := mkPlatform 11 table caches (fun op => decide (90 ≤ op)) 256 144
  hasconst haslocal hasname hasfree hascompare hasjrel hasjabs stackEffect

theorem wf : platform.WF := mkPlatform_wf (by decide +kernel) (by decide +kernel) (by decide +kernel) (by decide +kernel)
  (by decide +kernel) (by decide +kernel) (by decide +kernel) (by decide +kernel) (by decide +kernel) (by decide +kernel)
  (by decide +kernel) (by decide +kernel) (by decide +kernel) (by decide +kernel) (by decide +kernel)
  (by decide +kernel) (by decide +kernel)

end Verif.Py311
