import Verif.Instances.Table
/-
The complete opcode table of CPython 3.12, generated from the standard library modules `opcode` and `dis` of a
3.12.3 interpreter (tables only; no project code was run). `stackEffect` reproduces `dis.stack_effect`: the
opcodes whose effect depends on the argument are written out below, the others are constants per (opcode, jump).
-/
namespace Verif.Py312

def table : List (String × Nat) := [
  ("CACHE", 0), ("POP_TOP", 1), ("PUSH_NULL", 2), ("INTERPRETER_EXIT", 3),
  ("END_FOR", 4), ("END_SEND", 5), ("NOP", 9), ("UNARY_NEGATIVE", 11),
  ("UNARY_NOT", 12), ("UNARY_INVERT", 15), ("RESERVED", 17), ("BINARY_SUBSCR", 25),
  ("BINARY_SLICE", 26), ("STORE_SLICE", 27), ("GET_LEN", 30), ("MATCH_MAPPING", 31),
  ("MATCH_SEQUENCE", 32), ("MATCH_KEYS", 33), ("PUSH_EXC_INFO", 35), ("CHECK_EXC_MATCH", 36),
  ("CHECK_EG_MATCH", 37), ("WITH_EXCEPT_START", 49), ("GET_AITER", 50), ("GET_ANEXT", 51),
  ("BEFORE_ASYNC_WITH", 52), ("BEFORE_WITH", 53), ("END_ASYNC_FOR", 54), ("CLEANUP_THROW", 55),
  ("STORE_SUBSCR", 60), ("DELETE_SUBSCR", 61), ("GET_ITER", 68), ("GET_YIELD_FROM_ITER", 69),
  ("LOAD_BUILD_CLASS", 71), ("LOAD_ASSERTION_ERROR", 74), ("RETURN_GENERATOR", 75), ("RETURN_VALUE", 83),
  ("SETUP_ANNOTATIONS", 85), ("LOAD_LOCALS", 87), ("POP_EXCEPT", 89), ("STORE_NAME", 90),
  ("DELETE_NAME", 91), ("UNPACK_SEQUENCE", 92), ("FOR_ITER", 93), ("UNPACK_EX", 94),
  ("STORE_ATTR", 95), ("DELETE_ATTR", 96), ("STORE_GLOBAL", 97), ("DELETE_GLOBAL", 98),
  ("SWAP", 99), ("LOAD_CONST", 100), ("LOAD_NAME", 101), ("BUILD_TUPLE", 102),
  ("BUILD_LIST", 103), ("BUILD_SET", 104), ("BUILD_MAP", 105), ("LOAD_ATTR", 106),
  ("COMPARE_OP", 107), ("IMPORT_NAME", 108), ("IMPORT_FROM", 109), ("JUMP_FORWARD", 110),
  ("POP_JUMP_IF_FALSE", 114), ("POP_JUMP_IF_TRUE", 115), ("LOAD_GLOBAL", 116), ("IS_OP", 117),
  ("CONTAINS_OP", 118), ("RERAISE", 119), ("COPY", 120), ("RETURN_CONST", 121),
  ("BINARY_OP", 122), ("SEND", 123), ("LOAD_FAST", 124), ("STORE_FAST", 125),
  ("DELETE_FAST", 126), ("LOAD_FAST_CHECK", 127), ("POP_JUMP_IF_NOT_NONE", 128), ("POP_JUMP_IF_NONE", 129),
  ("RAISE_VARARGS", 130), ("GET_AWAITABLE", 131), ("MAKE_FUNCTION", 132), ("BUILD_SLICE", 133),
  ("JUMP_BACKWARD_NO_INTERRUPT", 134), ("MAKE_CELL", 135), ("LOAD_CLOSURE", 136), ("LOAD_DEREF", 137),
  ("STORE_DEREF", 138), ("DELETE_DEREF", 139), ("JUMP_BACKWARD", 140), ("LOAD_SUPER_ATTR", 141),
  ("CALL_FUNCTION_EX", 142), ("LOAD_FAST_AND_CLEAR", 143), ("EXTENDED_ARG", 144), ("LIST_APPEND", 145),
  ("SET_ADD", 146), ("MAP_ADD", 147), ("COPY_FREE_VARS", 149), ("YIELD_VALUE", 150),
  ("RESUME", 151), ("MATCH_CLASS", 152), ("FORMAT_VALUE", 155), ("BUILD_CONST_KEY_MAP", 156),
  ("BUILD_STRING", 157), ("LIST_EXTEND", 162), ("SET_UPDATE", 163), ("DICT_MERGE", 164),
  ("DICT_UPDATE", 165), ("CALL", 171), ("KW_NAMES", 172), ("CALL_INTRINSIC_1", 173),
  ("CALL_INTRINSIC_2", 174), ("LOAD_FROM_DICT_OR_GLOBALS", 175), ("LOAD_FROM_DICT_OR_DEREF", 176), ("INSTRUMENTED_LOAD_SUPER_ATTR", 237),
  ("INSTRUMENTED_POP_JUMP_IF_NONE", 238), ("INSTRUMENTED_POP_JUMP_IF_NOT_NONE", 239), ("INSTRUMENTED_RESUME", 240), ("INSTRUMENTED_CALL", 241),
  ("INSTRUMENTED_RETURN_VALUE", 242), ("INSTRUMENTED_YIELD_VALUE", 243), ("INSTRUMENTED_CALL_FUNCTION_EX", 244), ("INSTRUMENTED_JUMP_FORWARD", 245),
  ("INSTRUMENTED_JUMP_BACKWARD", 246), ("INSTRUMENTED_RETURN_CONST", 247), ("INSTRUMENTED_FOR_ITER", 248), ("INSTRUMENTED_POP_JUMP_IF_FALSE", 249),
  ("INSTRUMENTED_POP_JUMP_IF_TRUE", 250), ("INSTRUMENTED_END_FOR", 251), ("INSTRUMENTED_END_SEND", 252), ("INSTRUMENTED_INSTRUCTION", 253),
  ("INSTRUMENTED_LINE", 254), ("SETUP_FINALLY", 256), ("SETUP_CLEANUP", 257), ("SETUP_WITH", 258),
  ("POP_BLOCK", 259), ("JUMP", 260), ("JUMP_NO_INTERRUPT", 261), ("LOAD_METHOD", 262),
  ("LOAD_SUPER_METHOD", 263), ("LOAD_ZERO_SUPER_METHOD", 264), ("LOAD_ZERO_SUPER_ATTR", 265), ("STORE_FAST_MAYBE_NULL", 266)]

/-- (opcode, number of inline cache entries), others have none. -/
def caches : List (Nat × Nat) := [(25, 1), (60, 1), (92, 1), (93, 1), (95, 4), (106, 9), (107, 1), (116, 4), (122, 1), (123, 1), (141, 1), (171, 3)]

def hasarg : List Nat := [90, 91, 92, 93, 94, 95, 96, 97, 98, 99, 100, 101, 102, 103, 104, 105, 106, 107, 108, 109, 110, 114, 115, 116, 117, 118, 119, 120, 121, 122, 123, 124, 125, 126, 127, 128, 129, 130, 131, 132, 133, 134, 135, 136, 137, 138, 139, 140, 141, 142, 143, 144, 145, 146, 147, 149, 150, 151, 152, 155, 156, 157, 162, 163, 164, 165, 171, 172, 173, 174, 175, 176, 237, 238, 239, 240, 241, 242, 243, 244, 245, 246, 247, 248, 249, 250, 251, 252, 253, 254, 260, 261, 262, 263, 264, 265, 266]
def hasconst : List Nat := [100, 121, 172]
def haslocal : List Nat := [124, 125, 126, 127, 143, 266]
def hasname : List Nat := [90, 91, 95, 96, 97, 98, 101, 106, 108, 109, 116, 141, 175, 262, 263, 264, 265]
def hasfree : List Nat := [135, 136, 137, 138, 139, 148, 176]
def hascompare : List Nat := [107]
def hasjrel : List Nat := [93, 110, 114, 115, 123, 128, 129, 134, 140, 260, 261]
def hasjabs : List Nat := []

/-- opcodes with a constant effect -/
def effects : List (Nat × Int) := [(0, 0), (1, -1), (2, 1), (3, -1), (4, -2), (5, -1), (9, 0), (11, 0), (12, 0), (15, 0), (17, 0), (25, -1), (26, -2), (27, -4), (30, 1), (31, 1), (32, 1), (33, 1), (35, 1), (36, 0), (37, 0), (49, 1), (50, 0), (51, 1), (52, 1), (53, 1), (54, -2), (55, -1), (60, -3), (61, -2), (68, 0), (69, 0), (71, 1), (74, 1), (75, 0), (83, -1), (85, 0), (87, 1), (89, -1), (90, -1), (91, 0), (93, 1), (95, -2), (96, -1), (97, -1), (98, 0), (99, 0), (100, 1), (101, 1), (107, -1), (108, -1), (109, 1), (110, 0), (114, -1), (115, -1), (117, -1), (118, -1), (119, -1), (120, 1), (121, 0), (122, -1), (123, 0), (124, 1), (125, -1), (126, 0), (127, 1), (128, -1), (129, -1), (131, 0), (134, 0), (135, 0), (136, 1), (137, 1), (138, -1), (139, 0), (140, 0), (143, 1), (144, 0), (145, -1), (146, -1), (147, -2), (149, 0), (150, 0), (151, 0), (152, -2), (162, -1), (163, -1), (164, -1), (165, -1), (172, 0), (173, 0), (174, -1), (175, 0), (176, 0), (238, 0), (239, 0), (240, 0), (241, 0), (242, -1), (243, 0), (244, 0), (245, 0), (246, 0), (247, 0), (248, 0), (249, 0), (250, 0), (251, -2), (252, -1), (253, 0), (259, 0), (260, 0), (261, 0), (262, 1), (263, -1), (264, -1), (265, -1), (266, -1)]

/-- opcodes whose effect depends on the jump: opcode, max, taken, not taken -/
def jumpEffects : List (Nat × Int × Int × Int) := [(256, 1, 1, 0), (257, 2, 2, 0), (258, 1, 1, 0)]

/-- opcodes whose effect depends on the argument -/
def argEffect (op a : Nat) : Option Int :=
  match op with
  | 92 => some ((a : Int) - 1)                         -- UNPACK_SEQUENCE
  | 94 => some ((a % 256 : Nat) + (a / 256 : Nat))     -- UNPACK_EX
  | 102 | 103 | 104 | 157 => some (1 - (a : Int))      -- BUILD_TUPLE/LIST/SET/STRING
  | 105 => some (1 - 2 * (a : Int))                    -- BUILD_MAP
  | 106 => some (a % 2 : Nat)                          -- LOAD_ATTR
  | 116 => some (1 + (a % 2 : Nat))                    -- LOAD_GLOBAL
  | 130 | 156 => some (-(a : Int))                     -- RAISE_VARARGS, BUILD_CONST_KEY_MAP
  | 132 => some (-((a % 2 : Nat) + (a / 2 % 2 : Nat) + (a / 4 % 2 : Nat) + (a / 8 % 2 : Nat)))  -- MAKE_FUNCTION
  | 133 => some (if a = 3 then -2 else -1)             -- BUILD_SLICE
  | 141 | 237 => some (-2 + (a % 2 : Nat))             -- LOAD_SUPER_ATTR
  | 142 => some (-2 - (a % 2 : Nat))                   -- CALL_FUNCTION_EX
  | 155 => some (if a / 4 % 2 = 1 then -1 else 0)      -- FORMAT_VALUE
  | 171 => some (-1 - (a : Int))                       -- CALL
  | _ => none

def stackEffect (op : Nat) (arg : Option Nat) (jump : Option Bool) : Option Int :=
  -- dis.stack_effect raises when an argument is given to / missing from the opcode
  if hasarg.contains op ≠ arg.isSome then none
  else match effects.find? (·.1 == op) with
    | some e => some e.2
    | none => match jumpEffects.find? (·.1 == op) with
      | some (_, m, t, f) => some (match jump with | none => m | some true => t | some false => f)
      | none => argEffect op (arg.getD 0)

def platform : Platform := mkPlatform 12 table caches hasarg.contains 237 144
  hasconst haslocal hasname hasfree hascompare hasjrel hasjabs stackEffect

theorem wf : platform.WF := mkPlatform_wf (by decide +kernel) (by decide +kernel) (by decide +kernel) (by decide +kernel)
  (by decide +kernel) (by decide +kernel) (by decide +kernel) (by decide +kernel) (by decide +kernel) (by decide +kernel)
  (by decide +kernel) (by decide +kernel) (by decide +kernel) (by decide +kernel) (by decide +kernel) (by decide +kernel) (by decide +kernel)

end Verif.Py312
