import Verif.Model.Instr
/-
How many items of the value stack an instruction of CPython 3.11 uses (documentation of `dis`, 3.11): the items it
pops or looks at. The count follows `dis.stack_effect` for calls: `PRECALL n` removes the `n` arguments and leaves the
two items that `CALL` removes.
-/
namespace Verif.Spec

/-- `some n`: the instruction uses the top `n` items of the stack. `a` is the argument (0 when it is not an int).
Opcodes not listed (`none`) use no item. -/
def uses311 (name : String) (a : Nat) : Option Nat :=
  match name with
  | "POP_TOP" | "UNARY_POSITIVE" | "UNARY_NEGATIVE" | "UNARY_NOT" | "UNARY_INVERT" | "GET_LEN" | "MATCH_MAPPING"
  | "MATCH_SEQUENCE" | "PUSH_EXC_INFO" | "GET_AITER" | "GET_ANEXT" | "BEFORE_ASYNC_WITH" | "BEFORE_WITH" | "GET_ITER"
  | "GET_YIELD_FROM_ITER" | "PRINT_EXPR" | "LIST_TO_TUPLE" | "RETURN_VALUE" | "IMPORT_STAR" | "YIELD_VALUE"
  | "ASYNC_GEN_WRAP" | "POP_EXCEPT" | "STORE_NAME" | "UNPACK_SEQUENCE" | "UNPACK_EX" | "FOR_ITER" | "DELETE_ATTR"
  | "STORE_GLOBAL" | "LOAD_ATTR" | "IMPORT_FROM" | "JUMP_IF_FALSE_OR_POP" | "JUMP_IF_TRUE_OR_POP"
  | "POP_JUMP_FORWARD_IF_FALSE" | "POP_JUMP_FORWARD_IF_TRUE" | "POP_JUMP_FORWARD_IF_NONE"
  | "POP_JUMP_FORWARD_IF_NOT_NONE" | "POP_JUMP_BACKWARD_IF_FALSE" | "POP_JUMP_BACKWARD_IF_TRUE"
  | "POP_JUMP_BACKWARD_IF_NONE" | "POP_JUMP_BACKWARD_IF_NOT_NONE" | "STORE_FAST" | "STORE_DEREF" | "GET_AWAITABLE"
  | "LOAD_METHOD" => some 1
  | "BINARY_SUBSCR" | "BINARY_OP" | "MATCH_KEYS" | "CHECK_EXC_MATCH" | "CHECK_EG_MATCH" | "END_ASYNC_FOR"
  | "DELETE_SUBSCR" | "PREP_RERAISE_STAR" | "STORE_ATTR" | "COMPARE_OP" | "IMPORT_NAME" | "IS_OP" | "CONTAINS_OP"
  | "SEND" | "CALL" => some 2
  | "STORE_SUBSCR" | "MATCH_CLASS" => some 3
  | "WITH_EXCEPT_START" => some 4
  | "SWAP" | "COPY" | "BUILD_TUPLE" | "BUILD_LIST" | "BUILD_SET" | "BUILD_STRING" | "RAISE_VARARGS" => some a
  | "BUILD_MAP" => some (2 * a)
  | "BUILD_CONST_KEY_MAP" => some (a + 1)
  | "BUILD_SLICE" => some (if a = 3 then 3 else 2)
  | "MAKE_FUNCTION" => some (1 + a % 2 + a / 2 % 2 + a / 4 % 2 + a / 8 % 2)
  | "CALL_FUNCTION_EX" => some (3 + a % 2)
  | "FORMAT_VALUE" => some (1 + a / 4 % 2)
  | "PRECALL" => some (a + 2)
  | "RERAISE" => some (a + 1)
  -- the container is `a` items below the value(s) it receives
  | "LIST_APPEND" | "SET_ADD" | "LIST_EXTEND" | "SET_UPDATE" | "DICT_UPDATE" | "DICT_MERGE" => some (a + 1)
  | "MAP_ADD" => some (a + 2)
  | _ => none

end Verif.Spec
