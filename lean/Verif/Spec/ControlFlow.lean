/-
What CPython does after an instruction, by name. `exit` is IS_SCOPE_EXIT_OPCODE and `jump` IS_UNCONDITIONAL_JUMP_OPCODE of
CPython's compiler (compile.c, flowgraph.c); `branch` instructions either jump or go on; `setup` instructions push a handler
(before 3.11): their target is reached by an exception. All the others go on to the next instruction.
INTERPRETER_EXIT, which the compiler never emits, is left out.
-/
namespace Verif.Spec

inductive Flow | next | exit | jump | branch | setup
  deriving DecidableEq

def exits : List String := ["RETURN_VALUE", "RETURN_CONST", "RAISE_VARARGS", "RERAISE"]

def gotos : List String := ["JUMP_FORWARD", "JUMP_ABSOLUTE", "JUMP_BACKWARD", "JUMP_BACKWARD_NO_INTERRUPT"]

/-- 3.8 to 3.13 -/
def branches : List String := ["FOR_ITER", "SEND", "JUMP_IF_FALSE_OR_POP", "JUMP_IF_TRUE_OR_POP", "JUMP_IF_NOT_EXC_MATCH",
  "POP_JUMP_IF_FALSE", "POP_JUMP_IF_TRUE", "POP_JUMP_IF_NONE", "POP_JUMP_IF_NOT_NONE",
  "POP_JUMP_FORWARD_IF_FALSE", "POP_JUMP_FORWARD_IF_TRUE", "POP_JUMP_FORWARD_IF_NONE", "POP_JUMP_FORWARD_IF_NOT_NONE",
  "POP_JUMP_BACKWARD_IF_FALSE", "POP_JUMP_BACKWARD_IF_TRUE", "POP_JUMP_BACKWARD_IF_NONE", "POP_JUMP_BACKWARD_IF_NOT_NONE"]

def setups : List String := ["SETUP_FINALLY", "SETUP_WITH", "SETUP_ASYNC_WITH"]

def flow (n : String) : Flow :=
  if n ∈ exits then .exit else if n ∈ gotos then .jump else if n ∈ branches then .branch else if n ∈ setups then .setup else .next

/-- Backward jumps, as in `dis._is_backward_jump`, spelled out. -/
def backwards : List String := ["JUMP_BACKWARD", "JUMP_BACKWARD_NO_INTERRUPT", "POP_JUMP_BACKWARD_IF_FALSE", "POP_JUMP_BACKWARD_IF_TRUE",
  "POP_JUMP_BACKWARD_IF_NONE", "POP_JUMP_BACKWARD_IF_NOT_NONE"]

end Verif.Spec
