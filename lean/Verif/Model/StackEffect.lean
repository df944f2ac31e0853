import Verif.Model.Instr
/-
Stack effects of instructions (src/bytecode/instr.py 297-407, 658-691).
-/
namespace Verif

/-- `name.startswith(pre)` -/
def strPrefix (pre name : String) : Bool := pre.toList.isPrefixOf name.toList

/-- The argument given to `dis.stack_effect`, instr.py 658-676. -/
def Instr.effectArg (P : Platform) (i : Instr) : Py (Option Int) :=
  if !P.hasArg i.opcode then .ok none
  else match i.arg with
    | .tuple l =>
      if P.bitflag i.opcode then
        match l with
        | [.bool b, _] => .ok (some (if b then 1 else 0))
        | [.int v, _] => .ok (some v)
        | [_, _] => .error .typeError
        | _ => .error .assertionError
      else if P.bitflag2 i.opcode then
        match l with
        | [.bool b, _, _] => .ok (some (if b then 1 else 0))
        | [.int v, _, _] => .ok (some v)
        | [_, _, _] => .error .typeError
        | _ => .error .assertionError
      else .ok (some 0)
    | a =>
      if P.hasconst i.opcode then .ok (some 0)
      else .ok (some (a.asInt.getD 0))

/-- `stack_effect`, instr.py 658-678. A negative argument (never accepted by the constructor) is not represented. -/
def Instr.stackEffect (P : Platform) (i : Instr) (jump : Option Bool) : Py Int := do
  let a ← i.effectArg P
  match P.stackEffect i.opcode (a.map Int.toNat) jump with
  | some e => .ok e
  | none => .error .valueError

/-- `STATIC_STACK_EFFECTS`, instr.py 301-361. The names of the table that start with `UNARY_`, `BINARY_` or `INPLACE_`
are those of `opmap`; an instruction always has such a name. -/
def staticEffect (P : Platform) (n : String) : Option (Int × Int) :=
  match n with
  | "ROT_TWO" => some (-2, 2)
  | "ROT_THREE" => some (-3, 3)
  | "ROT_FOUR" => some (-4, 4)
  | "DUP_TOP" => some (-1, 2)
  | "DUP_TOP_TWO" => some (-2, 4)
  | "GET_LEN" => some (-1, 2)
  | "GET_ITER" => some (-1, 1)
  | "GET_YIELD_FROM_ITER" => some (-1, 1)
  | "GET_AWAITABLE" => some (-1, 1)
  | "GET_AITER" => some (-1, 1)
  | "GET_ANEXT" => some (-1, 2)
  | "LIST_TO_TUPLE" => some (-1, 1)
  | "LIST_EXTEND" => some (-2, 1)
  | "SET_UPDATE" => some (-2, 1)
  | "DICT_UPDATE" => some (-2, 1)
  | "DICT_MERGE" => some (-2, 1)
  | "COMPARE_OP" => some (-2, 1)
  | "IS_OP" => some (-2, 1)
  | "CONTAINS_OP" => some (-2, 1)
  | "IMPORT_NAME" => some (-2, 1)
  | "ASYNC_GEN_WRAP" => some (-1, 1)
  | "PUSH_EXC_INFO" => some (-1, 2)
  | "BEFORE_ASYNC_WITH" => some (-1, 2)
  | "IMPORT_FROM" => some (-1, 2)
  | "COPY_DICT_WITHOUT_KEYS" => some (-2, 2)
  | "WITH_EXCEPT_START" => some (if P.py311 then (-4, 5) else (-7, 8))
  | "MATCH_CLASS" => some (-3, if P.py311 then 1 else 2)
  | "MATCH_MAPPING" => some (-1, 2)
  | "MATCH_SEQUENCE" => some (-1, 2)
  | "MATCH_KEYS" => some (-2, if P.py311 then 3 else 4)
  | "CHECK_EXC_MATCH" => some (-2, 2)
  | "CHECK_EG_MATCH" => some (-2, 2)
  | "PREP_RERAISE_STAR" => some (-2, 1)
  | "BINARY_SLICE" => some (-3, 1)
  | "LOAD_FROM_DICT_OR_GLOBALS" => some (-1, 1)
  | "LOAD_FROM_DICT_OR_DEREF" => some (-1, 1)
  | "LOAD_INTRISIC_1" => some (-1, 1)
  | "LOAD_INTRISIC_2" => some (-2, 1)
  | "SET_FUNCTION_ATTRIBUTE" => some (-2, 1)
  | "CONVERT_VALUE" => some (-1, 1)
  | "FORMAT_SIMPLE" => some (-1, 1)
  | "FORMAT_SPEC" => some (-2, 1)
  | "TO_BOOL" => some (-1, 1)
  | _ =>
    if strPrefix "UNARY_" n then some (-1, 1)
    else if strPrefix "BINARY_" n || strPrefix "INPLACE_" n then some (-2, 1)
    else none

/-- `arg` used as an int in a lambda of `DYNAMIC_STACK_EFFECTS` (UNSET is the int 0). -/
def effectInt (a : Arg) : Py Int :=
  match a with
  | .unset => .ok 0
  | a => match a.asInt with
    | some v => .ok v
    | none => .error .typeError

/-- `DYNAMIC_STACK_EFFECTS`, instr.py 364-407 -/
def dynamicEffect (P : Platform) (n : String) (effect : Int) (arg : Arg) (jump : Option Bool) : Option (Py (Int × Int)) :=
  match n with
  | "CALL" => some (if P.py312 then do let a ← effectInt arg; return (-2 - a, 1) else .ok (-2, 1))
  | "CALL_KW" => some (do let a ← effectInt arg; return (-3 - a, 1))
  | "LOAD_ATTR" => some (.ok (-1, 1 + effect))
  | "LOAD_SUPER_ATTR" => some (.ok (-3, 3 + effect))
  | "SWAP" => some (do let a ← effectInt arg; return (-a, a))
  | "COPY" => some (do let a ← effectInt arg; return (-a, a + effect))
  | "ROT_N" => some (do let a ← effectInt arg; return (-a, a))
  | "SET_ADD" => some (do let a ← effectInt arg; return (-a, a - 1))
  | "LIST_APPEND" => some (do let a ← effectInt arg; return (-a, a - 1))
  | "MAP_ADD" => some (do let a ← effectInt arg; return (-a, a - 2))
  | "FORMAT_VALUE" => some (.ok (effect - 1, 1))
  | "FOR_ITER" => some (.ok (if jump = some true then (effect, 0) else (-1, 2)))
  | "UNPACK_SEQUENCE" => some (.ok (-1, effect + 1))
  | "UNPACK_EX" => some (.ok (-1, effect + 1))
  | "MAKE_FUNCTION" => some (.ok (effect - 1, 1))
  | "CALL_FUNCTION" => some (.ok (effect - 1, 1))
  | "CALL_FUNCTION_EX" => some (.ok (effect - 1, 1))
  | "CALL_FUNCTION_KW" => some (.ok (effect - 1, 1))
  | "CALL_METHOD" => some (.ok (effect - 1, 1))
  | _ => if strPrefix "BUILD_" n then some (.ok (effect - 1, 1)) else none

/-- `pre_and_post_stack_effect`, instr.py 680-691 -/
def Instr.prePost (P : Platform) (i : Instr) (jump : Option Bool) : Py (Int × Int) := do
  let effect ← i.stackEffect P jump
  match staticEffect P i.name with
  | some e => .ok e
  | none =>
    match dynamicEffect P i.name effect i.arg jump with
    | some e => e
    | none => .ok (effect, 0)

/-- The effects used by `compute_stacksize`, cfg.py 325-329, 378-382 -/
def effOf (P : Platform) (check : Bool) (i : Instr) (jump : Bool) : Py (Int × Int) :=
  if check then i.prePost P (some jump)
  else do
    let e ← i.stackEffect P (some jump)
    return (e, 0)

end Verif
