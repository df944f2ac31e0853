import Verif.Model.ToConcrete
/-
What `co_consts`, `co_names` and `co_varnames` of the code object made from a Bytecode are: each value used, at the place of its first use.
-/
namespace Verif.Spec

/-- The first occurrence of each value, in order. Two values with the same key are the same value. -/
def firsts {α κ : Type} [DecidableEq κ] (key : α → κ) : List α → List α
  | [] => []
  | x :: r => x :: (firsts key r).filter (fun y => decide (key y ≠ key x))

/-- What an instruction uses, for all the instructions. -/
def usesOf {α : Type} (f : Instr → List α) (es : List BElem) : List α :=
  es.flatMap (fun | .instr i => f i | _ => [])

/-- The constant an instruction loads. -/
def constUse (P : Platform) (i : Instr) : List Arg := if P.hasconst i.opcode then [i.arg] else []

/-- The name (global, attribute, ...) an instruction uses: the last component when flags come with it. -/
def nameUse (P : Platform) (i : Instr) : List String :=
  if P.hasname i.opcode then
    match i.arg with
    | .str n => [n]
    | .tuple [_, .str n] => [n]
    | .tuple [_, _, .str n] => [n]
    | _ => []
  else []

/-- The local variables an instruction uses: one, or two for the two-variable opcodes of 3.13. -/
def localUse (P : Platform) (i : Instr) : List String :=
  if P.haslocal i.opcode then
    match i.arg with
    | .str n => [n]
    | .tuple [.str m, .str n] => [m, n]
    | _ => []
  else []

/-- The local variables a two-variable opcode uses. -/
def dualUse (P : Platform) (i : Instr) : List String := if P.dual i.opcode then localUse P i else []

end Verif.Spec
