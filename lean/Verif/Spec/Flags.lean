import Verif.Model.Bytecode
/-
What the instructions of a code tell about its flags. An instruction is given by its name, its integer argument if it
has one, and whether it uses a cell or free variable.
-/
namespace Verif.Spec

structure FI where
  name : String
  arg : Option Int
  deref : Bool

/-- Bit numbers of `co_flags`. -/
def bOPTIMIZED := 0
def bNEWLOCALS := 1
def bVARARGS := 2
def bVARKEYWORDS := 3
def bNESTED := 4
def bGENERATOR := 5
def bNOFREE := 6
def bCOROUTINE := 7
def bITERABLE := 8
def bASYNCGEN := 9
def bGENSTOP := 23
def bANNOTATIONS := 24

/-- Does an operand mention a cell or free variable? -/
def mentionsCell : Arg → Bool
  | .cell _ => true
  | .free _ => true
  | .tuple l => l.any (fun a => match a with | .cell _ => true | .free _ => true | _ => false)
  | _ => false

/-- The instructions of a `Bytecode`: those of deref opcodes use a cell or free variable, and from 3.13 on those of
local-variable opcodes with such an operand. -/
def fiB (P : Platform) (es : List BElem) : List FI :=
  es.filterMap (fun | .instr i => some ⟨i.name, i.arg.asInt, P.hasfree i.opcode || P.haslocal i.opcode && mentionsCell i.arg⟩
                    | _ => none)

def fiC (P : Platform) (es : List CElem) : List FI :=
  es.filterMap (fun | .instr i => some ⟨i.name, i.arg.map Int.ofNat, P.hasfree i.opcode⟩ | _ => none)

/-- Instructions only found in `async def`. -/
def asyncNames (P : Platform) : List String :=
  ["GET_AWAITABLE", "GET_AITER", "GET_ANEXT", "BEFORE_ASYNC_WITH", "END_ASYNC_FOR"] ++
  (if P.py311 then (if P.py312 then [] else ["ASYNC_GEN_WRAP"]) else ["SETUP_ASYNC_WITH"])

/-- From 3.11 on, the RESUME after a YIELD_VALUE tells an await (argument 3 modulo 4) from a yield. -/
def AwaitAt (P : Platform) (l : List FI) (k : Nat) : Prop :=
  P.py311 = true ∧ (∃ i, l[k]? = some i ∧ i.name = "YIELD_VALUE") ∧ ∃ j v, l[k+1]? = some j ∧ j.arg = some v ∧ v % 4 = 3

/-- There is an async-only instruction. -/
def UsesAsync (P : Platform) (l : List FI) : Prop :=
  (∃ i ∈ l, i.name ∈ asyncNames P) ∨ ∃ k, AwaitAt P l k

/-- There is a yield. -/
def Yields (P : Platform) (l : List FI) : Prop :=
  ∃ k i, l[k]? = some i ∧ i.name = "YIELD_VALUE" ∧ ¬ AwaitAt P l k

/-- There is an instruction generators and coroutines have in common. -/
def GeneratorLike (P : Platform) (l : List FI) : Prop :=
  ∃ i ∈ l, i.name = (if P.py311 then "RETURN_GENERATOR" else "YIELD_FROM")

/-- Locals accessed by name. -/
def UsesNames (l : List FI) : Prop := ∃ i ∈ l, i.name ∈ ["STORE_NAME", "LOAD_NAME", "DELETE_NAME"]

/-- At most one of the four code kinds. -/
def OneKind (f : Nat) : Prop :=
  ([f.testBit bGENERATOR, f.testBit bCOROUTINE, f.testBit bITERABLE, f.testBit bASYNCGEN].count true) ≤ 1

/-- From 3.11 on every YIELD_VALUE is followed by a RESUME. -/
def ResumeOK (P : Platform) (l : List FI) : Prop :=
  P.py311 = true → ∀ k i, l[k]? = some i → i.name = "YIELD_VALUE" → ∃ j, l[k + 1]? = some j ∧ j.name = "RESUME" ∧
    j.arg.isSome = true

/-- The claims of C35 and C36 about a result `f` for the instructions `l`. -/
structure FlagsRight (P : Platform) (l : List FI) (flags : Nat) (isAsync : Option Bool) (f : Nat) : Prop where
  /-- async code stays async -/
  stays : isAsync ≠ some false → (flags.testBit bCOROUTINE = true ∨ flags.testBit bASYNCGEN = true) →
    (f.testBit bCOROUTINE = true ∨ f.testBit bASYNCGEN = true)
  /-- `is_async=False`: nothing async, and no async-only instruction -/
  forced : isAsync = some false → f.testBit bCOROUTINE = false ∧ f.testBit bASYNCGEN = false ∧
    f.testBit bITERABLE = false ∧ ¬ UsesAsync P l
  /-- `is_async=True`: async, except that iterable coroutines stay so -/
  wanted : isAsync = some true → f.testBit bCOROUTINE = true ∨ f.testBit bASYNCGEN = true ∨
    (f.testBit bITERABLE = true ∧ flags.testBit bITERABLE = true)
  /-- by inference, code becomes async only if it has an async-only instruction -/
  inferred : isAsync = none → flags.testBit bCOROUTINE = false → flags.testBit bASYNCGEN = false →
    (f.testBit bCOROUTINE = true ∨ f.testBit bASYNCGEN = true) → UsesAsync P l
  /-- an async generator has a yield, a coroutine has none -/
  asyncGen : f.testBit bASYNCGEN = true → Yields P l
  coroutine : f.testBit bCOROUTINE = true → ¬ Yields P l
  /-- a generator has a yield or starts as one, and has no async-only instruction -/
  generator : f.testBit bGENERATOR = true → (Yields P l ∨ GeneratorLike P l) ∧ ¬ UsesAsync P l
  optimized : f.testBit bOPTIMIZED = true ↔ ¬ UsesNames l

/-- The instruction names `infer_flags` looks for. -/
def flagNames : List String := ["STORE_NAME", "LOAD_NAME", "DELETE_NAME", "GET_AWAITABLE", "GET_AITER", "GET_ANEXT",
  "BEFORE_ASYNC_WITH", "SETUP_ASYNC_WITH", "END_ASYNC_FOR", "ASYNC_GEN_WRAP", "YIELD_VALUE", "YIELD_FROM",
  "RETURN_GENERATOR", "RESUME"]

/-- A fact about CPython's tables: those instructions have no variable operand. -/
def FlagOps (P : Platform) : Prop :=
  ∀ n ∈ flagNames, ∀ op, P.opmap n = some op → P.hasfree op = false ∧ P.haslocal op = false

end Verif.Spec
