import Verif.Model.Bytecode
/-
`CompilerFlags` and `infer_flags` (src/bytecode/flags.py), `update_flags` (src/bytecode/bytecode.py 106-108).
-/
namespace Verif

/-! `CompilerFlags`, flags.py 12-38 -/
def OPTIMIZED : Nat := 0x1
def NEWLOCALS : Nat := 0x2
def VARARGS : Nat := 0x4
def VARKEYWORDS : Nat := 0x8
def NESTED : Nat := 0x10
def GENERATOR : Nat := 0x20
def NOFREE : Nat := 0x40
def COROUTINE : Nat := 0x80
def ITERABLE_COROUTINE : Nat := 0x100
def ASYNC_GENERATOR : Nat := 0x200
def FUTURE_GENERATOR_STOP : Nat := 0x800000
def FUTURE_ANNOTATIONS : Nat := 0x1000000

/-- `opcode in UNOPTIMIZED_OPCODES`, flags.py 41-45 -/
def unoptimizedOp (P : Platform) (op : Nat) : Bool :=
  P.isOp "STORE_NAME" op || P.isOp "LOAD_NAME" op || P.isOp "DELETE_NAME" op

/-- `opcode in ASYNC_OPCODES`, flags.py 47-55 -/
def asyncOp (P : Platform) (op : Nat) : Bool :=
  P.isOp "GET_AWAITABLE" op || P.isOp "GET_AITER" op || P.isOp "GET_ANEXT" op || P.isOp "BEFORE_ASYNC_WITH" op ||
  (!P.py311 && P.isOp "SETUP_ASYNC_WITH" op) || P.isOp "END_ASYNC_FOR" op ||
  (P.py311 && !P.py312 && P.isOp "ASYNC_GEN_WRAP" op)

/-- `opcode in GENERATOR_LIKE_OPCODES`, flags.py 58-61 -/
def generatorLikeOp (P : Platform) (op : Nat) : Bool :=
  (!P.py311 && P.isOp "YIELD_FROM" op) || (P.py311 && P.isOp "RETURN_GENERATOR" op)

/-- An element as `infer_flags` sees it: SetLineno, Label, TryBegin and TryEnd objects are skipped; an instruction; or
a tuple, which `ControlFlowGraph._get_instructions` makes of try markers and which has no `opcode`. -/
inductive FView where
  | skip
  | instr (name : String) (opcode : Nat) (arg : Arg)
  | tuple

/-- Elements of a `Bytecode`. -/
def BElem.fview : BElem → FView
  | .instr i => .instr i.name i.opcode i.arg
  | _ => .skip

/-- Elements of a `ConcreteBytecode`. -/
def CElem.fview : CElem → FView
  | .instr i => .instr i.name i.opcode (match i.arg with | some a => .int a | none => .unset)
  | .setLineno _ => .skip

/-- What the loop records, flags.py 99-105. -/
structure Scan where
  optimized : Bool
  hasFree : Bool
  knownAsync : Bool
  knownGenerator : Bool
  possibleGenerator : Bool
deriving DecidableEq, Repr

/-- `isinstance(arg[0], CellVar) or isinstance(arg[1], CellVar)`, flags.py 149 -/
def Arg.pairHasCell : Arg → Bool
  | .tuple [a, b] => (match a with | .cell _ => true | _ => false) || (match b with | .cell _ => true | _ => false)
  | _ => false

/-- One instruction, flags.py 117-157; the second component tells that the next instruction is to be consumed by a
YIELD_VALUE. -/
def scanInstr (P : Platform) (conc : Bool) (s : Scan) (op : Nat) (arg : Arg) : Scan × Bool :=
  if unoptimizedOp P op then ({ s with optimized := false }, false)
  else if asyncOp P op then ({ s with knownAsync := true }, false)
  else if P.isOp "YIELD_VALUE" op then
    if P.py311 then (s, true) else ({ s with knownGenerator := true }, false)
  else if generatorLikeOp P op then ({ s with possibleGenerator := true }, false)
  else if P.hasfree op then ({ s with hasFree := true }, false)
  else if !conc && P.dual op && arg.pairHasCell then ({ s with hasFree := true }, false)
  else if P.py313 && P.haslocal op && arg.isCellOrFree then ({ s with hasFree := true }, false)
  else (s, false)

/-- The int `ni.arg`; `& 3` on a non-int raises TypeError (UNSET is the int 0), flags.py 133. -/
def resumeArg : Arg → Py Int
  | .unset => .ok 0
  | a => match a.asInt with
    | some v => .ok v
    | none => .error .typeError

/-- The instruction consumed after YIELD_VALUE, flags.py 132-136. -/
def scanResume (s : Scan) (name : String) (arg : Arg) : Py Scan := do
  pyAssert (name == "RESUME")
  let v ← resumeArg arg
  return if v % 4 ≠ 3 then { s with knownGenerator := true } else { s with knownAsync := true }

/-- The loop, flags.py 106-157; `pend`: inside the `while isinstance(ni := next(instr_iter), …)` of a YIELD_VALUE. -/
def scanLoop (P : Platform) (conc : Bool) (pend : Bool) (s : Scan) : List FView → Py Scan
  | [] => if pend then .error .stopIteration else .ok s
  | .skip :: r => scanLoop P conc pend s r
  | .tuple :: _ => .error .attributeError
  | .instr name op arg :: r =>
    if pend then do
      let s ← scanResume s name arg
      scanLoop P conc false s r
    else
      let (s, p) := scanInstr P conc s op arg
      scanLoop P conc p s r

/-- The code kind, flags.py 178-231. -/
def inferKind (flags : Nat) (isAsync : Option Bool) (s : Scan) : Py Nat :=
  if isAsync ≠ some false then
    if flags &&& COROUTINE ≠ 0 ∨ flags &&& ASYNC_GENERATOR ≠ 0 then
      .ok (if s.knownGenerator then ASYNC_GENERATOR else COROUTINE)
    else if flags &&& ITERABLE_COROUTINE ≠ 0 then
      if s.knownAsync then .error .valueError else .ok ITERABLE_COROUTINE
    else if s.knownAsync then
      .ok (if s.knownGenerator then ASYNC_GENERATOR else COROUTINE)
    else if s.knownGenerator || s.possibleGenerator then
      if isAsync = some true then .ok (if s.knownGenerator then ASYNC_GENERATOR else COROUTINE)
      else .ok GENERATOR
    else if isAsync = some true then .ok COROUTINE
    else .ok 0
  else if s.knownAsync then .error .valueError
  else .ok (if s.knownGenerator || s.possibleGenerator then GENERATOR else 0)

/-- `infer_flags`, flags.py 65-237, on the views of the elements. `hasFree0` is `has_free` before the loop. -/
def inferFlags (P : Platform) (conc hasFree0 : Bool) (flags : Nat) (views : List FView) (isAsync : Option Bool) : Py Nat := do
  let s ← scanLoop P conc false ⟨true, hasFree0, false, false, false⟩ views
  let kind ← inferKind flags isAsync s
  return (if s.optimized then OPTIMIZED else 0) ||| (if s.hasFree then 0 else NOFREE) |||
    (flags &&& (NEWLOCALS ||| VARARGS ||| VARKEYWORDS ||| NESTED)) ||| kind ||| (flags &&& FUTURE_GENERATOR_STOP)

/-- `infer_flags` of a `Bytecode`. Its `__iter__` raises on nested TryBegin (bytecode.py 233-245); the iteration
error is raised when reached, here it is checked first (both raise). -/
def Bytecode.inferFlags (P : Platform) (b : Bytecode) (isAsync : Option Bool) : Py Nat := do
  (iterElems false b.elems).2
  Verif.inferFlags P false false b.attrs.flags (b.elems.map BElem.fview) isAsync

/-- `infer_flags` of a `ConcreteBytecode`; `has_free = cellvars and freevars`, flags.py 101. -/
def Concrete.inferFlags (P : Platform) (c : Concrete) (isAsync : Option Bool) : Py Nat :=
  Verif.inferFlags P true (!c.attrs.cellvars.isEmpty && !c.attrs.freevars.isEmpty) c.attrs.flags
    (c.elems.map CElem.fview) isAsync

/-- `update_flags`, bytecode.py 106-108 -/
def Bytecode.updateFlags (P : Platform) (b : Bytecode) (isAsync : Option Bool) : Py Bytecode := do
  let f ← b.inferFlags P isAsync
  return { b with attrs := { b.attrs with flags := f } }

def Concrete.updateFlags (P : Platform) (c : Concrete) (isAsync : Option Bool) : Py Concrete := do
  let f ← c.inferFlags P isAsync
  return { c with attrs := { c.attrs with flags := f } }

end Verif
