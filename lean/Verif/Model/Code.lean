import Verif.Model.StackSize
import Verif.Model.CfgConv
import Verif.Model.ToBytecode
import Verif.Spec.LocFormat
/-
Code objects: `to_code` and `from_code` of the three containers (concrete.py 322-401, 848-926; bytecode.py 275-325;
cfg.py 1048-1066), `compute_stacksize` of the first two, equality of ConcreteBytecode (concrete.py 307-321, bytecode.py
66-97).
-/
namespace Verif
open Spec

/-- `types.CodeType`. `qualname` and `exctable` exist from 3.11 on. -/
structure Code where
  argcount : Nat
  posonlyargcount : Nat
  kwonlyargcount : Nat
  nlocals : Nat
  stacksize : Int
  flags : Nat
  code : Bytes
  consts : List Arg
  names : List String
  varnames : List String
  filename : String
  name : String
  qualname : String
  firstlineno : Nat
  linetable : Bytes
  exctable : Bytes
  freevars : List String
  cellvars : List String
deriving DecidableEq, Repr

/-- Environment: CPython 3.11+ keeps one table of variables (`co_localsplusnames`); a cell that is also a local variable
is a flag on the (first) local of that name, so `co_cellvars` lists these first, in the order of the locals
(Objects/codeobject.c, `PyCode_NewWithPosOnlyArgs` and `get_localsplus_names`). Before 3.11 the tuple is kept. -/
def codeCellvars (P : Platform) (varnames cellvars : List String) : List String :=
  if P.py311 then varnames.eraseDups.filter (· ∈ cellvars) ++ cellvars.filter (· ∉ varnames) else cellvars

/-- The end of `to_code`, concrete.py 875-926: writing the code object of a ConcreteBytecode with a given stack size.
The checks of the `CodeType` constructor (non negative counts, enough varnames for the arguments) are not represented. -/
def Concrete.emit (P : Platform) (c : Concrete) (stacksize : Int) : Py Code := do
  let (code, infos) := assembleCode P c.attrs.firstLineno c.elems
  let lnotab ← (if P.py311 then assembleLocations c.attrs.firstLineno infos
    else if P.py310 then assembleLinetable c.attrs.firstLineno infos
    else assembleLnotab c.attrs.firstLineno infos)
  let exc ← (if P.py311 then assembleExcTable c.excTable else .ok [])
  return { argcount := c.attrs.argcount, posonlyargcount := c.attrs.posonlyargcount
           kwonlyargcount := c.attrs.kwonlyargcount, nlocals := c.varnames.length, stacksize := stacksize
           flags := c.attrs.flags, code := code, consts := c.consts, names := c.names, varnames := c.varnames
           filename := c.attrs.filename, name := c.attrs.name, qualname := c.attrs.qualname
           firstlineno := c.attrs.firstLineno, linetable := lnotab, exctable := exc
           freevars := c.attrs.freevars, cellvars := codeCellvars P c.varnames c.attrs.cellvars }

/-- `Bytecode.compute_stacksize`, bytecode.py 287-289. `eff` holds the choice of `check_pre_and_post`. -/
def Bytecode.computeStacksize (P : Platform) (eff : Instr → Bool → Py (Int × Int)) (b : Bytecode) : Py Int := do
  let g ← fromBytecode P b
  let r ← g.computeStacksize P eff
  return r.1

/-- `ConcreteBytecode.compute_stacksize`, concrete.py 849-852 -/
def Concrete.computeStacksize (P : Platform) (eff : Instr → Bool → Py (Int × Int)) (c : Concrete) : Py Int := do
  let b ← toBytecode P true false c
  b.computeStacksize P eff

/-- Through the graph and back, with the stack size: concrete.py 864-872, bytecode.py 303-309. -/
def Bytecode.sized (P : Platform) (eff : Instr → Bool → Py (Int × Int)) (depths : Bool) (b : Bytecode) :
    Py (Int × Bytecode) := do
  let g ← fromBytecode P b
  let r ← g.computeStacksize P eff depths
  let b' ← r.2.toBytecode P
  return (r.1, b')

/-- `ConcreteBytecode.to_code`, concrete.py 854-926. The default number of passes is 10 (concrete.py 1146). -/
def Concrete.toCode {κ : Type} [DecidableEq κ] (P : Platform) (key : Arg → κ) (eff : Instr → Bool → Py (Int × Int))
    (c : Concrete) (stacksize : Option Int := none) (depths : Bool := true) : Py Code := do
  if P.py311 && depths then
    let b ← toBytecode P true false c
    let r ← b.sized P eff depths
    let c' ← toConcrete P key 10 r.2
    c'.emit P r.1
  else
    match stacksize with
    | some n => c.emit P n
    | none =>
      let b ← toBytecode P true false c
      let r ← b.sized P eff depths
      let c' ← toConcrete P key 10 r.2
      c'.emit P r.1

/-- `Bytecode.to_concrete_bytecode` with `compute_exception_stack_depths`, concrete.py 1475-1485. The stack size is
computed with the check, `eff`. -/
def toConcreteDepths {κ : Type} [DecidableEq κ] (P : Platform) (key : Arg → κ) (eff : Instr → Bool → Py (Int × Int))
    (passes : Nat) (depths : Bool) (b : Bytecode) : Py Concrete := do
  if P.py311 && depths then
    let r ← b.sized P eff true
    toConcrete P key passes r.2
  else toConcrete P key passes b

/-- `Bytecode.to_code`, bytecode.py 291-317. When a stack size is given and the depths are not computed (or before 3.11)
the code is assembled directly. -/
def Bytecode.toCode {κ : Type} [DecidableEq κ] (P : Platform) (key : Arg → κ) (eff : Instr → Bool → Py (Int × Int))
    (b : Bytecode) (passes : Nat := 10) (stacksize : Option Int := none) (depths : Bool := true) : Py Code := do
  if P.py311 && depths then
    let r ← b.sized P eff depths
    let c ← toConcrete P key passes r.2
    c.emit P r.1
  else
    match stacksize with
    | some n =>
      let c ← toConcrete P key passes b
      c.emit P n
    | none =>
      let r ← b.sized P eff depths
      let c ← toConcrete P key passes r.2
      c.emit P r.1

/-- `ControlFlowGraph.to_code`, cfg.py 1048-1066 -/
def CFG.toCode {κ : Type} [DecidableEq κ] (P : Platform) (key : Arg → κ) (eff : Instr → Bool → Py (Int × Int))
    (g : CFG) (stacksize : Option Int := none) (depths : Bool := true) : Py Code := do
  let r ← (match stacksize with
    | some n => .ok (n, g)
    | none => g.computeStacksize P eff depths : Py (Int × CFG))
  let b ← r.2.toBytecode P
  b.toCode P key eff 10 (some r.1) false

/-! ### Reading -/

/-- `InstrLocation.from_positions`, instr.py 493-500 -/
def locOfPos (p : Pos) : Py Loc := Loc.make true p.line p.endLine p.col p.endCol

/-- `Positions()`: nothing is known (dis gives this when `co_positions()` is exhausted). -/
def noPos : Pos := ⟨none, none, none, none⟩

/-- The CACHE units `dis` shows after an instruction: on 3.11 and 3.12 each takes its own position; on 3.13 bytecode adds
them itself with the location of the instruction. concrete.py 329-350 -/
def cacheReads (P : Platform) (loc : Loc) (pos : List Pos) : Nat → Py (List CInstr)
  | 0 => .ok []
  | n + 1 => do
    let l ← (if P.py313 then .ok loc else locOfPos (pos.headD noPos))
    let i ← CInstr.make P (some "CACHE") (.int 0) .unset (some l)
    let r ← cacheReads P loc (pos.drop 1) n
    return i :: r

/-- The loop of `from_code` on 3.11+, concrete.py 329-350, with the locations: one position per code unit, CACHE units
included. `caches` units (whose positions were taken) remain to be skipped. See `disUnits`. -/
def disCode (P : Platform) (caches : Nat) (pos : List Pos) : Bytes → Py (List CInstr)
  | op :: a :: rest =>
    match caches with
    | c + 1 => disCode P c pos rest
    | 0 => do
      let name ← (match P.opname op with | some n => .ok n | none => .error .valueError : Py String)
      let loc ← locOfPos (pos.headD noPos)
      let i ← CInstr.make P (some name) (if P.hasArg op then .int a else .unset) .unset (some loc)
      let cs ← cacheReads P loc (pos.drop 1) (P.cacheEntries op)
      let r ← disCode P (P.cacheEntries op) (pos.drop (1 + P.cacheEntries op)) rest
      return i :: cs ++ r
  | _ => .ok []

/-- `ConcreteBytecode.from_code`, concrete.py 322-401, on 3.11+. `co_positions()` is CPython's reader of the table
(Spec/LocFormat); a malformed table is read as empty here. -/
def Concrete.fromCode (P : Platform) (co : Code) (extendedArg : Bool := false) : Py Concrete := do
  let units ← disCode P 0 ((readLocs co.firstlineno co.linetable).getD []) co.code
  let elems ← (if extendedArg then .ok (units.map .instr) else removeExtendedArgs P 0 none (units.map .instr))
  return { attrs := { argcount := co.argcount, posonlyargcount := co.posonlyargcount
                      kwonlyargcount := co.kwonlyargcount, firstLineno := co.firstlineno, name := co.name
                      qualname := co.qualname, filename := co.filename, docstring := setDocstring none co.consts
                      cellvars := co.cellvars, freevars := co.freevars, flags := co.flags }
           consts := co.consts, names := co.names, varnames := co.varnames
           excTable := parseExcTable co.exctable, elems := elems }

/-- `Bytecode.from_code`, bytecode.py 275-285 -/
def Bytecode.fromCode (P : Platform) (co : Code) (prune : Bool := true) (conserve : Bool := false) : Py Bytecode := do
  let c ← Concrete.fromCode P co
  toBytecode P prune conserve c

/-! ### Equality -/

/-- `BaseBytecode.__eq__`, bytecode.py 66-97, up to the stack size; docstrings are compared as Python values (UNSET, a
str or None). -/
def Attrs.same (a b : Attrs) : Bool :=
  a.argcount == b.argcount && a.posonlyargcount == b.posonlyargcount && a.kwonlyargcount == b.kwonlyargcount &&
  a.flags == b.flags && a.firstLineno == b.firstLineno && a.filename == b.filename && a.name == b.name &&
  a.qualname == b.qualname && a.docstring == b.docstring && a.cellvars == b.cellvars && a.freevars == b.freevars

/-- `a == b` for two ConcreteBytecode objects, concrete.py 307-321, bytecode.py 66-97. -/
def Concrete.eq {κ : Type} [DecidableEq κ] (P : Platform) (key : Arg → κ) (eff : Instr → Bool → Py (Int × Int))
    (a b : Concrete) : Py Bool := do
  if a.consts.map key ≠ b.consts.map key then return false
  if a.names ≠ b.names then return false
  if a.varnames ≠ b.varnames then return false
  if !a.attrs.same b.attrs then return false
  let n ← a.computeStacksize P eff
  let m ← b.computeStacksize P eff
  return decide (n = m)

end Verif
