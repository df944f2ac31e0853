import Verif.Model.Code
import Verif.Spec.LineTables
/-
`from_code` on 3.8 to 3.10.
-/
namespace Verif
open Spec

/-- `dict(pairs)[key]` if present: the last pair wins. concrete.py 351, 353 -/
def dictGet {α : Type} (key : Nat) : List (Nat × α) → Option α
  | [] => none
  | (k, v) :: r =>
    match dictGet key r with
    | some x => some x
    | none => if k = key then some v else none

/-- `dis.findlinestarts(code)` of 3.8 and 3.9 (Lib/dis.py), used at concrete.py 353: pairs of a byte offset and the line that starts there.
`len` is the length of the code, `last` the last line given (`lastlineno`). -/
def findLinestarts (len : Nat) (last : Option Int) (line : Int) (addr : Nat) : Bytes → List (Nat × Int)
  | d :: l :: rest =>
    if d = 0 then findLinestarts len last (line + signed l) addr rest
    else
      (if some line ≠ last then [(addr, line)] else []) ++
        (if len ≤ addr + d then [] else findLinestarts len (some line) (line + signed l) (addr + d) rest)
  | _ => if some line ≠ last then [(addr, line)] else []

/-- `code.co_lines()` of 3.10 (Objects/codeobject.c, lineiter_next), used at concrete.py 351, without the ends of the ranges: empty
ranges are skipped. CPython stops at the end of the code; what is after is never looked up. -/
def coLines (addr : Nat) (line : Int) : Bytes → List (Nat × Option Int)
  | d :: l :: rest =>
    let line' := if signed l = -128 then line else line + signed l
    (if d = 0 then [] else [(addr, if signed l = -128 then none else some line')]) ++ coLines (addr + d) line' rest
  | _ => []

/-- `line_starts`, concrete.py 350-353 -/
def lineStarts (P : Platform) (co : Code) (off : Nat) : Option LinenoArg :=
  if P.py310 then (dictGet off (coLines 0 co.firstlineno co.linetable)).map LinenoArg.val
  else (dictGet off (findLinestarts co.code.length none co.firstlineno 0 co.linetable)).map (fun l => LinenoArg.val (some l))

/-- `ConcreteBytecode.from_code`, concrete.py 322-401, before 3.11. The qualified name is that of a new ConcreteBytecode
(concrete.py 398). -/
def Concrete.fromCodeOld (P : Platform) (co : Code) (extendedArg : Bool := false) : Py Concrete := do
  let units ← disassembleAll P (lineStarts P co) (.val (some co.firstlineno)) co.code co.code.length 0
  let elems ← (if extendedArg then .ok (units.map .instr) else removeExtendedArgs P 0 none (units.map .instr))
  return { attrs := { argcount := co.argcount, posonlyargcount := co.posonlyargcount
                      kwonlyargcount := co.kwonlyargcount, firstLineno := co.firstlineno, name := co.name
                      qualname := Attrs.default.qualname, filename := co.filename, docstring := setDocstring none co.consts
                      cellvars := co.cellvars, freevars := co.freevars, flags := co.flags }
           consts := co.consts, names := co.names, varnames := co.varnames
           excTable := [], elems := elems }

/-- `Bytecode.from_code`, bytecode.py 275-285, before 3.11 -/
def Bytecode.fromCodeOld (P : Platform) (co : Code) (prune : Bool := true) (conserve : Bool := false) : Py Bytecode := do
  let c ← Concrete.fromCodeOld P co
  toBytecode P prune conserve c

end Verif
