import Verif.Model.Instr
import Verif.Model.ExcTable
import Verif.Model.Assemble
/-
The containers `Bytecode` and `ConcreteBytecode` (src/bytecode/bytecode.py 33-273, concrete.py 251-320).
-/
namespace Verif

/-- Attributes of `BaseBytecode`, bytecode.py 33-52. `docstring = none` is UNSET. -/
structure Attrs where
  argcount : Nat
  posonlyargcount : Nat
  kwonlyargcount : Nat
  firstLineno : Nat
  name : String
  qualname : String
  filename : String
  docstring : Option Arg
  cellvars : List String
  freevars : List String
  flags : Nat
deriving DecidableEq, Repr

/-- A `TryBegin` object, instr.py 520-538. `id` is the object identity, `target` a Label (in a `Bytecode`) or a block
(in a CFG), `depth = none` is UNSET. Several occurrences of one object carry the same data. -/
structure TryB where
  id : Nat
  target : Nat
  lasti : Bool
  depth : Option Nat
deriving DecidableEq, Repr

/-- An element of a `Bytecode`. `tryEnd` holds the identity of its `TryBegin`. SetLineno holds a validated line
(`SetLineno(None)`, which the code accepts, is not represented). -/
inductive BElem where
  | instr (i : Instr)
  | label (l : Nat)
  | setLineno (n : Nat)
  | tryBegin (t : TryB)
  | tryEnd (id : Nat)
deriving DecidableEq, Repr

/-- `Bytecode`, bytecode.py 213-231. -/
structure Bytecode where
  attrs : Attrs
  argnames : List String
  elems : List BElem
deriving DecidableEq, Repr

/-- `ConcreteBytecode`, concrete.py 251-280. -/
structure Concrete where
  attrs : Attrs
  consts : List Arg
  names : List String
  varnames : List String
  excTable : List ExcEntry
  elems : List CElem
deriving DecidableEq, Repr

/-- `BaseBytecode.__init__`, bytecode.py 34-52 -/
def Attrs.default : Attrs := ⟨0, 0, 0, 1, "<module>", "<module>", "<string>", none, [], [], 0⟩

/-- `Bytecode.__iter__`, bytecode.py 233-245, on a list of the five allowed kinds: the elements yielded before the
error if any. `seen` is `seen_try_begin`. -/
def iterElems (seen : Bool) : List BElem → List BElem × Py Unit
  | [] => ([], .ok ())
  | .tryBegin t :: r =>
    if seen then ([], .error .runtimeError)
    else let (ys, e) := iterElems true r; (.tryBegin t :: ys, e)
  | .tryEnd t :: r => let (ys, e) := iterElems false r; (.tryEnd t :: ys, e)
  | x :: r => let (ys, e) := iterElems seen r; (x :: ys, e)

end Verif
