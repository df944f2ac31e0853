import Verif.Model.Iter
import Verif.Model.ConcreteInstr
/-
Copies of containers (bytecode.py 53-66, 117-140, 255-258; concrete.py 299-304; cfg.py 87-106). The attributes that
hold Python lists are references into a store, so that sharing is visible.
-/
namespace Verif

/-- What a list may hold here. -/
inductive Val where
  | arg (a : Arg)
  | exc (e : ExcEntry)
  | elem (e : BElem)
  | celem (e : CElem)
deriving DecidableEq

/-- The lists of the heap. -/
structure Store where
  cells : Nat → List Val
  next : Nat

/-- A new list object. -/
def Store.alloc (h : Store) (v : List Val) : Store × Nat := (⟨upd h.cells h.next v, h.next + 1⟩, h.next)

/-- The immutable attributes of `BaseBytecode`, bytecode.py 34-52. -/
structure Scalars where
  argcount : Nat
  posonlyargcount : Nat
  kwonlyargcount : Nat
  flags : Nat
  firstLineno : Nat
  name : String
  qualname : String
  filename : String
  docstring : Option Arg
deriving DecidableEq

/-- bytecode.py 34-43 -/
def Scalars.default : Scalars := ⟨0, 0, 0, 0, 1, "<module>", "<module>", "<string>", none⟩

/-- The list attributes of the two containers. `elems` is the object itself, which is a list. -/
inductive Field where
  | elems | cellvars | freevars | argnames | consts | names | varnames | excTable
deriving DecidableEq

/-- A `Bytecode` or `ConcreteBytecode` object. `refs` gives the list each attribute refers to; `concrete` tells the
class (a Bytecode has no consts, names, varnames, exception_table; a ConcreteBytecode no argnames). -/
structure BcObj where
  concrete : Bool
  sc : Scalars
  refs : Field → Nat

def BcObj.fields (concrete : Bool) : List Field :=
  if concrete then [.elems, .cellvars, .freevars, .consts, .names, .varnames, .excTable]
  else [.elems, .cellvars, .freevars, .argnames]

/-- What the attribute of the object holds. -/
def BcObj.read (h : Store) (o : BcObj) (f : Field) : List Val := h.cells (o.refs f)

def setRef (r : Field → Nat) (f : Field) (x : Nat) : Field → Nat := fun g => if g = f then x else r g

/-- New lists for some attributes. -/
def allocFields (h : Store) (refs : Field → Nat) : List (Field × List Val) → Store × (Field → Nat)
  | [] => (h, refs)
  | (f, v) :: r => let (h, x) := h.alloc v; allocFields h (setRef refs f x) r

/-- `type(self)(value)`, bytecode.py 239-248, concrete.py 266-283: the elements are copied into the new list; the other
lists are new and empty (`exception_table or []`). -/
def BcObj.init (h : Store) (concrete : Bool) (elems : List Val) : Store × BcObj :=
  let (h, refs) := allocFields h (fun _ => 0)
    ((.elems, elems) :: ((BcObj.fields concrete).filter (· ≠ .elems)).map (fun f => (f, [])))
  (h, ⟨concrete, Scalars.default, refs⟩)

/-- `_copy_attr_from`, bytecode.py 53-64, 255-258, concrete.py 299-304: `cellvars` and `freevars` are copied, the other
lists are shared; `exception_table` is not copied. Both objects have the same class here. -/
def BcObj.copyAttrFrom (h : Store) (new old : BcObj) : Store × BcObj :=
  let (h, refs) := allocFields h new.refs [(.cellvars, h.cells (old.refs .cellvars)), (.freevars, h.cells (old.refs .freevars))]
  let refs := if old.concrete then setRef (setRef (setRef refs .consts (old.refs .consts)) .names (old.refs .names)) .varnames (old.refs .varnames)
    else setRef refs .argnames (old.refs .argnames)
  (h, ⟨new.concrete, old.sc, refs⟩)

/-- `copy()`, bytecode.py 136-140 -/
def BcObj.copy (h : Store) (o : BcObj) : Store × BcObj :=
  let (h, n) := BcObj.init h o.concrete (h.cells (o.refs .elems))
  BcObj.copyAttrFrom h n o

/-- `o[start:stop]`, bytecode.py 127-134 -/
def BcObj.slice (h : Store) (o : BcObj) (start stop : Nat) : Store × BcObj :=
  let (h, n) := BcObj.init h o.concrete (((h.cells (o.refs .elems)).take stop).drop start)
  BcObj.copyAttrFrom h n o

/-- A change of an object by its user. -/
inductive Edit where
  /-- mutation of the list an attribute refers to (`append`, `del`, item assignment, `sort` …) -/
  | mutate (f : Field) (v : List Val)
  /-- assignment of a new list to an attribute -/
  | assign (f : Field) (v : List Val)
  /-- assignment of the other attributes -/
  | scalars (s : Scalars)

def BcObj.edit (s : Store × BcObj) : Edit → Store × BcObj
  | .mutate f v => (⟨upd s.1.cells (s.2.refs f) v, s.1.next⟩, s.2)
  | .assign f v => let (h, x) := s.1.alloc v; (h, { s.2 with refs := setRef s.2.refs f x })
  | .scalars x => (s.1, { s.2 with sc := x })

end Verif
