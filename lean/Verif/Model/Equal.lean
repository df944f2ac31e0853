import Verif.Model.CFG
/-
Equality of `Bytecode` objects: `_InstrList._flat` and `__eq__` (bytecode.py 180-232), which come before
`BaseBytecode.__eq__` in the method resolution order of `Bytecode` (bytecode.py 235-238).
-/
namespace Verif

/-- Python equality of values inside a tuple: bools are ints. -/
def Atom.pyNorm : Atom → Atom
  | .bool b => .int (if b then 1 else 0)
  | a => a

/-- A representative of the values that compare equal in Python: bools and members of IntEnum classes are ints. UNSET
only equals itself (instr.py 169-170). -/
def Arg.pyNorm : Arg → Arg
  | .bool b => .int (if b then 1 else 0)
  | .compare v => .int v
  | .intr1 v => .int v
  | .intr2 v => .int v
  | .tuple l => .tuple (l.map Atom.pyNorm)
  | a => a

/-- `Instr._cmp_key`, instr.py 814-818. `const_key` (instr.py 225-231) only matters through equality of keys: it is a
parameter. -/
def Instr.cmpKey {κ : Type} (P : Platform) (key : Arg → κ) (i : Instr) : Option Loc × String × (Arg ⊕ κ) :=
  (i.loc, i.name, if P.hasconst i.opcode then .inr (key i.arg) else .inl i.arg.pyNorm)

/-- An element of `_flat()`: the string `"label_instr%s"`, an Instr (through its comparison key), a SetLineno, the
ConcreteInstr standing for a jump, the tuples `("TryBegin", …)` and `("TryEnd", …)`. Before the labels are known,
`target` is the identity of the label. -/
inductive FlatItem (κ : Type) where
  | label (index : Nat)
  | instr (k : Option Loc × String × (Arg ⊕ κ))
  | setLineno (n : Nat)
  | jump (loc : Option Loc) (name : String) (target : Nat)
  | tryBegin (ord : Nat) (target : Nat) (lasti : Bool)
  | tryEnd (ord : Nat)
deriving DecidableEq

/-- `try_begins.setdefault(instr, len(try_begins))`, bytecode.py 197 -/
def setDefault (tries : List Nat) (id : Nat) : List Nat := if id ∈ tries then tries else tries ++ [id]

/-- The first loop of `_flat`, bytecode.py 192-211. `tries` are the keys of `try_begins` in order, `labels` the dict of
labels; `seen` belongs to `Bytecode.__iter__` (bytecode.py 249-259). An `Instr` whose argument is a Label is a jump
(other instructions do not accept labels), and has an argument, so that `ConcreteInstr(name, 0)` is accepted. -/
def flatLoop {κ : Type} (P : Platform) (key : Arg → κ) (seen : Bool) (index offset : Nat) (labels : Nat → Option Nat)
    (tries : List Nat) : List BElem → Py (List (FlatItem κ) × (Nat → Option Nat))
  | [] => .ok ([], labels)
  | .label l :: r => do
    let q ← flatLoop P key seen (index + 1) offset (upd labels l (some offset)) tries r
    return (.label index :: q.1, q.2)
  | .tryBegin t :: r =>
    if seen then .error .runtimeError
    else do
      let q ← flatLoop P key true (index + 1) offset labels (setDefault tries t.id) r
      return (.tryBegin ((setDefault tries t.id).idxOf t.id) t.target t.lasti :: q.1, q.2)
  | .tryEnd id :: r =>
    if id ∈ tries then do
      let q ← flatLoop P key false (index + 1) offset labels tries r
      return (.tryEnd (tries.idxOf id) :: q.1, q.2)
    else .error .keyError
  | .setLineno n :: r => do
    let q ← flatLoop P key seen (index + 1) (offset + 1) labels tries r
    return (.setLineno n :: q.1, q.2)
  | .instr i :: r => do
    let q ← flatLoop P key seen (index + 1) (offset + 1) labels tries r
    match i.arg with
    | .label l => return (.jump i.loc i.name l :: q.1, q.2)
    | _ => return (.instr (i.cmpKey P key) :: q.1, q.2)

/-- The last two loops of `_flat`, bytecode.py 213-224, on one element: a label that is not in the list is a KeyError
whatever the order of the lookups. -/
def flatResolve {κ : Type} (labels : Nat → Option Nat) : FlatItem κ → Py (FlatItem κ)
  | .jump loc name l => match labels l with
    | none => .error .keyError
    | some n => .ok (.jump loc name n)
  | .tryBegin o l lasti => match labels l with
    | none => .error .keyError
    | some n => .ok (.tryBegin o n lasti)
  | x => .ok x

/-- `mapM`, written out -/
def flatAll {κ : Type} (labels : Nat → Option Nat) : List (FlatItem κ) → Py (List (FlatItem κ))
  | [] => .ok []
  | x :: r => do
    let y ← flatResolve labels x
    let ys ← flatAll labels r
    return y :: ys

/-- `_flat`, bytecode.py 183-226 -/
def flat {κ : Type} (P : Platform) (key : Arg → κ) (es : List BElem) : Py (List (FlatItem κ)) := do
  let q ← flatLoop P key false 0 0 (fun _ => none) [] es
  flatAll q.2 q.1

/-- `a == b` for two `Bytecode` objects, bytecode.py 228-232. -/
def Bytecode.eq {κ : Type} [DecidableEq κ] (P : Platform) (key : Arg → κ) (a b : Bytecode) : Py Bool := do
  let fa ← flat P key a.elems
  let fb ← flat P key b.elems
  return decide (fa = fb)

end Verif
