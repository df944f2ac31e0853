import Verif.Model.Bytecode
/-
`legalize` of `Bytecode`, `ConcreteBytecode` (src/bytecode/bytecode.py 139-163) and of `BasicBlock` /
`ControlFlowGraph` (src/bytecode/cfg.py 107-131, 473-477). Every occurrence of an instruction in a list is taken to be
a distinct object (the setter mutates the object). `SetLineno(None)`, which the code accepts, is not represented.
-/
namespace Verif

/-- What `legalize` looks at in an element. -/
inductive LineView where
  | setLineno (n : Nat)
  | instr (loc : Option Loc)
  | other

/-- Elements of the two kinds of lists: `view`, and the effect of assigning the location. -/
class Lined (α : Type) where
  view : α → LineView
  put : α → Option Loc → α

/-- Elements of a `Bytecode` or of a `BasicBlock` (instr.py 503-553: only `BaseInstr` has a line). -/
instance : Lined BElem where
  view
    | .setLineno n => .setLineno n
    | .instr i => .instr i.loc
    | _ => .other
  put
    | .instr i, l => .instr { i with loc := l }
    | e, _ => e

/-- Elements of a `ConcreteBytecode`. -/
instance : Lined CElem where
  view
    | .setLineno n => .setLineno n
    | .instr i => .instr i.loc
  put
    | .instr i, l => .instr { i with loc := l }
    | e, _ => e

/-- One instruction of the loop: `set_lineno`, else the location if set, else `current_lineno`; and the new
`current_lineno`. bytecode.py 154-159, cfg.py 122-127. -/
def legalizeInstr (py311 : Bool) (set_ : Option Nat) (cur : Nat) (loc : Option Loc) : Py (Option Loc × Nat) :=
  match set_ with
  | some n => (setLineno py311 loc (.val (some n))).map (·, cur)
  | none =>
    match loc with
    | none => (setLineno py311 none (.val (some cur))).map (·, cur)
    | some l => .ok (some l, l.lineno.getD cur)

/-- The loop and the removal of the SetLineno. `blk` selects `BasicBlock.legalize`, where SetLineno also sets
`current_lineno` (cfg.py 114-116) and `current_lineno` is returned. bytecode.py 139-163, cfg.py 107-131. -/
def legalizeLoop {α : Type} [Lined α] (py311 blk : Bool) (set_ : Option Nat) (cur : Nat) : List α → Py (List α × Nat)
  | [] => .ok ([], cur)
  | e :: r =>
    match Lined.view e with
    | .setLineno n => legalizeLoop py311 blk (some n) (if blk then n else cur) r
    | .other => do
      let (r', c) ← legalizeLoop py311 blk set_ cur r
      return (e :: r', c)
    | .instr loc => do
      let (l, cur) ← legalizeInstr py311 set_ cur loc
      let (r', c) ← legalizeLoop py311 blk set_ cur r
      return (Lined.put e l :: r', c)

/-- `Bytecode.legalize`, bytecode.py 139-163 -/
def Bytecode.legalize (P : Platform) (b : Bytecode) : Py Bytecode := do
  let (es, _) ← legalizeLoop P.py311 false none b.attrs.firstLineno b.elems
  return { b with elems := es }

/-- `ConcreteBytecode.legalize`, bytecode.py 139-163 -/
def Concrete.legalize (P : Platform) (c : Concrete) : Py Concrete := do
  let (es, _) ← legalizeLoop P.py311 false none c.attrs.firstLineno c.elems
  return { c with elems := es }

/-- `ControlFlowGraph.legalize`, cfg.py 473-477, on the contents of the blocks in order. -/
def legalizeBlocks (py311 : Bool) (cur : Nat) : List (List BElem) → Py (List (List BElem))
  | [] => .ok []
  | b :: r => do
    let (b', cur) ← legalizeLoop py311 true none cur b
    let r' ← legalizeBlocks py311 cur r
    return b' :: r'

end Verif
