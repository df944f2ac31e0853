import Verif.Model.CfgEqual
import Verif.Model.Flags
/-
`infer_flags` of a `ControlFlowGraph` (src/bytecode/flags.py 65-237), which looks at `_get_instructions()` (src/bytecode/cfg.py 601-646).
-/
namespace Verif

/-- What `infer_flags` sees of a jump or of a final instruction, cfg.py 622-640: the ConcreteInstr of a jump has the number of the block as argument; its
opcode is that of the name (simplification: taken from the Instr, whose opcode is that of its name too). -/
def flagLast (P : Platform) (c : CFG) (i : Instr) : Py FView :=
  if P.hasJump i.opcode then
    match i.arg.asBlock with
    | none => .error .assertionError
    | some b => do
      let k ← c.getBlockIndex b
      let n ← checkArgInt (.int k)
      return .instr i.name i.opcode (.int n)
  else .ok (.instr i.name i.opcode i.arg)

/-- The inner loop of `_get_instructions`, cfg.py 608-646, as `graphBlock` in Model/CfgEqual, with the items as `infer_flags` sees them: tuples for the try
markers. -/
def flagBlock (P : Platform) (c : CFG) (tries : List Nat) : List BElem → Py (List FView × List Nat)
  | [] => .ok ([], tries)
  | e :: r => do
    blkCheck P e r
    match e with
    | .label _ => .error .valueError
    | .setLineno _ => do
      let q ← flagBlock P c tries r
      return (.skip :: q.1, q.2)
    | .tryBegin t => do
      let _ ← c.getBlockIndex t.target
      let q ← flagBlock P c (setDefault tries t.id) r
      return (.tuple :: q.1, q.2)
    | .tryEnd id => do
      let _ ← (graphTryEnd tries id : Py (GraphItem Unit))
      let q ← flagBlock P c tries r
      return (.tuple :: q.1, q.2)
    | .instr i =>
      if P.hasJump i.opcode || isFinal i.name then do
        let x ← flagLast P c i
        match trailingTryEnd r with
        | none => return ([x], tries)
        | some id => do
          let _ ← (graphTryEnd tries id : Py (GraphItem Unit))
          return ([x, .tuple], tries)
      else do
        let q ← flagBlock P c tries r
        return (.instr i.name i.opcode i.arg :: q.1, q.2)

/-- The outer loop, cfg.py 607 -/
def flagBlocks (P : Platform) (c : CFG) (tries : List Nat) : List Nat → Py (List FView)
  | [] => .ok []
  | b :: r => do
    let p ← flagBlock P c tries (c.heap b).elems
    let q ← flagBlocks P c p.2 r
    return p.1 ++ q

/-- `infer_flags` of a `ControlFlowGraph`, flags.py 65-237: `_get_instructions()` makes the whole list before the loop. -/
def CFG.inferFlags (P : Platform) (c : CFG) (isAsync : Option Bool) : Py Nat := do
  let vs ← flagBlocks P c [] c.blocks
  Verif.inferFlags P false false c.attrs.flags vs isAsync

/-- `update_flags`, bytecode.py 106-108 -/
def CFG.updateFlags (P : Platform) (c : CFG) (isAsync : Option Bool) : Py CFG := do
  let f ← c.inferFlags P isAsync
  return { c with attrs := { c.attrs with flags := f } }

end Verif
