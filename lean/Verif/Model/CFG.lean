import Verif.Model.Bytecode
import Verif.Model.ToConcrete
import Verif.Model.Legalize
/-
`BasicBlock` and `ControlFlowGraph` (src/bytecode/cfg.py 32-151, 464-495, 663-742): blocks, iteration, editing,
dead blocks. Blocks are objects with an identity (a natural number); their contents live in a heap. The target of a
`TryBegin` of a block is always a block (a Label there makes iteration raise ValueError; not represented).
-/
namespace Verif

/-- A `BasicBlock`, cfg.py 32-42: the list and `next_block`. Elements are those of `BElem`; a Label in a block is the
example of a foreign object. -/
structure Blk where
  elems : List BElem
  next : Option Nat
deriving DecidableEq, Repr

/-- `ControlFlowGraph`, cfg.py 464-471. `index` is the dictionary `_block_index` (keyed by block identity), `heap` gives the
contents of every block object, `fresh` is above the identities in use. -/
structure CFG where
  attrs : Attrs
  argnames : List String
  blocks : List Nat
  index : Nat → Option Int
  heap : Nat → Blk
  fresh : Nat

/-- Update of a dictionary or of the heap. -/
def upd {α : Type} (f : Nat → α) (k : Nat) (v : α) : Nat → α := fun x => if x = k then v else f x

/-- `isinstance(x, Instr)` -/
def BElem.isInstr : BElem → Bool
  | .instr _ => true
  | _ => false

/-- `isinstance(instr.arg, BasicBlock)` and the block -/
def Arg.asBlock : Arg → Option Nat
  | .block b => some b
  | _ => none

/-- The checks of `BasicBlock.__iter__` on one element, `rest` being the elements after it, cfg.py 50-74. -/
def blkCheck (P : Platform) (e : BElem) (rest : List BElem) : Py Unit :=
  match e with
  | .label _ => .error .valueError
  | .instr i =>
    if P.hasJump i.opcode then
      if rest.any BElem.isInstr then .error .valueError
      else if i.arg.asBlock.isNone then .error .valueError
      else .ok ()
    else .ok ()
  | _ => .ok ()

/-- `BasicBlock.__iter__`, cfg.py 44-76, consumed to the end: the error raised if any. -/
def blkIter (P : Platform) : List BElem → Py Unit
  | [] => .ok ()
  | e :: r => do
    blkCheck P e r
    blkIter P r

/-- `get_last_non_artificial_instruction`, cfg.py 95-100 -/
def lastInstr (es : List BElem) : Option Instr :=
  es.reverse.findSome? (fun | .instr i => some i | _ => none)

/-- `get_jump`, cfg.py 133-143. A jump argument that is not a block fails the assertion. -/
def blkGetJump (P : Platform) (es : List BElem) : Py (Option Nat) :=
  match lastInstr es with
  | none => .ok none
  | some i =>
    if P.hasJump i.opcode then
      match i.arg.asBlock with
      | some b => .ok (some b)
      | none => .error .assertionError
    else .ok none

/-- `get_trailing_try_end(index)`, cfg.py 145-151, given the elements after `index`: the first TryEnd. -/
def trailingTryEnd (rest : List BElem) : Option Nat :=
  rest.findSome? (fun | .tryEnd t => some t | _ => none)

/-- `_add_block`, cfg.py 485-488, after `BasicBlock(instructions)`. -/
def CFG.addBlk (c : CFG) (blk : Blk) : CFG :=
  { c with blocks := c.blocks ++ [c.fresh], index := upd c.index c.fresh (some c.blocks.length), heap := upd c.heap c.fresh blk, fresh := c.fresh + 1 }

/-- `add_block(instructions)` with a plain sequence (or nothing), cfg.py 490-495, 33-42. -/
def CFG.addBlock (c : CFG) (es : List BElem) : CFG × Py Nat := (c.addBlk ⟨es, none⟩, .ok c.fresh)

/-- `add_block(block)` with a BasicBlock: `list.__init__` iterates it, cfg.py 41-42, 44-76. -/
def CFG.addBlockFrom (P : Platform) (c : CFG) (b : Nat) : CFG × Py Nat :=
  match blkIter P (c.heap b).elems with
  | .error e => (c, .error e)
  | .ok () => c.addBlock (c.heap b).elems

/-- `ControlFlowGraph()`, cfg.py 465-471 -/
def CFG.new : CFG := (CFG.mk Attrs.default [] [] (fun _ => none) (fun _ => ⟨[], none⟩) 0).addBlk ⟨[], none⟩

/-- `get_block_index`, cfg.py 479-483 -/
def CFG.getBlockIndex (c : CFG) (b : Nat) : Py Int :=
  match c.index b with
  | some i => .ok i
  | none => .error .valueError

/-- Position denoted by a Python list index. -/
def pyPos (len : Nat) (i : Int) : Option Nat :=
  let k := if i < 0 then i + len else i
  if 0 ≤ k ∧ k < len then some k.toNat else none

/-- Start of a slice `l[i:]`, and position of `l.insert(i, x)`. -/
def pyStart (len : Nat) (i : Int) : Nat :=
  if i < 0 then (i + len).toNat else min i.toNat len

/-- `range(a, n)` -/
def pyRange (a : Int) (n : Nat) : List Int := (List.range (n - a).toNat).map (fun (k : Nat) => a + (k : Int))

/-- `self._block_index[id(block)] += d` for the blocks of a list; KeyError when absent. The dictionary is modified up to
the error. cfg.py 686-688, 713-714 -/
def shiftIndex (d : Int) (index : Nat → Option Int) : List Nat → (Nat → Option Int) × Py Unit
  | [] => (index, .ok ())
  | b :: r =>
    match index b with
    | none => (index, .error .keyError)
    | some i => shiftIndex d (upd index b (some (i + d))) r

/-- The loop of `__delitem__`, cfg.py 686-688, over Python indexes. -/
def delLoop (blocks : List Nat) (index : Nat → Option Int) : List Int → (Nat → Option Int) × Py Unit
  | [] => (index, .ok ())
  | i :: r =>
    match (pyPos blocks.length i).bind (blocks[·]?) with
    | none => (index, .error .indexError)
    | some b =>
      match index b with
      | none => (index, .error .keyError)
      | some k => delLoop blocks (upd index b (some (k - 1))) r

/-- `del cfg[index]` with an int, cfg.py 680-688 -/
def CFG.delIndex (c : CFG) (i : Int) : CFG × Py Unit :=
  match pyPos c.blocks.length i with
  | none => (c, .error .indexError)
  | some k =>
    match c.blocks[k]? with
    | none => (c, .error .indexError)
    | some b =>
      let blocks := c.blocks.eraseIdx k
      match c.index b with
      | none => ({ c with blocks := blocks }, .error .keyError)
      | some _ =>
        let (index, r) := delLoop blocks (upd c.index b none) (pyRange i blocks.length)
        ({ c with blocks := blocks, index := index }, r)

/-- `del cfg[block]`, cfg.py 680-688 -/
def CFG.delBlock (c : CFG) (b : Nat) : CFG × Py Unit :=
  match c.getBlockIndex b with
  | .error e => (c, .error e)
  | .ok i => c.delIndex i

/-- The second half of `split_block` (cfg.py 708-719): the elements from `index` on are removed from the block, then
`BasicBlock(instructions)` iterates over them (ValueError leaves the block cut), then the new block is inserted. -/
def CFG.splitCut (P : Platform) (c : CFG) (bi : Int) (b : Nat) (k : Nat) : CFG × Py Nat :=
  let blk := c.heap b
  let tail := blk.elems.drop k
  let c1 := { c with heap := upd c.heap b ⟨blk.elems.take k, blk.next⟩ }
  match blkIter P tail with
  | .error e => (c1, .error e)
  | .ok () =>
    let n := c.fresh
    let c2 := { c1 with heap := upd (upd c1.heap b ⟨blk.elems.take k, some n⟩) n ⟨tail, none⟩, fresh := n + 1 }
    let pos := pyStart c.blocks.length (bi + 1)
    match shiftIndex 1 c.index (c.blocks.drop pos) with
    | (index, .error e) => ({ c2 with index := index }, .error e)
    | (index, .ok ()) =>
      ({ c2 with blocks := c.blocks.take pos ++ n :: c.blocks.drop pos, index := upd index n (some (bi + 1)) }, .ok n)

/-- `split_block`, cfg.py 690-721 -/
def CFG.splitBlock (P : Platform) (c : CFG) (block : Nat) (i : Int) : CFG × Py Nat :=
  match c.getBlockIndex block with
  | .error e => (c, .error e)
  | .ok bi =>
    if i < 0 then (c, .error .valueError)
    else
      match (pyPos c.blocks.length bi).bind (c.blocks[·]?) with
      | none => (c, .error .indexError)
      | some b =>
        if i = 0 then (c, .ok b)
        else if i > (c.heap b).elems.length then (c, .error .valueError)
        else
          let k := i.toNat
          if k = (c.heap b).elems.length ∧ bi + 1 < c.blocks.length then
            match (pyPos c.blocks.length (bi + 1)).bind (c.blocks[·]?) with
            | none => (c, .error .indexError)
            | some b' => (c, .ok b')
          else c.splitCut P bi b k

/-- The public edits of a CFG. `mutate` is any direct change of a block object (its list or its `next_block`). -/
inductive CFG.Op where
  | addBlock (es : List BElem)
  | addBlockFrom (b : Nat)
  | splitBlock (b : Nat) (i : Int)
  | delIndex (i : Int)
  | delBlock (b : Nat)
  | mutate (b : Nat) (blk : Blk)

/-- Effect of an edit; the exception if any is dropped (the caller may catch it and go on). -/
def CFG.step (P : Platform) (c : CFG) : CFG.Op → CFG
  | .addBlock es => (c.addBlock es).1
  | .addBlockFrom b => (c.addBlockFrom P b).1
  | .splitBlock b i => (c.splitBlock P b i).1
  | .delIndex i => (c.delIndex i).1
  | .delBlock b => (c.delBlock b).1
  | .mutate b blk => { c with heap := upd c.heap b blk }

/-- The blocks pushed by `get_dead_blocks` for one block, cfg.py 734-739. -/
def deadEdges (es : List BElem) : List Nat :=
  es.filterMap (fun
    | .instr i => i.arg.asBlock
    | .tryBegin t => some t.target
    | _ => none)

/-- The `while stack` loop of `get_dead_blocks`, cfg.py 727-739; the head of the list is the top of the stack. The
blocks are iterated, hence checked, one by one. -/
def deadLoop (P : Platform) (heap : Nat → Blk) : Nat → List Nat → List Nat → Py (List Nat)
  | 0, _, _ => .error .outOfFuel
  | _ + 1, [], seen => .ok seen
  | n + 1, b :: st, seen =>
    if b ∈ seen then deadLoop P heap n st seen
    else do
      blkIter P (heap b).elems
      deadLoop P heap n ((deadEdges (heap b).elems).reverse ++ st) (b :: seen)

/-- Enough turns for the loop: one per reference in the heap. -/
def CFG.deadFuel (c : CFG) : Nat := ((List.range c.fresh).map (fun b => (deadEdges (c.heap b).elems).length)).sum + 2

/-- `get_dead_blocks`, cfg.py 723-741 -/
def CFG.getDeadBlocks (P : Platform) (c : CFG) : Py (List Nat) :=
  match c.blocks with
  | [] => .ok []
  | b :: _ => do
    let seen ← deadLoop P c.heap c.deadFuel [b] []
    return c.blocks.filter (fun x => decide (x ∉ seen))

end Verif
