import Verif.Model.CFG
/-
`ControlFlowGraph.from_bytecode` and `to_bytecode` (src/bytecode/cfg.py 743-1046).

The identity of a block made by `from_bytecode` is its position (blocks are only appended); that of a Label made by
`to_bytecode` is the block it stands for; the `TryBegin` objects made by `from_bytecode` are numbered in order of creation, those
made by `to_bytecode` have the number of the TryBegin of the graph they copy. A TryBegin object that occurs twice in
one bytecode or graph is not represented faithfully (its copies are, but later lookups by object are not).
-/
namespace Verif

/-- `label_to_block_index`, cfg.py 746-751: position of the last occurrence of a label. -/
def labelIndex (l : Nat) (es : List BElem) : Option Nat :=
  ((List.range es.length).filter (fun k => decide (es[k]? = some (.label l)))).getLast?

/-- `try_end_locations`, cfg.py 757-758: position of the last TryEnd of a TryBegin. -/
def tryEndIndex (id : Nat) (es : List BElem) : Option Nat :=
  ((List.range es.length).filter (fun k => decide (es[k]? = some (.tryEnd id)))).getLast?

/-- The label an element refers to, cfg.py 752-756 -/
def refLabel : BElem → Option Nat
  | .instr i => match i.arg with
    | .label l => some l
    | _ => none
  | .tryBegin t => some t.target
  | _ => none

/-- `block_starts`, cfg.py 760-764: the position of each label referred to; KeyError for a label that is nowhere. The
label stored at a position is the one found there. -/
def blockStarts (es : List BElem) : Py (List Nat) :=
  (es.filterMap refLabel).mapM (fun l => match labelIndex l es with | some k => .ok k | none => .error .keyError)

/-- State of the main loop of `from_bytecode`, cfg.py 766-786. `done` are the blocks before the current one, `cur` the
current one, `labels` the dictionary of that name, `tries` the last TryBegin made for each TryBegin, `ends` the
dictionary `add_try_end` (in insertion order), `ids` the number of TryBegin made. -/
structure FromSt where
  done : List Blk
  cur : Blk
  labels : Nat → Option Nat
  tries : Nat → Option Nat
  ends : List (Nat × List Nat)
  active : Option TryB
  inserted : Bool
  last : Option Instr
  ids : Nat

/-- `block.append(x)` on the current block -/
def FromSt.push (s : FromSt) (e : BElem) : FromSt := { s with cur := ⟨s.cur.elems ++ [e], s.cur.next⟩ }

/-- `old_block.append(x)` on the block before the current one -/
def FromSt.pushOld (s : FromSt) (e : BElem) : FromSt :=
  { s with done := match s.done.getLast? with
    | some b => s.done.dropLast ++ [⟨b.elems ++ [e], b.next⟩]
    | none => s.done }

/-- `add_block()`, connected or not to the current block, cfg.py 796-803, 811-820 -/
def FromSt.open_ (s : FromSt) (connect : Bool) : FromSt :=
  { s with done := s.done ++ [⟨s.cur.elems, if connect then some (s.done.length + 1) else s.cur.next⟩], cur := ⟨[], none⟩ }

/-- Whether a new block is needed, cfg.py 786-820; `start` says that the position is in `block_starts`. The result tells
whether a block was created. -/
def FromSt.enter (P : Platform) (s : FromSt) (index : Nat) (start : Bool) (e : BElem) : Py (FromSt × Bool) :=
  if start then
    let (s, opened) := match decide (index ≠ 0), lastInstr s.cur.elems with
      | true, some li => (s.open_ (!isFinal li.name), true)
      | _, _ => (s, false)
    match e with
    | .label l => .ok ({ s with labels := upd s.labels l (some s.done.length) }, opened)
    | _ => .ok (s, opened)
  else match lastInstr s.cur.elems, s.last with
    | some _, some i =>
      if isFinal i.name then .ok (s.open_ false, true)
      else if P.hasJump i.opcode then
        match i.arg with
        | .label _ => .ok (s.open_ true, true)
        | _ => .error .assertionError
      else .ok (s, false)
    | _, _ => .ok (s, false)

/-- `add_try_end[label].append(x)` -/
def addEnd (label id : Nat) : List (Nat × List Nat) → List (Nat × List Nat)
  | [] => [(label, [id])]
  | (l, ids) :: r => if l = label then (l, ids ++ [id]) :: r else (l, ids) :: addEnd label id r

/-- The jump leaves the active region, cfg.py 846-861 -/
def FromSt.leave (P : Platform) (es : List BElem) (s : FromSt) (i : Instr) (t : TryB) (nid : Nat) : Py FromSt :=
  match P.hasJump i.opcode, tryEndIndex t.id es with
  | true, some te =>
    match i.arg with
    | .label l =>
      match labelIndex l es with
      | some k => .ok (if k ≥ te then { s with ends := addEnd l nid s.ends } else s)
      | none => .error .keyError
    | _ => .error .typeError
  | _, _ => .ok s

/-- The try markers to add when a block was created after instruction `i`, cfg.py 822-875. `none` in the second
component means: go on with the element; `true`: it has been dealt with (`continue`). -/
def FromSt.bridge (P : Platform) (es : List BElem) (s : FromSt) (temp : Bool) (i : Instr) (e : BElem) : Py (FromSt × Bool) :=
  match isFinal i.name, e, s.active with
  | true, .tryEnd _, none => .error .assertionError
  | true, .tryEnd _, some t =>
    match s.tries t.id with
    | some nid => .ok ({ s.pushOld (.tryEnd nid) with active := none }, true)
    | none => .error .keyError
  | fin, _, some t =>
    match s.tries t.id with
    | none => .error .keyError
    | some nid => do
      let s ← s.leave P es i t nid
      if fin && temp then
        let s := (s.pushOld (.tryEnd nid)).push (.tryBegin ⟨s.ids, t.target, t.lasti, none⟩)
        return ({ s with tries := upd s.tries t.id (some s.ids), ids := s.ids + 1, inserted := true }, false)
      else return (s, false)
  | _, _, none => .ok (s, false)

/-- The element itself, cfg.py 877-904 -/
def FromSt.copyElem (s : FromSt) (e : BElem) : Py FromSt :=
  match e with
  | .label _ => .ok { s with last := none }
  | .setLineno n => .ok { s.push (.setLineno n) with last := none }
  | .instr i => .ok { s.push (.instr i) with last := some i }
  | .tryBegin t =>
    if s.active.isSome then .error .assertionError
    else .ok { s.push (.tryBegin { t with id := s.ids }) with active := some t, inserted := true, tries := upd s.tries t.id (some s.ids), ids := s.ids + 1, last := none }
  | .tryEnd id =>
    match s.tries id with
    | none => .error .keyError
    | some nid => .ok { s.push (.tryEnd nid) with active := none, inserted := false, last := none }

/-- One turn of the loop, cfg.py 786-904 -/
def FromSt.step (P : Platform) (es : List BElem) (starts : List Nat) (s : FromSt) (index : Nat) (e : BElem) : Py FromSt := do
  let (s, opened) ← s.enter P index (decide (index ∈ starts)) e
  if opened then
    let temp := s.inserted
    let s := { s with inserted := false }
    match s.last with
    | some i =>
      let (s, dealt) ← s.bridge P es temp i e
      if dealt then return s else s.copyElem e
    | none => s.copyElem e
  else s.copyElem e

/-- The loop, cfg.py 786-904 -/
def fromLoop (P : Platform) (es : List BElem) (starts : List Nat) (index : Nat) (s : FromSt) : List BElem → Py FromSt
  | [] => .ok s
  | e :: r => do
    let s ← s.step P es starts index e
    fromLoop P es starts (index + 1) s r

/-- The TryEnds at the beginning of a block, cfg.py 909-920 -/
def leadingEnds : List BElem → List Nat
  | .tryEnd id :: r => id :: leadingEnds r
  | _ => []

/-- Insertion of the missing TryEnds at the beginning of a block, cfg.py 921-924 -/
def insertEnds (existing : List Nat) (es : List BElem) : List Nat → List BElem
  | [] => es
  | id :: r => if id ∈ existing then insertEnds existing es r else insertEnds (id :: existing) (.tryEnd id :: es) r

/-- `for lab, tes in add_try_end.items()`, cfg.py 906-924 -/
def applyEnds (labels : Nat → Option Nat) (bs : List Blk) : List (Nat × List Nat) → Py (List Blk)
  | [] => .ok bs
  | (l, ids) :: r =>
    match labels l with
    | none => .error .keyError
    | some k =>
      applyEnds labels (match bs[k]? with
        | some b => bs.set k ⟨insertEnds (leadingEnds b.elems) b.elems ids, b.next⟩
        | none => bs) r

/-- Labels replaced by blocks in one element, cfg.py 926-937. The assignment `instr.arg = block` checks the argument again;
a block is accepted where a label is (theorem `checkArg_block`). -/
def toBlockElem (labels : Nat → Option Nat) (e : BElem) : Py BElem :=
  match e with
  | .instr i =>
    match i.arg with
    | .label l =>
      match labels l with
      | some b => .ok (.instr { i with arg := .block b })
      | none => .error .keyError
    | _ => .ok e
  | .tryBegin t =>
    match labels t.target with
    | some b => .ok (.tryBegin { t with target := b })
    | none => .error .keyError
  | _ => .ok e

/-- A graph made of a list of blocks. -/
def CFG.ofBlocks (attrs : Attrs) (argnames : List String) (bs : List Blk) : CFG where
  attrs := attrs
  argnames := argnames
  blocks := List.range bs.length
  index := fun b => if b < bs.length then some (b : Int) else none
  heap := fun b => bs[b]?.getD ⟨[], none⟩
  fresh := bs.length

/-- `ControlFlowGraph.from_bytecode`, cfg.py 743-939. The iteration check of `Bytecode.__iter__` (the first loop) comes
first. -/
def fromBytecode (P : Platform) (bc : Bytecode) : Py CFG := do
  (iterElems false bc.elems).2
  let starts ← blockStarts bc.elems
  let s ← fromLoop P bc.elems starts 0 ⟨[], ⟨[], none⟩, fun _ => none, fun _ => none, [], none, false, none, 0⟩ bc.elems
  let bs ← applyEnds s.labels (s.done ++ [s.cur]) s.ends
  let bs ← bs.mapM (fun b => do
    let es ← b.elems.mapM (toBlockElem s.labels)
    return (⟨es, b.next⟩ : Blk))
  return CFG.ofBlocks bc.attrs bc.argnames bs

/-! ### `to_bytecode` -/

/-- `used_blocks`, cfg.py 944-951 -/
def usedBlocks (P : Platform) (heap : Nat → Blk) : List Nat → Py (List Nat)
  | [] => .ok []
  | b :: r => do
    let j ← blkGetJump P (heap b).elems
    blkIter P (heap b).elems
    let u ← usedBlocks P heap r
    return j.toList ++ (heap b).elems.filterMap (fun | .tryBegin t => some t.target | _ => none) ++ u

/-- `min` of two stack depths, UNSET being an int of value 0: Python returns the first of two equal values. -/
def minDepth : Option Nat → Option Nat → Option Nat
  | some a, some b => some (min a b)
  | some 0, none => some 0
  | _, _ => none

/-- `byt_tb.stack_depth = d` -/
def setTryDepth (id : Nat) (d : Option Nat) (es : List BElem) : List BElem :=
  es.map (fun
    | .tryBegin t => if t.id = id then .tryBegin { t with depth := d } else .tryBegin t
    | e => e)

/-- The depth of a TryBegin of the output. -/
def tryDepth (id : Nat) (es : List BElem) : Option Nat :=
  (es.findSome? (fun
    | .tryBegin t => if t.id = id then some t.depth else none
    | _ => none)).join

/-- State of the loop of `to_bytecode`, cfg.py 953-965. `tries`: for each TryBegin of the graph already met, its data and the
TryBegin of the output it became. `lastTB`: a TryBegin of the graph and its copy. `lastTE`: the data of the entry of the
TryEnd of the graph, the entry of its copy and the position of the copy in the output (`none` once removed). -/
structure ToSt where
  out : List BElem
  tries : Nat → Option (TryB × Nat)
  seen : List Nat
  lastTB : Option (TryB × Nat)
  lastTE : Option (TryB × Nat × Option Nat)

/-- A TryBegin met while another is open, cfg.py 977-985 -/
def ToSt.nested (s : ToSt) (t : TryB) : Py ToSt :=
  match s.lastTB with
  | none => .ok s
  | some (ct, bid) => do
    pyAssert (decide (t.target = ct.target))
    pyAssert (t.lasti == ct.lasti)
    return { s with out := setTryDepth bid (minDepth (tryDepth bid s.out) t.depth) s.out }

/-- The depth of a fused TryBegin, cfg.py 998-1006 -/
def fusedDepth (a b : Option Nat) : Py (Option Nat) :=
  match a, b with
  | none, none => .ok none
  | none, some _ => .error .assertionError
  | some a, b => .ok (minDepth (some a) b)

/-- The copy of a TryBegin, cfg.py 1010-1013 -/
def ToSt.freshTry (s : ToSt) (t : TryB) : ToSt :=
  { s with out := s.out ++ [.tryBegin t], tries := upd s.tries t.id (some (t, t.id)), lastTB := some (t, t.id), lastTE := none }

/-- The TryBegin continues the region of the TryEnd just copied: the TryEnd is removed, cfg.py 991-1009 -/
def ToSt.fuse (s : ToSt) (t entry : TryB) (bid : Nat) (pos : Option Nat) : Py ToSt := do
  let d ← fusedDepth entry.depth t.depth
  match pos with
  | none => .error .valueError
  | some p => .ok { s with out := (setTryDepth bid d s.out).eraseIdx p, tries := upd s.tries t.id (some (t, bid)), lastTE := some (entry, bid, none) }

/-- One element, cfg.py 972-1032. -/
def ToSt.step (s : ToSt) (e : BElem) : Py ToSt :=
  match e with
  | .tryBegin t => do
    let s ← s.nested t
    match s.lastTE with
    | some (entry, bid, pos) =>
      if entry.target = t.target ∧ entry.lasti = t.lasti then s.fuse t entry bid pos
      else return s.freshTry t
    | none => return s.freshTry t
  | .tryEnd id =>
    if id ∈ s.seen then .ok s
    else match s.tries id with
      | none => .error .keyError
      | some (t, bid) =>
        .ok { s with out := s.out ++ [.tryEnd bid], seen := id :: s.seen, lastTB := none, lastTE := some (t, bid, some s.out.length) }
  | .instr i => .ok { s with out := s.out ++ [.instr i], lastTE := none }
  | e => .ok { s with out := s.out ++ [e] }

/-- The elements of one block, cfg.py 972-1032 (the iteration checks have passed in `usedBlocks`). -/
def ToSt.run (s : ToSt) : List BElem → Py ToSt
  | [] => .ok s
  | e :: r => do
    let s ← s.step e
    s.run r

/-- The blocks, cfg.py 966-1032 -/
def toLoop (heap : Nat → Blk) (used : List Nat) (s : ToSt) : List Nat → Py ToSt
  | [] => .ok s
  | b :: r => do
    let s := if b ∈ used then { s with out := s.out ++ [.label b] } else s
    let s ← s.run (heap b).elems
    toLoop heap used s r

/-- Blocks replaced by labels in one element, cfg.py 1034-1039: only the blocks of the graph that are used have one. -/
def toLabelElem (labelled : List Nat) (e : BElem) : Py BElem :=
  match e with
  | .instr i =>
    match i.arg with
    | .block b => if b ∈ labelled then .ok (.instr { i with arg := .label b }) else .error .keyError
    | _ => .ok e
  | .tryBegin t => if t.target ∈ labelled then .ok e else .error .keyError
  | _ => .ok e

/-- `ControlFlowGraph.to_bytecode`, cfg.py 941-1046 -/
def CFG.toBytecode (P : Platform) (c : CFG) : Py Bytecode := do
  let used ← usedBlocks P c.heap c.blocks
  let s ← toLoop c.heap used ⟨[], fun _ => none, [], none, none⟩ c.blocks
  let es ← s.out.mapM (toLabelElem (c.blocks.filter (fun b => decide (b ∈ used))))
  return ⟨c.attrs, c.argnames, es⟩

end Verif
