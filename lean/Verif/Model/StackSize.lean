import Verif.Model.CFG
import Verif.Model.Flags
/-
`_StackSizeComputer` and `ControlFlowGraph.compute_stacksize` (src/bytecode/cfg.py 154-461, 497-594).

The generators of the code, driven by a stack of suspended generators, are modelled as the recursive calls they encode.
`eff i jump` is the pair of stack effects used for an instruction: `pre_and_post_stack_effect(jump=jump)` when
`check_pre_and_post` holds, `(stack_effect(jump=jump), 0)` otherwise (cfg.py 325-329, 378-382).
-/
namespace Verif

/-- What the computation reads: the tables, the effects, the graph. -/
structure SizeEnv where
  P : Platform
  eff : Instr → Bool → Py (Int × Int)
  c : CFG

/-- `_StackSizeComputationStorage`, cfg.py 169-197. -/
structure SizeSt where
  seen : List Nat
  starts : Nat → List (Int × Option Bool)
  tries : List TryB
  excStart : Nat → Int
  excMax : Nat → Int

/-- The fields of a `_StackSizeComputer` that change while a block is analysed, cfg.py 200-245. -/
structure SizeLoc where
  size : Int
  max : Int
  min : Int
  cur : Option TryB

/-- `_update_size`, cfg.py 154-162 and 420-426 -/
def SizeLoc.update (s : SizeLoc) (e : Int × Int) : Py SizeLoc :=
  if s.size + e.1 < 0 then .error .runtimeError
  else
    let size := s.size + e.1 + e.2
    .ok { s with size := size, max := Max.max s.max size, min := Min.min s.min size }

/-- Type of the analysis of a block: block, size, maxsize, minsize, exception_handler, pending_try_begin. -/
abbrev Visit := Nat → Int → Int → Int → Option Bool → Option TryB → SizeSt → Py (Int × SizeSt)

/-- The `TryBegin` object with a given identity, among those of the graph. (A TryEnd whose entry is in no block of the
graph is not represented.) -/
def CFG.findTry (c : CFG) (id : Nat) : Option TryB :=
  (c.blocks.flatMap (fun b => (c.heap b).elems)).findSome? (fun
    | .tryBegin t => if t.id = id then some t else none
    | _ => none)

/-- `_compute_exception_handler_stack_usage`, cfg.py 428-445 -/
def handlerUsage (env : SizeEnv) (rec : Visit) (s : SizeLoc) (target : Nat) (lasti : Bool) (st : SizeSt) : Py SizeSt :=
  if target ∈ env.c.blocks then
    if s.min < st.excStart target then do
      let (m, st) ← rec target s.min s.max s.min (some lasti) none st
      return { st with excStart := upd st.excStart target s.min, excMax := upd st.excMax target m }
    else .ok st
  else .error .keyError

/-- End of the analysis of block `b`: `seen_blocks.remove(id(self.block)); yield self.maxsize` -/
def leaveBlock (b : Nat) (s : SizeLoc) (st : SizeSt) : Py (Int × SizeSt) := .ok (s.max, { st with seen := st.seen.erase b })

/-- After the last element, cfg.py 401-414. `if self.block.next_block:` is the truth value of a list: an empty next
block is not followed. -/
def runEnd (env : SizeEnv) (rec : Visit) (b : Nat) (s : SizeLoc) (st : SizeSt) : Py (Int × SizeSt) :=
  match (env.c.heap b).next with
  | none => leaveBlock b s st
  | some n =>
    if (env.c.heap n).elems.isEmpty then leaveBlock b s st
    else do
      let (m, st) ← rec n s.size s.max s.min none s.cur st
      leaveBlock b { s with max := m } st

/-- TryEnd found after a final instruction, cfg.py 387-395: its handler is analysed whatever the current TryBegin. -/
def finalTryEnd (env : SizeEnv) (rec : Visit) (s : SizeLoc) (r : List BElem) (st : SizeSt) : Py SizeSt :=
  match trailingTryEnd r with
  | none => .ok st
  | some id =>
    match env.c.findTry id with
    | some t => handlerUsage env rec s t.target t.lasti st
    | none => .error .keyError

/-- TryEnd found after an unconditional jump, cfg.py 359-372. -/
def uncondTryEnd (env : SizeEnv) (rec : Visit) (s : SizeLoc) (r : List BElem) (st : SizeSt) : Py SizeSt :=
  match trailingTryEnd r, s.cur with
  | some id, some t => if t.id = id then handlerUsage env rec s t.target t.lasti st else .ok st
  | _, _ => .ok st

/-- The jump taken, cfg.py 322-354: the local state afterwards. -/
def jumpTaken (env : SizeEnv) (rec : Visit) (i : Instr) (r : List BElem) (s : SizeLoc) (st : SizeSt) : Py (SizeLoc × SizeSt) := do
  let e ← env.eff i true
  let taken ← s.update e
  match i.arg.asBlock with
  | none => .error .assertionError
  | some t =>
    let pend := if isFinal i.name && (trailingTryEnd r).isSome then none else s.cur
    let (m, st) ← rec t taken.size taken.max taken.min none pend st
    return ({ s with max := Max.max s.max m }, st)

/-- Loop over the elements of block `b`, cfg.py 279-399; `BasicBlock.__iter__` checks each element as it is reached. -/
def runElems (env : SizeEnv) (rec : Visit) (b : Nat) : List BElem → SizeLoc → SizeSt → Py (Int × SizeSt)
  | [], s, st => runEnd env rec b s st
  | e :: r, s, st => do
    blkCheck env.P e r
    match e with
    | .label _ => .error .valueError
    | .setLineno _ => runElems env rec b r s st
    | .tryBegin t => do
      pyAssert s.cur.isNone
      runElems env rec b r { s with cur := some t, min := s.size } { st with tries := st.tries ++ [t] }
    | .tryEnd id =>
      match s.cur with
      | none => runElems env rec b r s st
      | some t =>
        if t.id = id then do
          let st ← handlerUsage env rec s t.target t.lasti st
          runElems env rec b r { s with cur := none } st
        else runElems env rec b r s st
    | .instr i =>
      if env.P.hasJump i.opcode then do
        let (s, st) ← jumpTaken env rec i r s st
        if isUncondJump i.name then do
          let st ← uncondTryEnd env rec s r st
          leaveBlock b s st
        else do
          let e ← env.eff i false
          let s ← s.update e
          if isFinal i.name then do
            let st ← finalTryEnd env rec s r st
            leaveBlock b s st
          else runElems env rec b r s st
      else do
        let e ← env.eff i false
        let s ← s.update e
        if isFinal i.name then do
          let st ← finalTryEnd env rec s r st
          leaveBlock b s st
        else runElems env rec b r s st

/-- `_is_stacksize_computation_relevant`, cfg.py 447-461 -/
def relevantSize (P : Platform) (starts : List (Int × Option Bool)) (f : Int × Option Bool) : Bool :=
  if P.py311 then decide (f ∉ starts)
  else starts.all (fun g => decide (g.1 < f.1))

/-- The objects pushed for an exception handler, cfg.py 274-278 -/
def enterHandler (h : Option Bool) (s : SizeLoc) : Py SizeLoc :=
  match h with
  | none => .ok s
  | some l => s.update (0, 1 + (if l then 1 else 0))

/-- `_StackSizeComputer.run`, cfg.py 247-414, with at most `fuel` nested analyses. -/
def visit (env : SizeEnv) : Nat → Visit
  | 0 => fun _ _ _ _ _ _ _ => .error .outOfFuel
  | fuel + 1 => fun b size mx mn h pend st =>
    if b ∈ st.seen then .ok (mx, st)
    else if b ∉ env.c.blocks then .error .keyError
    else if !relevantSize env.P (st.starts b) (size, h) then .ok (mx, st)
    else do
      let st := { st with seen := b :: st.seen, starts := upd st.starts b ((size, h) :: st.starts b) }
      let s ← enterHandler h ⟨size, mx, mn, pend⟩
      runElems env (visit env fuel) b (env.c.heap b).elems s st

/-- The storage at the start, cfg.py 514-521 -/
def SizeSt.init : SizeSt := ⟨[], fun _ => [], [], fun _ => 32768, fun _ => -32768⟩

/-- `initial_stack_size`, cfg.py 525-535 -/
def initialSize (P : Platform) (flags : Nat) : Int :=
  if !P.py313 && P.py310 && decide (flags &&& (GENERATOR ||| COROUTINE ||| ASYNC_GENERATOR) ≠ 0) then 1 else 0

/-- `tb.stack_depth = d` for the TryBegin objects `id`, wherever they occur. -/
def CFG.setDepth (c : CFG) (id d : Nat) : CFG :=
  { c with heap := fun b => ⟨(c.heap b).elems.map (fun
      | .tryBegin t => if t.id = id then .tryBegin { t with depth := some d } else .tryBegin t
      | e => e), (c.heap b).next⟩ }

/-- The TryBegin without depth of the blocks never analysed, cfg.py 577-585 -/
def deadTries (env : SizeEnv) (st : SizeSt) : List Nat → Py (List Nat)
  | [] => .ok []
  | b :: r =>
    if (st.starts b).isEmpty then do
      blkIter env.P (env.c.heap b).elems
      let ids ← deadTries env st r
      return (env.c.heap b).elems.filterMap (fun
        | .tryBegin t => if t.depth.isNone then some t.id else none
        | _ => none) ++ ids
    else deadTries env st r

/-- The depth of the TryBegin encountered, cfg.py 587-592 -/
def assignDepths (env : SizeEnv) (st : SizeSt) (c : CFG) : List TryB → Py CFG
  | [] => .ok c
  | t :: r =>
    if t.target ∈ env.c.blocks then do
      pyAssert (decide (0 ≤ st.excStart t.target))
      assignDepths env st (c.setDepth t.id (st.excStart t.target).toNat) r
    else .error .keyError

/-- The maximum over the handlers, cfg.py 572-575 -/
def withHandlers (c : CFG) (st : SizeSt) (m : Int) : Int := c.blocks.foldl (fun a b => Max.max a (st.excMax b)) m

/-- `compute_stacksize`, cfg.py 497-594: the size and the graph with the depths set. -/
def CFG.computeStacksize (P : Platform) (eff : Instr → Bool → Py (Int × Int)) (c : CFG) (depths : Bool := true) :
    Py (Int × CFG) :=
  match c.blocks with
  | [] => .ok (0, c)
  | b :: _ => do
    let env : SizeEnv := ⟨P, eff, c⟩
    let (m, st) ← visit env (c.blocks.length + 1) b (initialSize P c.attrs.flags) 0 0 none none SizeSt.init
    let ids ← deadTries env st c.blocks
    let c1 := ids.foldl (fun c id => c.setDepth id 32768) c
    if depths then do
      let c2 ← assignDepths env st c1 st.tries
      return (withHandlers c st m, c2)
    else return (withHandlers c st m, c1)

end Verif
