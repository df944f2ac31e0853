import Verif.Model.Bytecode
/-
`_ConvertBytecodeToConcrete` (src/bytecode/concrete.py 1145-1530).
-/
namespace Verif

/-- The tables built by the converter, concrete.py 1166-1170. `consts_indices` maps the key of the constant at each
position of `consts_list` to this position, so the list alone is kept. -/
structure Tabs where
  consts : List Arg
  names : List String
  varnames : List String
deriving DecidableEq, Repr

/-- `add`, concrete.py 1181-1188 -/
def addTo (l : List String) (n : String) : List String × Nat :=
  if n ∈ l then (l, l.idxOf n) else (l ++ [n], l.length)

/-- `add_const`, concrete.py 1172-1179; `key` is `const_key` (instr.py 225-231) -/
def addConst {κ : Type} [DecidableEq κ] (key : Arg → κ) (l : List Arg) (v : Arg) : List Arg × Nat :=
  if key v ∈ l.map key then (l, (l.map key).idxOf (key v)) else (l ++ [v], l.length)

/-- `list.index`, ValueError if absent. -/
def pyIndexOf (l : List String) (n : String) : Py Nat :=
  if n ∈ l then .ok (l.idxOf n) else .error .valueError

/-- `Compare._get_mask`, instr.py 76-90; `none`: falls through, returns None. -/
def compareMask (v : Nat) : Option Nat :=
  match v &&& 15 with
  | 2 => some 8
  | 3 => some 7
  | 0 => some 2
  | 1 => some 10
  | 4 => some 4
  | 5 => some 12
  | _ => none

/-- The integer for a COMPARE_OP operand, concrete.py 1336-1349. -/
def encodeCompare (P : Platform) (v : Nat) : Py Nat :=
  if P.py313 then
    match compareMask v with
    | some m => .ok (m + ((v &&& 15) <<< 5) + (v &&& 16))
    | none => .error .typeError
  else if P.py312 then
    match compareMask v with
    | some m => .ok (m + (v <<< 4))
    | none => .error .typeError
  else .ok v

/-- What the big `if` of `concrete_instructions` computes for one instruction, concrete.py 1265-1356: a plain argument,
a jump to a label, an index in cellvars or freevars to be shifted later, or two single instructions. -/
inductive Enc where
  | plain (c : CArg)
  | jump (label : Nat)
  | cell (i : Nat)
  | free (i : Nat)
  | split (n1 : String) (i1 : Nat) (n2 : String) (i2 : Nat)
deriving DecidableEq, Repr

/-- The last branch, concrete.py 1354-1356: `assert isinstance(arg, int)`. UNSET is an int. -/
def encodeInt (arg : Arg) : Py CArg :=
  match arg with
  | .unset => .ok .unset
  | a => match a.asInt with
    | some v => .ok (.int v)
    | none => .error .assertionError

/-- concrete.py 1265-1356. For COMPARE_OP and intrinsics with an argument of the wrong class (which the argument
checks exclude) `c_arg` would be unbound or stale: modelled as an error. -/
def encodeOperand {κ : Type} [DecidableEq κ] (P : Platform) (key : Arg → κ) (A : Attrs) (T : Tabs) (i : Instr) :
    Py (Tabs × Enc) :=
  match i.arg with
  | .label l => .ok (T, .jump l)
  | arg =>
  if P.hasconst i.opcode then
    let (l, k) := addConst key T.consts arg
    .ok ({ T with consts := l }, .plain (.int k))
  else if P.haslocal i.opcode then
    match P.dualSingles i.opcode with
    | some (n1, n2) =>
      match arg with
      | .tuple [.str a, .str b] =>
        let (l, i1) := addTo T.varnames a
        let (l, i2) := addTo l b
        if i1 > 16 || i2 > 16 then .ok ({ T with varnames := l }, .split n1 i1 n2 i2)
        else .ok ({ T with varnames := l }, .plain (.int ((i1 <<< 4) + i2 : Nat)))
      | _ => .error .assertionError
    | none =>
      match arg with
      | .str n =>
        let (l, k) := addTo T.varnames n
        .ok ({ T with varnames := l }, .plain (.int k))
      | .cell n => if P.py313 then do let k ← pyIndexOf A.cellvars n; return (T, .cell k) else .error .assertionError
      | .free n => if P.py313 then do let k ← pyIndexOf A.freevars n; return (T, .free k) else .error .assertionError
      | _ => .error .assertionError
  else if P.hasname i.opcode then
    if P.bitflag i.opcode then
      match arg with
      | .tuple [.bool f, .str n] =>
        let (l, k) := addTo T.names n
        .ok ({ T with names := l }, .plain (.int ((if f then 1 else 0) + (k <<< 1) : Nat)))
      | _ => .error .assertionError
    else if P.bitflag2 i.opcode then
      match arg with
      | .tuple [.bool f, .bool g, .str n] =>
        let (l, k) := addTo T.names n
        .ok ({ T with names := l }, .plain (.int ((if f then 1 else 0) + 2 * (if g then 1 else 0) + (k <<< 2) : Nat)))
      | _ => .error .assertionError
    else
      match arg with
      | .str n =>
        let (l, k) := addTo T.names n
        .ok ({ T with names := l }, .plain (.int k))
      | _ => .error .assertionError
  else if P.hasfree i.opcode then
    match arg with
    | .cell n => do let k ← pyIndexOf A.cellvars n; return (T, .cell k)
    | .free n => do let k ← pyIndexOf A.freevars n; return (T, .free k)
    | _ => .error .assertionError
  else if P.hascompare i.opcode then
    match arg with
    | .compare v => do let k ← encodeCompare P v; return (T, .plain (.int k))
    | _ => .error .typeError
  else if P.intrinsic1 i.opcode || P.intrinsic2 i.opcode then
    match arg with
    | .intr1 v => .ok (T, .plain (.int v))
    | .intr2 v => .ok (T, .plain (.int v))
    | _ => .error .typeError
  else do
    let c ← encodeInt arg
    return (T, .plain c)

/-- State of the converter, concrete.py 1156-1170 and the local variables of `concrete_instructions`. `labels` is a
dict given as an association list, latest assignment first. `blocks` is an insertion-ordered dict keyed by TryBegin. -/
structure Conv where
  tabs : Tabs
  loc : Loc
  instrs : List CInstr
  jumps : List (Nat × Nat)
  labels : List (Nat × Nat)
  blocks : List (TryB × ExcEntry)
  required : Nat
  seenManual : Bool
  cellInstrs : List Nat
  freeInstrs : List Nat
deriving DecidableEq, Repr

/-- `ConcreteInstr("CACHE", 0, location=...)` repeated, concrete.py 1224-1231 -/
def mkCaches (P : Platform) (n : Nat) (loc : Option Loc) : Py (List CInstr) :=
  (List.replicate n ()).mapM (fun _ => CInstr.make P (some "CACHE") (.int 0) .unset loc)

/-- The CACHE logic at the top of the loop, concrete.py 1212-1240. -/
def Conv.cacheStep (P : Platform) (st : Conv) (isCache : Bool) : Py Conv :=
  if isCache then
    if st.required = 0 then .error .runtimeError
    else .ok { st with seenManual := true, required := st.required - 1 }
  else if st.required = 0 then .ok st
  else if st.seenManual then .error .runtimeError
  else do
    let cs ← mkCaches P st.required ((st.instrs.getLast?).bind (·.loc))
    return { st with instrs := st.instrs ++ cs, required := 0, seenManual := false }

/-- The end of the loop body, concrete.py 1358-1368: build the concrete instruction and append it. -/
def Conv.push (P : Platform) (st : Conv) (name : String) (c : CArg) (jump : Option Nat) : Py Conv := do
  let ci ← CInstr.make P (some name) c .unset (some st.loc)
  let jumps := match jump with
    | some l => st.jumps ++ [(st.instrs.length, l)]
    | none => st.jumps
  return { st with jumps := jumps, instrs := st.instrs ++ [ci],
                   required := if P.py311 then ci.useCacheOpcodes P else st.required,
                   seenManual := if P.py311 then false else st.seenManual }

/-- `d[k] = v` on an insertion-ordered dict keyed by the TryBegin identity. -/
def setBlock (bs : List (TryB × ExcEntry)) (t : TryB) (e : ExcEntry) : List (TryB × ExcEntry) :=
  if bs.any (·.1.id == t.id) then bs.map (fun p => if p.1.id == t.id then (p.1, e) else p) else bs ++ [(t, e)]

/-- The rest of the loop body, concrete.py 1242-1368. -/
def Conv.elem {κ : Type} [DecidableEq κ] (P : Platform) (key : Arg → κ) (A : Attrs) (st : Conv) : BElem → Py Conv
  | .label l => .ok { st with labels := (l, st.instrs.length) :: st.labels }
  | .setLineno n => .ok { st with loc := Loc.line (some n) }
  | .tryBegin t =>
    match t.depth with
    | none => .error .assertionError
    | some d => .ok { st with blocks := setBlock st.blocks t ⟨st.instrs.length, 0, 0, d, t.lasti⟩ }
  | .tryEnd id =>
    if st.blocks.any (·.1.id == id) then
      .ok { st with blocks := st.blocks.map (fun p => if p.1.id == id then (p.1, { p.2 with stop := (st.instrs.length : Int) - 1 }) else p) }
    else .error .keyError
  | .instr i => do
    let st := { st with loc := i.loc.getD st.loc }
    let (T, enc) ← encodeOperand P key A st.tabs i
    let st := { st with tabs := T }
    match enc with
    | .plain c => st.push P i.name c none
    | .jump l => st.push P i.name (.int 0) (some l)
    | .cell k => ({ st with cellInstrs := st.cellInstrs ++ [st.instrs.length] }).push P i.name (.int k) none
    | .free k => ({ st with freeInstrs := st.freeInstrs ++ [st.instrs.length] }).push P i.name (.int k) none
    | .split n1 i1 n2 i2 => do
      let ci ← CInstr.make P (some n1) (.int i1) .unset (some st.loc)
      ({ st with instrs := st.instrs ++ [ci] }).push P n2 (.int i2) none

/-- `isinstance(instr, Instr) and instr.name == "CACHE"` -/
def BElem.isCache : BElem → Bool
  | .instr i => i.name == "CACHE"
  | _ => false

/-- One iteration of the loop, concrete.py 1208-1368. -/
def Conv.step {κ : Type} [DecidableEq κ] (P : Platform) (key : Arg → κ) (A : Attrs) (st : Conv) (e : BElem) : Py Conv := do
  let st ← st.cacheStep P e.isCache
  st.elem P key A e

/-- The 3.13 pre-pass, concrete.py 1201-1206. -/
def prepassElem (P : Platform) (vs : List String) : BElem → Py (List String)
  | .instr i =>
    if P.dual i.opcode then
      match i.arg with
      | .tuple l => l.foldlM (fun vs a => match a with
          | .str n => .ok (addTo vs n).1
          | _ => .error .assertionError) vs
      | _ => .error .assertionError
    else .ok vs
  | _ => .ok vs

/-- The whole pre-pass, concrete.py 1201-1206 (3.13 only). -/
def prepass (P : Platform) (vs : List String) (es : List BElem) : Py (List String) :=
  if P.py313 then es.foldlM (prepassElem P) vs else .ok vs

/-- The final index of each cell variable from 3.11 on, concrete.py 1374-1386: `shared_name_indexes` as a list, in
the order of `cellvars`; `u` is `n_unshared`. -/
def sharedIndexes (varnames : List String) (u : Nat) : List String → List Nat
  | [] => []
  | n :: r =>
    if n ∈ varnames then varnames.idxOf n :: sharedIndexes varnames u r
    else (varnames.length + u) :: sharedIndexes varnames (u + 1) r

/-- `c_instr.arg = a` on the instruction at an index, which exists. -/
def setArgAt (P : Platform) (instrs : List CInstr) (index : Nat) (arg : CArg) : Py (List CInstr) :=
  match instrs[index]? with
  | none => .error .indexError
  | some ci =>
    let (ci', r) := ci.set_ P (some ci.name) arg
    do r; return instrs.set index ci'

/-- `free_offset`, concrete.py 1392-1394; `n_shared` counts the cell variables that are also in `varnames`. -/
def freeOffset (P : Platform) (A : Attrs) (varnames : List String) : Nat :=
  if P.py311 then varnames.length + A.cellvars.length - (A.cellvars.filter (· ∈ varnames)).length
  else A.cellvars.length

/-- The cell and free variable post-pass, concrete.py 1370-1398. -/
def fixCells (P : Platform) (A : Attrs) (st : Conv) : Py (List CInstr) := do
  let instrs ← if P.py311 then
      st.cellInstrs.foldlM (fun instrs index => do
        match instrs[index]? with
        | none => throw .indexError
        | some ci =>
          match (sharedIndexes st.tabs.varnames 0 A.cellvars)[ci.arg.getD 0]? with
          | none => throw .keyError
          | some (k : Nat) => setArgAt P instrs index (.int (k : Int))) st.instrs
    else pure st.instrs
  st.freeInstrs.foldlM (fun instrs index => do
    match instrs[index]? with
    | none => throw .indexError
    | some ci => setArgAt P instrs index (.int (ci.arg.getD 0 + freeOffset P A st.tabs.varnames : Nat))) instrs

/-- Initial state, concrete.py 1156-1170, 1191, 1500-1504. -/
def Conv.init (A : Attrs) (argnames : List String) (loc : Loc) : Conv where
  tabs := { consts := A.docstring.toList, names := [], varnames := argnames }
  loc := loc
  instrs := []
  jumps := []
  labels := []
  blocks := []
  required := 0
  seenManual := false
  cellInstrs := []
  freeInstrs := []

/-- `concrete_instructions`, concrete.py 1190-1398. The iteration check (`iterElems`) is made before the loop instead
of lazily: only which of two exceptions is raised first can differ. -/
def concreteInstructions {κ : Type} [DecidableEq κ] (P : Platform) (key : Arg → κ) (b : Bytecode) : Py Conv := do
  let loc ← Loc.make P.py311 (some b.attrs.firstLineno) none none none
  (iterElems false b.elems).2
  let vs ← prepass P b.argnames b.elems
  let st ← b.elems.foldlM (Conv.step P key b.attrs) (Conv.init b.attrs vs loc)
  let st ← st.cacheStep P false
  let instrs ← fixCells P b.attrs st
  return { st with instrs := instrs }

/-! ### Jump resolution -/

/-- Size in offset units: code units from 3.10 on, bytes before (`OFFSET_AS_INSTRUCTION`, concrete.py 66-71). -/
def CInstr.units (P : Platform) (i : CInstr) : Nat := if P.py310 then i.size / 2 else i.size

/-- Units taken by the opcode itself. -/
def Platform.unit (P : Platform) : Nat := if P.py310 then 1 else 2

/-- `label_offsets`, concrete.py 1405-1420: offset before each instruction, and the end. -/
def labelOffsets (P : Platform) (offset : Nat) : List CInstr → List Nat
  | [] => [offset]
  | i :: r => offset :: labelOffsets P (offset + (i.units P - P.unit) + P.unit) r

/-- `instruction_offsets`, concrete.py 1405-1418: offset of the opcode of each instruction, after its prefixes. -/
def instrOffsets (P : Platform) (offset : Nat) : List CInstr → List Nat
  | [] => []
  | i :: r => (offset + (i.units P - P.unit)) :: instrOffsets P (offset + (i.units P - P.unit) + P.unit) r

/-- `self.labels[label]` -/
def lookupLabel (labels : List (Nat × Nat)) (l : Nat) : Py Nat :=
  match labels.find? (·.1 == l) with
  | some p => .ok p.2
  | none => .error .keyError

/-- The argument computed for a jump, concrete.py 1425-1442. -/
def jumpArg (P : Platform) (ci : CInstr) (target ownOffset : Nat) : Int :=
  let instrOffset : Int := (ownOffset + ci.useCacheOpcodes P : Nat)
  if isForwardRelJump P ci.name ci.opcode then (target : Int) - (instrOffset + ci.units P)
  else if isBackwardRelJump P ci.name ci.opcode then instrOffset + ci.units P - target
  else target

/-- One jump of one pass, concrete.py 1425-1447. -/
def jumpStep (P : Platform) (labels : List (Nat × Nat)) (offs : List Nat) (s : List CInstr × Bool) (j : Nat × Nat) :
    Py (List CInstr × Bool) := do
  let ti ← lookupLabel labels j.2
  match offs[ti]?, offs[j.1]?, s.1[j.1]? with
  | some target, some own, some ci =>
    let (ci', r) := ci.set_ P (some ci.name) (.int (jumpArg P ci target own))
    r
    return (s.1.set j.1 ci', s.2 || ci'.size != ci.size)
  | _, _, _ => .error .indexError

/-- The jump part of `compute_jumps`, concrete.py 1400-1447: new instructions, and whether a size changed. -/
def jumpPass (P : Platform) (labels : List (Nat × Nat)) (jumps : List (Nat × Nat)) (instrs : List CInstr) :
    Py (List CInstr × Bool) :=
  jumps.foldlM (jumpStep P labels (labelOffsets P 0 instrs)) (instrs, false)

/-- `for _ in range(passes): ... else: raise RuntimeError`, concrete.py 1507-1515. -/
def jumpLoop (P : Platform) (labels : List (Nat × Nat)) (jumps : List (Nat × Nat)) : Nat → List CInstr → Py (List CInstr)
  | 0, _ => .error .runtimeError
  | n + 1, instrs => do
    let (instrs', modified) ← jumpPass P labels jumps instrs
    if modified then jumpLoop P labels jumps n instrs' else return instrs'

/-- Python indexing with an int that may be negative. -/
def pyGet {α : Type} (l : List α) (i : Int) : Py α :=
  let k := if i < 0 then i + l.length else i
  if k < 0 then .error .indexError
  else match l[k.toNat]? with
    | some x => .ok x
    | none => .error .indexError

/-- Resolving one exception table entry, concrete.py 1455-1468. The offsets are those computed by the last pass, from
the instructions before it; sizes did not change in it. -/
def resolveEntry (P : Platform) (labels : List (Nat × Nat)) (instrs : List CInstr) (p : TryB × ExcEntry) : Py ExcEntry := do
  let start ← pyGet (instrOffsets P 0 instrs) p.2.start
  let stop ← pyGet (instrOffsets P 0 instrs) p.2.stop
  let ti ← lookupLabel labels p.1.target
  match (labelOffsets P 0 instrs)[ti]? with
  | some t => return { p.2 with start := start, stop := stop, target := t }
  | none => throw .indexError

/-- `_ConvertBytecodeToConcrete.to_concrete_bytecode` without the stack depth computation
(`compute_exception_stack_depths=False`, or Python < 3.11), concrete.py 1472-1530. -/
def toConcrete {κ : Type} [DecidableEq κ] (P : Platform) (key : Arg → κ) (passes : Nat) (b : Bytecode) : Py Concrete := do
  let st ← concreteInstructions P key b
  let instrs ← jumpLoop P st.labels st.jumps passes st.instrs
  let table ← st.blocks.mapM (resolveEntry P st.labels instrs)
  return { attrs := b.attrs, consts := st.tabs.consts, names := st.tabs.names, varnames := st.tabs.varnames,
           excTable := table, elems := instrs.map .instr }

end Verif
