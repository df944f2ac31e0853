import Verif.Model.ToConcrete
/-
`ConcreteBytecode.to_bytecode` (src/bytecode/concrete.py 928-1142).
-/
namespace Verif

/-- `Compare(v)`, instr.py 61-111: a member of the enumeration, else ValueError. -/
def compareEnum (P : Platform) (v : Nat) : Py Arg :=
  if v ≤ 5 || (!P.py39 && v ≤ 10) || (P.py313 && 16 ≤ v && v ≤ 21) then .ok (.compare v) else .error .valueError

/-- `Intrinsic1Op(v)`, instr.py 145-158 -/
def intr1Enum (v : Nat) : Py Arg := if v ≤ 11 then .ok (.intr1 v) else .error .valueError
/-- `Intrinsic2Op(v)`, instr.py 161-167 -/
def intr2Enum (v : Nat) : Py Arg := if v ≤ 4 then .ok (.intr2 v) else .error .valueError

/-- `l[arg]` where `arg` is the argument of a concrete instruction: TypeError for UNSET, IndexError out of range. -/
def argIdx {α : Type} (l : List α) (a : Nat) : Py α :=
  match l[a]? with
  | some x => .ok x
  | none => .error .indexError

/-- An element of `cells_lookup` or `locals_lookup` as an argument. -/
def Atom.toArg : Atom → Arg
  | .str n => .str n
  | .cell n => .cell n
  | .free n => .free n
  | .bool b => .bool b
  | .int v => .int v
  | .other k => .other k

/-- `cells_lookup`, concrete.py 983-990 -/
def cellsLookup (P : Platform) (c : Concrete) : List Atom :=
  if P.py311 then c.varnames.map .str ++ (c.attrs.cellvars.filter (fun n => !c.varnames.contains n)).map .cell
  else c.attrs.cellvars.map .cell

/-- `locals_lookup`, concrete.py 992-999 -/
def localsLookup (P : Platform) (c : Concrete) : List Atom :=
  if P.py313 then cellsLookup P c ++ (c.attrs.freevars.filter (fun n => !c.varnames.contains n)).map .free
  else c.varnames.map .str

/-- The operand decoding of `to_bytecode` for an instruction with an argument, concrete.py 1046-1086. -/
def decodeArg (P : Platform) (c : Concrete) (op a : Nat) : Py Arg :=
  if P.hasconst op then argIdx c.consts a
  else if P.haslocal op then
    if P.dual op then do
      let x ← argIdx (localsLookup P c) (a >>> 4)
      let y ← argIdx (localsLookup P c) (a &&& 15)
      return .tuple [x, y]
    else do
      let x ← argIdx (localsLookup P c) a
      return x.toArg
  else if P.hasname op then
    if P.bitflag op then do
      let n ← argIdx c.names (a >>> 1)
      return .tuple [.bool (a &&& 1 != 0), .str n]
    else if P.bitflag2 op then do
      let n ← argIdx c.names (a >>> 2)
      return .tuple [.bool (a &&& 1 != 0), .bool (a &&& 2 != 0), .str n]
    else do
      let n ← argIdx c.names a
      return .str n
  else if P.hasfree op then
    if a < (cellsLookup P c).length then do
      let x ← argIdx (cellsLookup P c) a
      match x with
      | .cell n => return .cell n
      | .str n => return .cell n
      | _ => throw .typeError   -- `cells_lookup` holds strings and CellVar only
    else do
      let n ← argIdx c.attrs.freevars (a - (cellsLookup P c).length)
      return .free n
  else if P.hascompare op then
    compareEnum P (if P.py313 then (a >>> 5) + (if a &&& 16 != 0 then 1 <<< 4 else 0) else if P.py312 then a >>> 4 else a)
  else if P.intrinsic1 op then intr1Enum a
  else if P.intrinsic2 op then intr2Enum a
  else .ok (.int a)

/-- concrete.py 1046-1086 for any instruction: with an UNSET argument the indexings and enumerations raise (TypeError,
the exact class does not matter), the last branch gives UNSET. -/
def decodeOperand (P : Platform) (c : Concrete) (ci : CInstr) : Py Arg :=
  match ci.arg with
  | some a => decodeArg P c ci.opcode a
  | none =>
    if P.hasconst ci.opcode || P.haslocal ci.opcode || P.hasname ci.opcode || P.hasfree ci.opcode || P.hascompare ci.opcode ||
      P.intrinsic1 ci.opcode || P.intrinsic2 ci.opcode then .error .typeError
    else .ok .unset

/-- `c_instr.location or InstrLocation(lineno, None, None, None)`, concrete.py 1088 -/
def instrLoc (P : Platform) (lineno : Nat) (ci : CInstr) : Py Loc :=
  match ci.loc with
  | some l => .ok l
  | none => Loc.make P.py311 (some (lineno : Int)) none none none

/-- The instruction built for a concrete one, concrete.py 1037-1095. A pruned CACHE gives none. A jump gets its label at
once (the label at offset `t` has identity `t`) instead of a placeholder replaced at the end (1118-1123). -/
def decodeInstr (P : Platform) (c : Concrete) (prune : Bool) (offset lineno : Nat) (ci : CInstr) : Py (List BElem) := do
  let target := ci.getJumpTarget P offset
  if prune && ci.name == "CACHE" then do
    pyAssert target.isNone
    return []
  else do
    let arg ← decodeOperand P c ci
    let loc ← instrLoc P lineno ci
    let arg := match target with
      | some t => .label t.toNat
      | none => arg
    let i ← Instr.make P (some ci.name) arg .unset (some loc)
    return [.instr i]

/-- `ex_start`, concrete.py 957-964: index of the entry with a given start offset (there is at most one). -/
def exStart (c : Concrete) (offset : Nat) : Option Nat := c.excTable.findIdx? (fun e => decide (e.start = (offset : Int)))

/-- `ex_end`, concrete.py 958-965: indexes of the entries with a given stop offset, in the order of the table. -/
def exEnd (c : Concrete) (offset : Nat) : List Nat :=
  (List.range c.excTable.length).filter (fun k => match c.excTable[k]? with
    | some e => decide (e.stop = (offset : Int))
    | none => false)

/-- The TryBegin created for an entry, concrete.py 1016-1022 and 1107-1113, with the target set at the end (1125-1127).
Its identity is the index of the entry, the identity of the label at an offset is this offset; the depth is a
non-negative int. -/
def mkTry (c : Concrete) (conserve : Bool) (k : Nat) : List BElem :=
  match c.excTable[k]? with
  | some e => [.tryBegin ⟨k, e.target.toNat, e.lasti, if conserve then some e.depth.toNat else none⟩]
  | none => []

/-- The TryEnd part, concrete.py 1097-1116. `tbs`: the entries whose TryBegin was created. -/
def closeEntries (c : Concrete) (conserve : Bool) (tbs : List Nat) : List Nat → List BElem × List Nat
  | [] => ([], tbs)
  | k :: r =>
    if k ∈ tbs then
      let (es, tbs) := closeEntries c conserve tbs r
      (.tryEnd k :: es, tbs)
    else
      let (es, tbs) := closeEntries c conserve (k :: tbs) r
      (mkTry c conserve k ++ .tryEnd k :: es, tbs)

/-- The TryBegin part, concrete.py 1009-1025. -/
def openEntry (c : Concrete) (conserve : Bool) (tbs : List Nat) (offset : Nat) : List BElem × List Nat :=
  match exStart c offset with
  | some k => if k ∈ tbs then ([], tbs) else (mkTry c conserve k, k :: tbs)
  | none => ([], tbs)

/-- Result of the loop: the elements, the offsets of the labels created, the jump targets, the entries created. -/
structure Dec where
  elems : List BElem
  labels : List Nat
  jumps : List Int
  tbs : List Nat
deriving DecidableEq, Repr

/-- The main loop, concrete.py 1001-1116. -/
def decodeLoop (P : Platform) (c : Concrete) (prune conserve : Bool) (targets : List Int) (offset : Nat) (tbs : List Nat) :
    List (Nat × CInstr) → Py Dec
  | [] => .ok ⟨[], [], [], tbs⟩
  | (lineno, ci) :: r => do
    let isTarget := decide ((offset : Int) ∈ targets)
    let (begins, tbs) := openEntry c conserve tbs offset
    let cur := offset + (ci.units P - P.unit)
    let main ← decodeInstr P c prune offset lineno ci
    let (ends, tbs) := closeEntries c conserve tbs (exEnd c cur).reverse
    let d ← decodeLoop P c prune conserve targets (cur + P.unit) tbs r
    return { elems := (if isTarget then [.label offset] else []) ++ begins ++ main ++ ends ++ d.elems
             labels := (if isTarget then [offset] else []) ++ d.labels
             jumps := (if main.isEmpty then [] else (ci.getJumpTarget P offset).toList) ++ d.jumps
             tbs := d.tbs }

/-- The jump targets of the instructions, concrete.py 939-952. -/
def jumpTargets (P : Platform) (offset : Nat) : List CElem → List Int
  | [] => []
  | .setLineno _ :: r => jumpTargets P offset r
  | .instr ci :: r => (ci.getJumpTarget P offset).toList ++ jumpTargets P (offset + ci.units P) r

/-- `_set_docstring`, concrete.py 63-68. `None` is the object `other 0`. -/
def setDocstring (doc : Option Arg) (consts : List Arg) : Option Arg :=
  match consts with
  | [] => doc
  | .str s :: _ => some (.str s)
  | .other 0 :: _ => some (.other 0)
  | _ => doc

/-- Number of arguments, concrete.py 1132-1138: CO_VARARGS is 4, CO_VARKEYWORDS 8. -/
def nargs (A : Attrs) : Nat :=
  A.argcount + A.kwonlyargcount + A.posonlyargcount + (if A.flags.testBit 2 then 1 else 0) + (if A.flags.testBit 3 then 1 else 0)

/-- `ConcreteBytecode.to_bytecode`, concrete.py 928-1142. -/
def toBytecode (P : Platform) (prune conserve : Bool) (c : Concrete) : Py Bytecode := do
  let es ← removeExtendedArgs P 0 none c.elems
  let targets := jumpTargets P 0 es ++ c.excTable.map (·.target)
  pyAssert (decide ((c.excTable.map (·.start)).Nodup))
  let d ← decodeLoop P c prune conserve targets 0 [] (normalizeLineno c.attrs.firstLineno es)
  -- `labels[jump_target]`, `labels[entry.target]`
  if !d.jumps.all (fun t => decide (t ∈ d.labels.map (fun (n : Nat) => (n : Int)))) then throw .keyError
  if !d.tbs.all (fun k => decide ((c.excTable[k]?.map (·.target)).getD (-1) ∈ d.labels.map (fun (n : Nat) => (n : Int)))) then
    throw .keyError
  return { attrs := { c.attrs with docstring := setDocstring c.attrs.docstring c.consts }
           argnames := c.varnames.take (nargs c.attrs)
           elems := d.elems }

end Verif
