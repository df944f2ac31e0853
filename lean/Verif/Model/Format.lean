import Verif.Model.CFG
import Verif.Model.Legalize
/-
Text of a bytecode: `format_bytecode` (src/bytecode/__init__.py 55-213), which `dump_bytecode` (216-221) prints. The
`repr` of the argument of an instruction is a parameter. A text is a list of characters.
-/
namespace Verif

open Lean in
/-- The characters of a literal, as a list. -/
macro "txt " s:str : term => do
  let cs := s.getString.toList.map (fun c => Syntax.mkCharLit c)
  `([$(cs.toArray),*])

/-- A Python string. -/
abbrev Text := List Char

/-- `"%s" % n` for an int that is not negative. -/
def decimal (n : Nat) : Text := Nat.toDigits 10 n

/-- `"%s" % v` for an int. -/
def intText : Int → Text
  | .ofNat n => decimal n
  | .negSucc n => '-' :: decimal (n + 1)

/-- `"% 3s" % t` -/
def pad3 (t : Text) : Text := List.replicate (3 - t.length) ' ' ++ t

/-- The variables of `format_bytecode`, __init__.py 60, 121-124: `try_begins` (identities), `cur_lineno`, `prev_lineno`,
and the length of `indent`, which holds spaces only. UNSET as a line is an int of value 0: it is printed "0" and
`!=` treats it as 0, `__ne__` of UNSET being NotImplemented (instr.py 173-219). -/
structure FmtSt where
  tries : List Nat
  cur : Nat
  prev : Option Nat
  indent : Nat
deriving DecidableEq

/-- `format_line`, __init__.py 62-72 -/
def FmtSt.line (ln : Bool) (s : FmtSt) (index : Nat) (t : Text) : Text × FmtSt :=
  if ln then
    if s.prev ≠ some s.cur then
      ((txt "L.") ++ pad3 (decimal s.cur) ++ [' '] ++ pad3 (decimal index) ++ (txt ": ") ++ t, { s with prev := some s.cur })
    else ((txt "      ") ++ pad3 (decimal index) ++ (txt ": ") ++ t, s)
  else (t, s)

/-- `indent` -/
def FmtSt.ind (s : FmtSt) : Text := List.replicate s.indent ' '

/-- `"<%s>" % labels[x]`, or the text of the error -/
def refText (names : Nat → Option Text) (err : Text) (x : Nat) : Text :=
  match names x with
  | some n => '<' :: (n ++ ['>'])
  | none => err

/-- `format_instr`, __init__.py 74-91: `labels` and `blocks` are the dictionary `labels` on Label objects and on identities
of blocks. -/
def formatInstr (repr : Arg → Text) (labels blocks : Nat → Option Text) (name : String) (arg : Arg) : Text :=
  match arg with
  | .unset => name.toList
  | .label l => name.toList ++ ' ' :: refText labels (txt "<error: unknown label>") l
  | .block b => name.toList ++ ' ' :: refText blocks (txt "<error: unknown block>") b
  | a => name.toList ++ ' ' :: repr a

/-- `format_try_begin`, __init__.py 93-113, `targets` being the dictionary on targets. An UNSET depth is printed "0". -/
def formatTryBegin (targets : Nat → Option Text) (s : FmtSt) (t : TryB) : Text × FmtSt :=
  ((txt "TryBegin ") ++ decimal s.tries.length ++ (txt " -> ") ++ refText targets (txt "<error: unknown label>") t.target ++
    (txt " [") ++ decimal (t.depth.getD 0) ++ (txt "]") ++ (if t.lasti then (txt " last_i") else []),
   { s with tries := s.tries ++ [t.id] })

/-- `format_try_end`, __init__.py 115-117 -/
def formatTryEnd (s : FmtSt) (id : Nat) : Text :=
  (txt "TryEnd (") ++ (if id ∈ s.tries then decimal (s.tries.idxOf id) else (txt "<unknwon>")) ++ (txt ")")

/-- `if instr.lineno is not None: cur_lineno = instr.lineno`, __init__.py 130-131, 174-175, 202-203: without location
`lineno` is UNSET (instr.py 624-626). -/
def FmtSt.at_ (s : FmtSt) (loc : Option Loc) : FmtSt :=
  match loc with
  | none => { s with cur := 0 }
  | some l =>
    match l.lineno with
    | none => s
    | some n => { s with cur := n }

/-- A TryBegin: its line, __init__.py 167-169, 178, 190-194, 206 -/
def formatBegin (ln : Bool) (targets : Nat → Option Text) (index : Nat) (s : FmtSt) (t : TryB) : Text × FmtSt :=
  let (x, s1) := formatTryBegin targets s t
  let (y, s2) := s1.line ln index x
  (s.ind ++ y ++ ['\n'], { s2 with indent := s2.indent + 2 })

/-- A TryEnd: its line, __init__.py 172, 178, 198, 206 -/
def formatEnd (ln : Bool) (index : Nat) (s : FmtSt) (id : Nat) : Text × FmtSt :=
  let (y, s1) := s.line ln index (formatTryEnd s id)
  (s.ind ++ y ++ ['\n'], s1)

/-- An Instr: its line, __init__.py 174-178, 202-206 -/
def formatCode (ln : Bool) (repr : Arg → Text) (labels blocks : Nat → Option Text) (index : Nat) (s : FmtSt) (i : Instr) : Text × FmtSt :=
  let s := s.at_ i.loc
  let (y, s1) := s.line ln index (formatInstr repr labels blocks i.name i.arg)
  (s.ind ++ y ++ ['\n'], s1)

/-- The labels of a Bytecode, __init__.py 156-159 -/
def labelNames : Nat → (Nat → Option Text) → List BElem → (Nat → Option Text)
  | _, f, [] => f
  | k, f, .label l :: r => labelNames (k + 1) (upd f l (some ((txt "label_instr") ++ decimal k))) r
  | k, f, _ :: r => labelNames (k + 1) f r

/-- The elements of a Bytecode, __init__.py 161-179. A SetLineno has no `name`. -/
def formatElems (ln : Bool) (repr : Arg → Text) (names : Nat → Option Text) : Nat → FmtSt → List BElem → Py Text
  | _, _, [] => .ok ['\n']
  | k, s, e :: r =>
    match e with
    | .label l =>
      match names l with
      | none => .error .keyError
      | some n => do
        let t ← formatElems ln repr names (k + 1) s r
        return (if k ≠ 0 then ['\n'] else []) ++ n ++ (txt ":\n") ++ t
    | .tryBegin x => do
      let p := formatBegin ln names k s x
      let t ← formatElems ln repr names (k + 1) p.2 r
      return p.1 ++ t
    | .tryEnd x => do
      let p := formatEnd ln k { s with indent := s.indent - 2 } x
      let t ← formatElems ln repr names (k + 1) p.2 r
      return p.1 ++ t
    | .setLineno _ => .error .attributeError
    | .instr i => do
      let p := formatCode ln repr names (fun _ => none) k s i
      let t ← formatElems ln repr names (k + 1) p.2 r
      return p.1 ++ t

/-- `format_bytecode(bytecode, lineno=ln)` on a Bytecode, __init__.py 119-124, 155-179, 213 -/
def formatBytecode (ln : Bool) (repr : Arg → Text) (b : Bytecode) : Py Text := do
  (iterElems false b.elems).2
  let t ← formatElems ln repr (labelNames 0 (fun _ => none) b.elems) 0 ⟨[], b.attrs.firstLineno, none, 4⟩ b.elems
  return t.dropLast

/-- The argument of a ConcreteInstr as `instr._arg`, __init__.py 76: UNSET or an int. -/
def cargOf : Option Nat → Arg
  | none => .unset
  | some n => .int n

/-- The instructions of a ConcreteBytecode, __init__.py 127-142 -/
def formatConcreteElems (ln : Bool) (repr : Arg → Text) : Nat → FmtSt → List CElem → Py Text
  | _, _, [] => .ok []
  | _, _, .setLineno _ :: _ => .error .attributeError
  | off, s, .instr i :: r => do
    let s := s.at_ i.loc
    let x := formatInstr repr (fun _ => none) (fun _ => none) i.name (cargOf i.arg)
    let p := if ln then s.line ln off x else (pad3 (decimal off) ++ (txt "    ") ++ x, s)
    let t ← formatConcreteElems ln repr (off + i.size) p.2 r
    return p.1 ++ ['\n'] ++ t

/-- An entry of the exception table, __init__.py 147-153 -/
def formatEntry (e : ExcEntry) : Text :=
  intText e.start ++ (txt " to ") ++ intText e.stop ++ (txt " -> ") ++ intText e.target ++ (txt " [") ++ intText e.depth ++ (txt "]") ++
    (if e.lasti then (txt " lasti") else []) ++ ['\n']

/-- `format_bytecode(bytecode, lineno=ln)` on a ConcreteBytecode, __init__.py 119-153, 213 -/
def formatConcrete (ln : Bool) (repr : Arg → Text) (c : Concrete) : Py Text := do
  let t ← formatConcreteElems ln repr 0 ⟨[], c.attrs.firstLineno, none, 4⟩ c.elems
  let u := if c.excTable.isEmpty then [] else (txt "\nException table:\n") ++ c.excTable.flatMap formatEntry
  return (t ++ u).dropLast

/-- The names of the blocks, __init__.py 182-184 -/
def blockNames : Nat → (Nat → Option Text) → List Nat → (Nat → Option Text)
  | _, f, [] => f
  | k, f, b :: r => blockNames (k + 1) (upd f b (some ((txt "block") ++ decimal k))) r

/-- The elements of a block, __init__.py 188-206, checked by `BasicBlock.__iter__` as they are reached. `seen` is
`seen_instr`. -/
def formatBlk (ln : Bool) (P : Platform) (repr : Arg → Text) (names : Nat → Option Text) : Nat → Bool → FmtSt → List BElem → Py (Text × FmtSt)
  | _, _, s, [] => .ok ([], s)
  | k, seen, s, e :: r => do
    blkCheck P e r
    match e with
    | .label _ => .error .valueError
    | .tryBegin x => do
      let p := formatBegin ln names k s x
      let t ← formatBlk ln P repr names (k + 1) seen p.2 r
      return (p.1 ++ t.1, t.2)
    | .tryEnd x => do
      let p := formatEnd ln k (if seen then { s with indent := s.indent - 2 } else s) x
      let t ← formatBlk ln P repr names (k + 1) seen p.2 r
      return (p.1 ++ t.1, t.2)
    | .setLineno _ => .error .attributeError
    | .instr i => do
      let p := formatCode ln repr (fun _ => none) names k s i
      let t ← formatBlk ln P repr names (k + 1) true p.2 r
      return (p.1 ++ t.1, t.2)

/-- The blocks, __init__.py 186-209 -/
def formatBlks (ln : Bool) (P : Platform) (repr : Arg → Text) (names : Nat → Option Text) (heap : Nat → Blk) : FmtSt → List Nat → Py Text
  | _, [] => .ok []
  | s, b :: r =>
    match names b with
    | none => .error .keyError
    | some n => do
      let p ← formatBlk ln P repr names 0 false s (heap b).elems
      let nx ← (match (heap b).next with
        | none => (.ok [] : Py Text)
        | some x =>
          match names x with
          | none => .error .keyError
          | some m => .ok (p.2.ind ++ (txt "-> ") ++ m ++ ['\n']))
      let t ← formatBlks ln P repr names heap p.2 r
      return n ++ (txt ":\n") ++ p.1 ++ nx ++ ['\n'] ++ t

/-- `format_bytecode(bytecode, lineno=ln)` on a ControlFlowGraph, __init__.py 119-124, 181-209, 213 -/
def formatCFG (ln : Bool) (P : Platform) (repr : Arg → Text) (c : CFG) : Py Text := do
  let t ← formatBlks ln P repr (blockNames 1 (fun _ => none) c.blocks) c.heap ⟨[], c.attrs.firstLineno, none, 4⟩ c.blocks
  return t.dropLast

end Verif
