import Verif.Model.ConcreteInstr
/-
Assembling the code string and the line tables (src/bytecode/concrete.py 403-566), reading the code string back
(concrete.py 324-402) and folding EXTENDED_ARG (744-791).
-/
namespace Verif

/-- An element of a `ConcreteBytecode`. -/
inductive CElem where
  | setLineno (lineno : Nat)
  | instr (i : CInstr)
deriving DecidableEq, Repr

/-- `instr.lineno` when it is neither None nor UNSET. -/
def locLine? (l : Option Loc) : Option Nat := l.bind (·.lineno)

/-- `_normalize_lineno`, concrete.py 403-418 -/
def normalizeLineno (lineno : Nat) : List CElem → List (Nat × CInstr)
  | [] => []
  | .setLineno n :: rest => normalizeLineno n rest
  | .instr i :: rest =>
    let lineno := (locLine? i.loc).getD lineno
    (lineno, i) :: normalizeLineno lineno rest

/-- The loop of `_assemble_code`, concrete.py 424-440. -/
def assembleCodeLoop (P : Platform) (offset : Nat) : List (Nat × CInstr) → Bytes × List LineInfo
  | [] => ([], [])
  | (lineno, i) :: rest =>
    let info : LineInfo := ⟨if P.py310 then offset * 2 else offset, i.size, lineno, i.loc⟩
    let offset := offset + (if P.py310 then i.size / 2 else i.size)
    let (bs, infos) := assembleCodeLoop P offset rest
    (i.assemble P ++ bs, info :: infos)

/-- `_assemble_code`, concrete.py 421-440 -/
def assembleCode (P : Platform) (firstLineno : Nat) (code : List CElem) : Bytes × List LineInfo :=
  assembleCodeLoop P 0 (normalizeLineno firstLineno code)

/-! ### co_lnotab (3.8, 3.9) -/

/-- `struct.pack("Bb", a, b)` -/
def packBb (a b : Int) : Py Bytes :=
  if 0 ≤ a ∧ a ≤ 255 ∧ -128 ≤ b ∧ b ≤ 127 then .ok [a.toNat, (if b < 0 then b + 256 else b).toNat]
  else .error .valueError  -- struct.error

/-- `while doff > 255`, concrete.py 460-462 -/
def lnotabOffLoop (doff : Int) : Bytes × Int :=
  if doff > 255 then
    let (b, d) := lnotabOffLoop (doff - 255)
    ([0xFF, 0x00] ++ b, d)
  else ([], doff)
termination_by doff.toNat
decreasing_by omega

/-- `while dlineno < -128`, concrete.py 464-467. Returns bytes, doff, dlineno. -/
def lnotabNegLoop (doff dlineno : Int) : Py (Bytes × Int × Int) :=
  if dlineno < -128 then do
    let p ← packBb doff (-128)
    let (q, doff, dlineno) ← lnotabNegLoop 0 (dlineno + 128)
    return (p ++ q, doff, dlineno)
  else .ok ([], doff, dlineno)
termination_by (-dlineno).toNat
decreasing_by omega

/-- `while dlineno > 127`, concrete.py 469-472. -/
def lnotabPosLoop (doff dlineno : Int) : Py (Bytes × Int × Int) :=
  if dlineno > 127 then do
    let p ← packBb doff 127
    let (q, doff, dlineno) ← lnotabPosLoop 0 (dlineno - 127)
    return (p ++ q, doff, dlineno)
  else .ok ([], doff, dlineno)
termination_by dlineno.toNat
decreasing_by omega

/-- One iteration of `_assemble_lnotab` after `dlineno == 0` was excluded, concrete.py 456-477. -/
def lnotabEntry (doff dlineno : Int) : Py Bytes := do
  let (a, doff) := lnotabOffLoop doff
  let (b, doff, dlineno) ← lnotabNegLoop doff dlineno
  let (c, doff, dlineno) ← lnotabPosLoop doff dlineno
  pyAssert (0 ≤ doff && doff ≤ 255)
  pyAssert (-128 ≤ dlineno && dlineno ≤ 127)
  let d ← packBb doff dlineno
  return a ++ b ++ c ++ d

/-- The loop of `_assemble_lnotab`, concrete.py 450-479. -/
def assembleLnotabLoop (oldOffset oldLineno : Int) : List LineInfo → Py Bytes
  | [] => .ok []
  | i :: rest =>
    let dlineno : Int := i.lineno - oldLineno
    if dlineno = 0 then assembleLnotabLoop oldOffset oldLineno rest
    else do
      let p ← lnotabEntry (i.offset - oldOffset) dlineno
      let q ← assembleLnotabLoop i.offset i.lineno rest
      return p ++ q

/-- `_assemble_lnotab`, concrete.py 443-479 -/
def assembleLnotab (firstLineno : Nat) (linenos : List LineInfo) : Py Bytes :=
  assembleLnotabLoop 0 firstLineno linenos

/-! ### co_linetable (3.10) -/

/-- `while dlineno < -127`, concrete.py 487-489. -/
def linetableNegLoop (dlineno : Int) : Py (Bytes × Int) :=
  if dlineno < -127 then do
    let p ← packBb 0 (-127)
    let (q, d) ← linetableNegLoop (dlineno + 127)
    return (p ++ q, d)
  else .ok ([], dlineno)
termination_by (-dlineno).toNat
decreasing_by omega

/-- `while dlineno > 127`, concrete.py 491-493. -/
def linetablePosLoop (dlineno : Int) : Py (Bytes × Int) :=
  if dlineno > 127 then do
    let p ← packBb 0 127
    let (q, d) ← linetablePosLoop (dlineno - 127)
    return (p ++ q, d)
  else .ok ([], dlineno)
termination_by dlineno.toNat
decreasing_by omega

/-- `while doff > 254`, concrete.py 507-509. -/
def linetableOffLoop (doff : Int) : Bytes × Int :=
  if doff > 254 then
    let (b, d) := linetableOffLoop (doff - 254)
    ([0xFE, 0x00] ++ b, d)
  else ([], doff)
termination_by doff.toNat
decreasing_by omega

/-- `_pack_linetable`, concrete.py 480-515 -/
def packLinetable (doff : Int) (dlineno : Option Int) : Py Bytes := do
  let (a, dlineno) ← match dlineno with
    | some d => do
      let (a, d) ← linetableNegLoop d
      let (b, d) ← linetablePosLoop d
      pyAssert (-127 ≤ d && d ≤ 127)
      pure (a ++ b, d)
    | none => pure (([], -128) : Bytes × Int)
  if doff > 254 then
    let p ← packBb 254 dlineno
    let (q, doff) := linetableOffLoop (doff - 254)
    let r ← packBb doff 0
    pyAssert (0 ≤ doff && doff ≤ 254)
    return a ++ p ++ q ++ r
  else
    let p ← packBb doff dlineno
    pyAssert (0 ≤ doff && doff ≤ 254)
    return a ++ p

/-- `location.lineno - ref if location.lineno is not None else None` when the location is set, else
`lineno - ref`, concrete.py 533-540 and 544-551. -/
def linetableDelta (i : LineInfo) (ref : Int) : Option Int :=
  match i.loc with
  | some l => l.lineno.map (fun (n : Nat) => (n : Int) - ref)
  | none => some (i.lineno - ref)

/-- The loop and final entry of `_assemble_linestable`, concrete.py 543-566. `endOff` is `offset + i_size` of the
last element seen. -/
def assembleLinetableLoop (oldOffset : Int) (oldLineno : Int) (oldDlineno : Option Int) (endOff : Int) :
    List LineInfo → Py Bytes
  | [] => packLinetable (endOff - oldOffset) oldDlineno
  | i :: rest =>
    let dlineno := linetableDelta i oldLineno
    let endOff : Int := i.offset + i.size
    if dlineno = some 0 ∨ (oldDlineno = none ∧ dlineno = none) then
      assembleLinetableLoop oldOffset oldLineno oldDlineno endOff rest
    else do
      let p ← packLinetable (i.offset - oldOffset) oldDlineno
      let q ← assembleLinetableLoop i.offset i.lineno dlineno endOff rest
      return p ++ q

/-- `_assemble_linestable`, concrete.py 518-566 -/
def assembleLinetable (firstLineno : Nat) (linenos : List LineInfo) : Py Bytes :=
  match linenos with
  | [] => .ok []
  | i :: rest =>
    assembleLinetableLoop 0 i.lineno (linetableDelta i firstLineno) (i.offset + i.size) rest

/-! ### Reading the code string -/

/-- `_remove_extended_args`, concrete.py 744-791: `nb` is `nb_extended_args`, `ext` is `extended_arg`. The list is
modified in place by the code; here the result is built. `(extended_arg << 8) + instr.arg` with an UNSET argument
is a TypeError. -/
def removeExtendedArgs (P : Platform) (nb : Nat) (ext : Option Nat) : List CElem → Py (List CElem)
  | [] => match ext with
    | some _ => .error .valueError
    | none => .ok []
  | .setLineno n :: rest => do
    let r ← removeExtendedArgs P nb ext rest
    return .setLineno n :: r
  | .instr i :: rest =>
    if i.name = "EXTENDED_ARG" then
      -- a constructed EXTENDED_ARG always has an argument
      match i.arg with
      | none => .error .typeError
      | some a =>
        match ext with
        | some e => removeExtendedArgs P (nb + 1) (some ((e <<< 8) + a)) rest
        | none => removeExtendedArgs P (nb + 1) (some a) rest
    else
      match ext with
      | some e => do
        let arg ← (if i.name = "NOP" then pure CArg.unset
          else match i.arg with
            | none => throw PyErr.typeError
            | some a => pure (CArg.int ((e <<< 8) + a : Nat)) : Py CArg)
        let i' ← CInstr.make P (some i.name) arg .unset i.loc (some nb)
        let r ← removeExtendedArgs P 0 none rest
        return .instr i' :: r
      | none => do
        let r ← removeExtendedArgs P nb none rest
        return .instr i :: r

/-- Reading the code string on 3.11+, concrete.py 333-350, through `dis.get_instructions(show_caches=True)`: one
instruction per code unit (argument byte, not accumulated: `i.arg % 256`), followed by the CACHE units of its
opcode whatever the bytes there are. `caches` code units remain to be skipped. Locations are assigned separately. -/
def disUnits (P : Platform) (caches : Nat) : Bytes → Py (List CInstr)
  | op :: a :: rest =>
    match caches with
    | c + 1 => disUnits P c rest
    | 0 => do
      let name ← (match P.opname op with | some n => .ok n | none => .error .valueError : Py String)
      let i ← CInstr.make P (some name) (if P.hasArg op then .int a else .unset)
      let cs ← (List.replicate (P.cacheEntries op) ()).mapM (fun _ => CInstr.make P (some "CACHE") (.int 0))
      let r ← disUnits P (P.cacheEntries op) rest
      return i :: cs ++ r
  | _ => .ok []

/-- Reading the code string before 3.11, concrete.py 357-369; `lineAt` gives `line_starts` by byte offset. A code
string of odd length is not considered (disassemble would raise IndexError or ignore the last byte). The fuel argument bounds the
`while` loop; `code.length` is enough (C08_read_before_311). -/
def disassembleAll (P : Platform) (lineAt : Nat → Option LinenoArg) (lineno : LinenoArg) (code : Bytes) :
    Nat → Nat → Py (List CInstr)
  | 0, offset =>
    if offset < code.length / (if P.py310 then 2 else 1) then .error .outOfFuel else .ok []
  | fuel + 1, offset =>
    if offset < code.length / (if P.py310 then 2 else 1) then do
      let off := if P.py310 then 2 * offset else offset
      let lineno := (lineAt off).getD lineno
      let i ← CInstr.disassemble P lineno code offset
      let r ← disassembleAll P lineAt lineno code fuel (offset + (if P.py310 then i.size / 2 else i.size))
      return i :: r
    else .ok []

end Verif
