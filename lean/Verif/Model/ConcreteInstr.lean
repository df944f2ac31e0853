import Verif.Model.Platform
import Verif.Model.Location
/-
`ConcreteInstr` (src/bytecode/concrete.py 74-193) and the parts of `BaseInstr` it inherits (instr.py 555-795).
-/
namespace Verif

/-- A Python value given as argument of a concrete instruction: UNSET, an int (bool included), anything else. -/
inductive CArg where
  | unset
  | int (v : Int)
  | other
deriving DecidableEq, Repr

/-- The state of a `ConcreteInstr`. `arg = none` is UNSET; `ext` is `_extended_args`. -/
structure CInstr where
  name : String
  opcode : Nat
  arg : Option Nat
  loc : Option Loc
  ext : Option Nat
  size : Nat
deriving DecidableEq, Repr

/-- `_check_arg_int`, instr.py 269-280 -/
def checkArgInt : CArg → Py Nat
  | .unset => .error .typeError  -- unreachable: callers test UNSET first
  | .other => .error .typeError
  | .int v => if 0 ≤ v ∧ v ≤ 2147483647 then .ok v.toNat else .error .valueError

/-- `ConcreteInstr._check_arg`, concrete.py 103-115. Returns the argument as stored (`none` = UNSET). For opcode 0
the default 0 is only used for the check: the attribute stays UNSET. -/
def CInstr.checkArg (P : Platform) (opcode : Nat) (arg : CArg) : Py (Option Nat) :=
  if P.hasArg opcode then
    match arg with
    | .unset => .error .valueError
    | a => (checkArgInt a).map some
  else if opcode = 0 then
    match arg with
    | .unset => .ok none
    | a => (checkArgInt a).map some
  else
    match arg with
    | .unset => .ok none
    | _ => .error .valueError

/-- The checks at the beginning of `BaseInstr._set`, instr.py 764-776. `none` is a non-str name. -/
def lookupName (P : Platform) (name : Option String) : Py (String × Nat) :=
  match name with
  | none => .error .typeError
  | some n =>
    match P.opmap n with
    | none => .error .valueError
    | some op => if P.minInstrumented ≤ op then .error .valueError else .ok (n, op)

/-- The `while arg > 0xFF` loop of `ConcreteInstr._set`, concrete.py 124-127. -/
def argSizeLoop (arg size : Nat) : Nat :=
  if arg > 0xFF then argSizeLoop (arg >>> 8) (size + 2) else size
termination_by arg
decreasing_by simp [Nat.shiftRight_eq_div_pow]; omega

/-- Size computed by `ConcreteInstr._set`, concrete.py 123-130. -/
def computeSize (arg : Option Nat) (ext : Option Nat) : Nat :=
  let size := match arg with
    | none => 2
    | some a => argSizeLoop a 2
  match ext with
  | none => size
  | some n => 2 + 2 * n

/-- `ConcreteInstr._set`, concrete.py 117-130 with instr.py 764-782. The new state and the outcome; attributes are
only assigned after all checks passed. -/
def CInstr.set_ (P : Platform) (s : CInstr) (name : Option String) (arg : CArg) : CInstr × Py Unit :=
  match lookupName P name with
  | .error e => (s, .error e)
  | .ok (n, op) =>
    match CInstr.checkArg P op arg with
    | .error e => (s, .error e)
    | .ok a =>
      let s := { s with name := n, opcode := op, arg := a }
      let s := { s with size := computeSize a s.ext }
      (s, .ok ())

/-- Argument of the `lineno=` keyword / setter: UNSET, None or an int. -/
inductive LinenoArg where
  | unset
  | val (v : Option Int)
deriving DecidableEq, Repr

/-- `BaseInstr.__init__`, instr.py 561-575, for a location that is None or an InstrLocation. -/
def initLocation (py311 : Bool) (lineno : LinenoArg) (location : Option Loc) : Py (Option Loc) :=
  match location with
  | some l => .ok (some l)
  | none =>
    match lineno with
    | .unset => .ok none
    | .val v => (Loc.make py311 v none none none).map some

/-- `ConcreteInstr.__init__`, concrete.py 88-101 (`extended_args` is None or a non-negative int). -/
def CInstr.make (P : Platform) (name : Option String) (arg : CArg) (lineno : LinenoArg := .unset)
    (location : Option Loc := none) (ext : Option Nat := none) : Py CInstr := do
  let blank : CInstr := ⟨"", 0, none, none, ext, 0⟩
  let (s, r) := blank.set_ P name arg
  r
  let l ← initLocation P.py311 lineno location
  return { s with loc := l }

/-- The argument as a Python value. -/
def CArg.ofOpt : Option Nat → CArg
  | none => .unset
  | some v => .int v
def CInstr.argVal (s : CInstr) : CArg := .ofOpt s.arg

/-- `opcode.setter`, instr.py 602-614; `none` is a non-int. -/
def CInstr.setOpcode (P : Platform) (s : CInstr) (op : Option Int) : CInstr × Py Unit :=
  match op with
  | none => (s, .error .typeError)
  | some op =>
    if 0 ≤ op ∧ op ≤ 255 then
      match P.opname op.toNat with
      | none => (s, .error .valueError)
      | some n => s.set_ P (some n) s.argVal
    else (s, .error .valueError)

/-- The condition of the `lineno` setter, instr.py 630-635. -/
def detailedLoc : Option Loc → Bool
  | some l => l.endLineno.isSome || l.col.isSome || l.endCol.isSome
  | none => false

/-- The check and assignment of the `lineno` setter, instr.py 628-644, on a location. -/
def setLineno (py311 : Bool) (loc : Option Loc) (lineno : LinenoArg) : Py (Option Loc) :=
  if detailedLoc loc then .error .runtimeError
  else match lineno with
    | .unset => .ok none
    | .val v => (Loc.make py311 v none none none).map some

/-- Argument of the `location` setter: None, an InstrLocation, or an object that is neither. -/
inductive LocArg where
  | none
  | loc (l : Loc)
  | other
deriving DecidableEq, Repr

/-- `location.setter`, instr.py 650-656 -/
def setLocation : LocArg → Py (Option Loc)
  | .none => .ok Option.none
  | .loc l => .ok (some l)
  | .other => .error .typeError

/-- The public mutators of a concrete instruction. -/
inductive CInstr.Op where
  | set (name : Option String) (arg : CArg)
  | setName (name : Option String)
  | setOpcode (op : Option Int)
  | setArg (arg : CArg)
  | setLineno (l : LinenoArg)
  | setLocation (l : LocArg)

/-- instr.py 578-584 (`set`), 594-596 (`name=`), 602-614 (`opcode=`), 620-622 (`arg=`), 628-644, 650-656 -/
def CInstr.step (P : Platform) (s : CInstr) : CInstr.Op → CInstr × Py Unit
  | .set n a => s.set_ P n a
  | .setName n => s.set_ P n s.argVal
  | .setOpcode op => s.setOpcode P op
  | .setArg a => s.set_ P (some s.name) a
  | .setLineno l =>
    match Verif.setLineno P.py311 s.loc l with
    | .ok loc => ({ s with loc := loc }, .ok ())
    | .error e => (s, .error e)
  | .setLocation l =>
    match Verif.setLocation l with
    | .ok loc => ({ s with loc := loc }, .ok ())
    | .error e => (s, .error e)

/-- The first loop of `assemble`, concrete.py 160-164: prepend EXTENDED_ARG units for the high bytes. -/
def assembleArgLoop (ext : Nat) (arg : Nat) (b : Bytes) : Bytes :=
  if arg > 0xFF then assembleArgLoop ext (arg >>> 8) (ext :: ((arg >>> 8) &&& 0xFF) :: b) else b
termination_by arg
decreasing_by simp [Nat.shiftRight_eq_div_pow]; omega

/-- The padding loop of `assemble`, concrete.py 166-168. -/
def assemblePadLoop (ext size : Nat) (b : Bytes) : Bytes :=
  if b.length < size then assemblePadLoop ext size (ext :: 0 :: b) else b
termination_by size - b.length
decreasing_by simp; omega

/-- `ConcreteInstr.assemble`, concrete.py 156-170 -/
def CInstr.assemble (P : Platform) (s : CInstr) : Bytes :=
  match s.arg with
  | none => [s.opcode, 0]
  | some arg =>
    let b := assembleArgLoop P.extendedArg arg [s.opcode, arg &&& 0xFF]
    match s.ext with
    | some (_ + 1) => assemblePadLoop P.extendedArg s.size b     -- `if self._extended_args:`
    | _ => b

/-- Substring test `sub in name`. -/
def strContains (sub name : String) : Bool := go sub.toList name.toList
where go (sub : List Char) : List Char → Bool
  | [] => sub.isPrefixOf []
  | c :: cs => sub.isPrefixOf (c :: cs) || go sub cs

/-- `is_abs_jump`, `is_forward_rel_jump`, `is_backward_rel_jump`, instr.py 717-727, on (name, opcode). -/
def isAbsJump (P : Platform) (op : Nat) : Bool := P.HASJABS op
def isForwardRelJump (P : Platform) (name : String) (op : Nat) : Bool :=
  P.HASJREL op && !strContains "BACKWARD" name
def isBackwardRelJump (P : Platform) (name : String) (op : Nat) : Bool :=
  P.HASJREL op && strContains "BACKWARD" name

/-- `use_cache_opcodes`, concrete.py 183-193 -/
def CInstr.useCacheOpcodes (P : Platform) (s : CInstr) : Nat := if P.py311 then P.cacheEntries s.opcode else 0

/-- `get_jump_target`, concrete.py 139-154. `instr_offset` is in code units from 3.10 on, in bytes before. -/
def CInstr.getJumpTarget (P : Platform) (s : CInstr) (offset : Int) : Option Int :=
  let sz : Int := ((if P.py310 then s.size / 2 else s.size) + s.useCacheOpcodes P : Nat)
  match s.arg with
  | none => none  -- a jump always has an argument
  | some a =>
    if isForwardRelJump P s.name s.opcode then some (offset + sz + a)
    else if isBackwardRelJump P s.name s.opcode then some (offset + sz - a)
    else if isAbsJump P s.opcode then some (a : Int)
    else none

/-- `ConcreteInstr.copy()` through `BaseInstr.copy`, instr.py 693-694. -/
def CInstr.copy (P : Platform) (s : CInstr) : Py CInstr :=
  CInstr.make P (some s.name) s.argVal .unset s.loc none

/-- `ConcreteInstr.disassemble`, concrete.py 172-181; `lineno` as given (None or int) before 3.11. -/
def CInstr.disassemble (P : Platform) (lineno : LinenoArg) (code : Bytes) (offset : Nat) : Py CInstr :=
  let index := if P.py310 then 2 * offset else offset
  match code[index]? with
  | none => .error .indexError
  | some op =>
    match P.opname op with
    | none =>
      -- opname is '<op>': opmap lookup fails; but `code[index+1]` is evaluated first
      if P.hasArg op ∧ code[index + 1]? = none then .error .indexError else .error .valueError
    | some name =>
      if P.hasArg op then
        match code[index + 1]? with
        | none => .error .indexError
        | some a => CInstr.make P (some name) (.int a) lineno
      else CInstr.make P (some name) .unset lineno

end Verif
