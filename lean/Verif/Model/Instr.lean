import Verif.Model.ConcreteInstr
/-
Abstract instructions: `Instr`, its argument checks, its setters (src/bytecode/instr.py 555-928), stack effects
(301-407, 658-691), jump classification (696-741).
-/
namespace Verif

/-- A Python value inside a tuple argument. -/
inductive Atom where
  | bool (b : Bool)
  | int (v : Int)
  | str (s : String)
  | cell (n : String)
  | free (n : String)
  | other (id : Nat)
deriving DecidableEq, Repr

/-- A Python value given as argument of an `Instr` (also: a constant). Labels and blocks are object identities.
`compare`, `intr1`, `intr2` are members of the `Compare`, `Intrinsic1Op`, `Intrinsic2Op` IntEnum classes, by value.
`other` is any other object, by identity. -/
inductive Arg where
  | unset
  | int (v : Int)
  | bool (b : Bool)
  | str (s : String)
  | label (l : Nat)
  | block (b : Nat)
  | cell (n : String)
  | free (n : String)
  | compare (v : Nat)
  | intr1 (v : Nat)
  | intr2 (v : Nat)
  | tuple (l : List Atom)
  | other (id : Nat)
deriving DecidableEq, Repr

/-- `isinstance(arg, int)` and the integer value. bool and IntEnum are ints. (UNSET is an int subclass too, but every
caller tests for UNSET first or treats it as the ConcreteInstr default.) -/
def Arg.asInt : Arg → Option Int
  | .int v => some v
  | .bool b => some (if b then 1 else 0)
  | .compare v => some v
  | .intr1 v => some v
  | .intr2 v => some v
  | _ => none

/-- State of an `Instr`. -/
structure Instr where
  name : String
  opcode : Nat
  arg : Arg
  loc : Option Loc
deriving DecidableEq, Repr

/-- `_check_arg_int`, instr.py 269-280, on an abstract argument. -/
def checkArgInt' (a : Arg) : Py Unit :=
  match a.asInt with
  | none => .error .typeError
  | some v => if 0 ≤ v ∧ v ≤ 2147483647 then .ok () else .error .valueError

/-- `isinstance(arg, tuple) and len(arg) == 2 and isinstance(arg[0], bool) and isinstance(arg[1], str)` -/
def Arg.isFlagName : Arg → Bool
  | .tuple [.bool _, .str _] => true
  | _ => false
/-- three elements: bool, bool, str -/
def Arg.isFlag2Name : Arg → Bool
  | .tuple [.bool _, .bool _, .str _] => true
  | _ => false
/-- `isinstance(x, (str, CellVar))` -/
def Atom.isStrOrCell : Atom → Bool
  | .str _ => true
  | .cell _ => true
  | _ => false
def Arg.isVarPair : Arg → Bool
  | .tuple [a, b] => a.isStrOrCell && b.isStrOrCell
  | _ => false
/-- `isinstance(arg, (CellVar, FreeVar))` -/
def Arg.isCellOrFree : Arg → Bool
  | .cell _ => true
  | .free _ => true
  | _ => false
def Arg.isStr : Arg → Bool
  | .str _ => true
  | _ => false

/-- `Instr._check_arg`, instr.py 820-928 -/
def Instr.checkArg (P : Platform) (name : String) (op : Nat) (arg : Arg) : Py Unit :=
  if name = "EXTENDED_ARG" then .error .valueError
  else if P.hasArg op && arg == .unset then .error .valueError
  else if !P.hasArg op && arg != .unset then .error .valueError
  else if P.hasJump op then
    match arg with
    | .label _ => .ok ()
    | .block _ => .ok ()
    | _ => .error .typeError
  else if P.hasfree op then (if arg.isCellOrFree then .ok () else .error .typeError)
  else if P.haslocal op || P.hasname op then
    if P.bitflag op then (if arg.isFlagName then .ok () else .error .typeError)
    else if P.bitflag2 op then (if arg.isFlag2Name then .ok () else .error .typeError)
    else if P.dual op then (if arg.isVarPair then .ok () else .error .typeError)
    else if P.py313 && P.haslocal op && arg.isCellOrFree then .ok ()
    else if !arg.isStr then .error .typeError
    else .ok ()
  else if P.hasconst op then
    match arg with
    | .label _ => .error .valueError
    | .block _ => .error .valueError
    | _ => .ok ()
  else if P.hascompare op then
    match arg with
    | .compare _ => .ok ()
    | _ => .error .typeError
  else if P.intrinsic1 op then
    match arg with
    | .intr1 _ => .ok ()
    | _ => .error .typeError
  else if P.intrinsic2 op then
    match arg with
    | .intr2 _ => .ok ()
    | _ => .error .typeError
  else if P.hasArg op then checkArgInt' arg
  else .ok ()

/-- `BaseInstr._set` for an `Instr`, instr.py 764-782. -/
def Instr.set_ (P : Platform) (s : Instr) (name : Option String) (arg : Arg) : Instr × Py Unit :=
  match lookupName P name with
  | .error e => (s, .error e)
  | .ok (n, op) =>
    match Instr.checkArg P n op arg with
    | .error e => (s, .error e)
    | .ok () => ({ s with name := n, opcode := op, arg := arg }, .ok ())

/-- `Instr(...)`, instr.py 561-575. -/
def Instr.make (P : Platform) (name : Option String) (arg : Arg) (lineno : LinenoArg := .unset)
    (location : Option Loc := none) : Py Instr := do
  let (s, r) := (⟨"", 0, .unset, none⟩ : Instr).set_ P name arg
  r
  let l ← initLocation P.py311 lineno location
  return { s with loc := l }

/-- The public mutators of an `Instr`. -/
inductive Instr.Op where
  | set (name : Option String) (arg : Arg)
  | setName (name : Option String)
  | setOpcode (op : Option Int)
  | setArg (arg : Arg)
  | setLineno (l : LinenoArg)
  | setLocation (l : LocArg)

/-- instr.py 578-584 (`set`), 594-596 (`name=`), 602-614 (`opcode=`), 620-622 (`arg=`), 628-644, 650-656 -/
def Instr.step (P : Platform) (s : Instr) : Instr.Op → Instr × Py Unit
  | .set n a => s.set_ P n a
  | .setName n => s.set_ P n s.arg
  | .setOpcode op =>
    match op with
    | none => (s, .error .typeError)
    | some op =>
      if 0 ≤ op ∧ op ≤ 255 then
        match P.opname op.toNat with
        | none => (s, .error .valueError)
        | some n => s.set_ P (some n) s.arg
      else (s, .error .valueError)
  | .setArg a => s.set_ P (some s.name) a
  | .setLineno l =>
    match Verif.setLineno P.py311 s.loc l with
    | .ok loc => ({ s with loc := loc }, .ok ())
    | .error e => (s, .error e)
  | .setLocation l =>
    match Verif.setLocation l with
    | .ok loc => ({ s with loc := loc }, .ok ())
    | .error e => (s, .error e)

/-- `BaseInstr.copy` on an `Instr`, instr.py 693-694 -/
def Instr.copy (P : Platform) (s : Instr) : Py Instr := Instr.make P (some s.name) s.arg .unset s.loc

/-- `is_uncond_jump`, instr.py 706-715 -/
def isUncondJump (name : String) : Bool :=
  name == "JUMP_FORWARD" || name == "JUMP_ABSOLUTE" || name == "JUMP_BACKWARD" || name == "JUMP_BACKWARD_NO_INTERRUPT"

/-- `is_cond_jump`, instr.py 699-704 -/
def isCondJump (name : String) : Bool := strContains "JUMP_" name && strContains "IF_" name

/-- `is_final`, instr.py 729-741 -/
def isFinal (name : String) : Bool :=
  name == "RETURN_VALUE" || name == "RETURN_CONST" || name == "RAISE_VARARGS" || name == "RERAISE" ||
  name == "BREAK_LOOP" || name == "CONTINUE_LOOP" || isUncondJump name

end Verif
