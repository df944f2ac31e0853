import Verif.Model.Bytecode
/-
What a program means, for a `Bytecode` and for a `ConcreteBytecode`: the list of its operations, each with its
operand resolved (constant key, name, variable, position of the operation jumped to), its location, and the handler
protecting it. Nothing here uses the conversions. Inline CACHE entries are not operations; the two-variable
opcodes of 3.13 stand for two operations.
-/
namespace Verif.Spec

/-- A variable slot of the frame: a local or cell variable, or a free variable. -/
inductive Slot where
  | named (n : String)
  | free (n : String)
deriving DecidableEq, Repr

/-- A resolved operand; `jump t`: to the operation number `t`. -/
inductive Operand (κ : Type) where
  | none
  | int (v : Int)
  | const (k : κ)
  | name (n : String)
  | flagName (f : Bool) (n : String)
  | flag2Name (f g : Bool) (n : String)
  | slot (s : Slot)
  | compare (v : Nat)
  | intrinsic (v : Nat)
  | jump (t : Nat)
  | invalid
deriving DecidableEq, Repr

/-- A handler: the operation control goes to, whether lasti is pushed, the stack depth. -/
structure Handler where
  target : Nat
  lasti : Bool
  depth : Nat
deriving DecidableEq, Repr

structure Op (κ : Type) where
  name : String
  operand : Operand κ
  loc : Loc
  handler : Option Handler
deriving DecidableEq, Repr

variable {κ : Type}

/-! ### Abstract bytecode -/

/-- Number of operations an abstract instruction stands for. -/
def opCount (P : Platform) (name : String) (op : Nat) : Nat :=
  if name = "CACHE" then 0 else if P.dual op then 2 else 1

/-- Number of operations before the last occurrence of a label; `n` operations came before the list. -/
def labelPos (P : Platform) (l : Nat) (n : Nat) : List BElem → Option Nat
  | [] => none
  | .label l' :: r =>
    match labelPos P l n r with
    | some x => some x
    | none => if l' = l then some n else none
  | .instr i :: r => labelPos P l (n + opCount P i.name i.opcode) r
  | _ :: r => labelPos P l n r

/-- A single variable operand. -/
def slotOf : Atom → Operand κ
  | .str n => .slot (.named n)
  | .cell n => .slot (.named n)
  | .free n => .slot (.free n)
  | _ => .invalid

def jumpOr (t : Option Nat) : Operand κ :=
  match t with
  | some t => .jump t
  | none => .invalid

/-- The operand of an abstract instruction that is not a two-variable one; `tgt` locates labels. -/
def operandB (P : Platform) (key : Arg → κ) (tgt : Nat → Option Nat) (op : Nat) (arg : Arg) : Operand κ :=
  if P.hasJump op then
    match arg with
    | .label l => jumpOr (tgt l)
    | _ => .invalid
  else if P.hasconst op then .const (key arg)
  else if P.haslocal op || P.hasfree op then
    match arg with
    | .str n => .slot (.named n)
    | .cell n => .slot (.named n)
    | .free n => .slot (.free n)
    | _ => .invalid
  else if P.hasname op then
    match arg with
    | .str n => .name n
    | .tuple [.bool f, .str n] => .flagName f n
    | .tuple [.bool f, .bool g, .str n] => .flag2Name f g n
    | _ => .invalid
  else if P.hascompare op then
    match arg with
    | .compare v => .compare v
    | _ => .invalid
  else if P.intrinsic1 op || P.intrinsic2 op then
    match arg with
    | .intr1 v => .intrinsic v
    | .intr2 v => .intrinsic v
    | _ => .invalid
  else
    match arg with
    | .unset => .none
    | a => match a.asInt with
      | some v => .int v
      | none => .invalid

/-- The operations of an abstract instruction. -/
def expandB (P : Platform) (key : Arg → κ) (tgt : Nat → Option Nat) (i : Instr) : List (String × Operand κ) :=
  if i.name = "CACHE" then []
  else match P.dualSingles i.opcode with
    | some (n1, n2) =>
      match i.arg with
      | .tuple [x, y] => [(n1, slotOf x), (n2, slotOf y)]
      | _ => [(n1, .invalid), (n2, .invalid)]
    | none => [(i.name, operandB P key tgt i.opcode i.arg)]

/-- The handler a TryBegin installs. -/
def handlerB (tgt : Nat → Option Nat) (t : TryB) : Option Handler :=
  match tgt t.target, t.depth with
  | some x, some d => some ⟨x, t.lasti, d⟩
  | _, _ => none

/-- The operations of a list of elements, in order; `loc` is the current location, `tr` the open try region. An
instruction without location has that of the preceding SetLineno or instruction. -/
def opsB (P : Platform) (key : Arg → κ) (tgt : Nat → Option Nat) (loc : Loc) (tr : Option TryB) :
    List BElem → List (Op κ)
  | [] => []
  | .label _ :: r => opsB P key tgt loc tr r
  | .setLineno n :: r => opsB P key tgt (Loc.line (some n)) tr r
  | .tryBegin t :: r => opsB P key tgt loc (some t) r
  | .tryEnd _ :: r => opsB P key tgt loc none r
  | .instr i :: r =>
    (expandB P key tgt i).map (fun p => ⟨p.1, p.2, i.loc.getD loc, tr.bind (handlerB tgt)⟩) ++
      opsB P key tgt (i.loc.getD loc) tr r

/-- Number of operations of a list of elements. -/
def opNumber (P : Platform) (es : List BElem) : Nat :=
  (es.map (fun e => match e with | .instr i => opCount P i.name i.opcode | _ => 0)).sum

/-- Is the element a jump to a label? -/
def _root_.Verif.BElem.jumps : BElem → Bool
  | .instr i => match i.arg with
    | .label _ => true
    | _ => false
  | _ => false

/-- Number of jumps of a list of elements. -/
def jumpCount (es : List BElem) : Nat := es.countP BElem.jumps

/-- The program denoted by a `Bytecode`. -/
def programB (P : Platform) (key : Arg → κ) (b : Bytecode) : List (Op κ) :=
  opsB P key (fun l => labelPos P l 0 b.elems) (Loc.line (some b.attrs.firstLineno)) none b.elems

/-! ### Concrete bytecode -/

/-- Length of a concrete instruction in offset units (code units from 3.10 on, bytes before). -/
def width (P : Platform) (ci : CInstr) : Nat := if P.py310 then ci.size / 2 else ci.size

/-- The operation starting at an offset: its number, if an instruction other than CACHE starts there (or the code
ends there). `cur` is the offset of the head of the list, `n` the number of operations before it. -/
def opAt (P : Platform) (off : Int) (cur n : Nat) : List CElem → Option Nat
  | [] => if off = cur then some n else none
  | .setLineno _ :: r => opAt P off cur n r
  | .instr ci :: r =>
    if off = cur then (if ci.name = "CACHE" then none else some n)
    else opAt P off (cur + width P ci) (n + opCount P ci.name ci.opcode) r

/-- CPython's frame slots from 3.11 on: the local variables, the cell variables that are not also local variables,
the free variables. -/
def frameSlots (varnames cellvars freevars : List String) : List Slot :=
  (varnames ++ cellvars.filter (fun n => !(varnames.contains n))).map .named ++ freevars.map .free

/-- What an index means for LOAD_FAST-like opcodes. -/
def localSlots (P : Platform) (c : Concrete) : List Slot :=
  if P.py313 then frameSlots c.varnames c.attrs.cellvars c.attrs.freevars else c.varnames.map .named

/-- What an index means for LOAD_DEREF-like opcodes. -/
def derefSlots (P : Platform) (c : Concrete) : List Slot :=
  if P.py311 then frameSlots c.varnames c.attrs.cellvars c.attrs.freevars
  else c.attrs.cellvars.map .named ++ c.attrs.freevars.map .free

def slotAt (l : List Slot) (k : Nat) : Operand κ :=
  match l[k]? with
  | some s => .slot s
  | none => .invalid

def nameAt (l : List String) (k : Nat) (f : String → Operand κ) : Operand κ :=
  match l[k]? with
  | some s => f s
  | none => .invalid

/-- The comparison an argument of COMPARE_OP stands for (3.12: above the 4 low bits; 3.13: above the 5 low bits,
bit 4 asking for a bool). -/
def compareOf (P : Platform) (a : Nat) : Nat :=
  if P.py313 then a / 32 + (if a / 16 % 2 = 1 then 16 else 0)
  else if P.py312 then a / 16 else a

/-- The operand of a concrete instruction that is not a two-variable one; `dest` is where it jumps to. -/
def operandC (P : Platform) (key : Arg → κ) (c : Concrete) (dest : Option Nat) (ci : CInstr) : Operand κ :=
  if P.hasJump ci.opcode then jumpOr dest
  else match ci.arg with
    | none => .none
    | some a =>
      if P.hasconst ci.opcode then
        match c.consts[a]? with
        | some v => .const (key v)
        | none => .invalid
      else if P.haslocal ci.opcode then slotAt (localSlots P c) a
      else if P.hasfree ci.opcode then slotAt (derefSlots P c) a
      else if P.hasname ci.opcode then
        if P.bitflag ci.opcode then nameAt c.names (a / 2) (.flagName (a % 2 == 1))
        else if P.bitflag2 ci.opcode then nameAt c.names (a / 4) (.flag2Name (a % 2 == 1) (a / 2 % 2 == 1))
        else nameAt c.names a .name
      else if P.hascompare ci.opcode then .compare (compareOf P a)
      else if P.intrinsic1 ci.opcode || P.intrinsic2 ci.opcode then .intrinsic a
      else .int a

/-- The operations of a concrete instruction. -/
def expandC (P : Platform) (key : Arg → κ) (c : Concrete) (dest : Option Nat) (ci : CInstr) : List (String × Operand κ) :=
  if ci.name = "CACHE" then []
  else match P.dualSingles ci.opcode with
    | some (n1, n2) =>
      match ci.arg with
      | some a => [(n1, slotAt (localSlots P c) (a / 16)), (n2, slotAt (localSlots P c) (a % 16))]
      | none => [(n1, .invalid), (n2, .invalid)]
    | none => [(ci.name, operandC P key c dest ci)]

/-- The handler of the opcode at an offset: the first exception table entry covering it. -/
def handlerAt (P : Platform) (c : Concrete) (off : Nat) : Option Handler :=
  match c.excTable.find? (fun e => e.start ≤ (off : Int) && (off : Int) ≤ e.stop) with
  | none => none
  | some e =>
    match opAt P e.target 0 0 c.elems with
    | some t => some ⟨t, e.lasti, e.depth.toNat⟩
    | none => none

/-- The operations of a list of concrete elements; `cur` is the offset of its head, `line` the current line.
The opcode of an instruction is its last unit. -/
def opsC (P : Platform) (key : Arg → κ) (c : Concrete) (line cur : Nat) : List CElem → List (Op κ)
  | [] => []
  | .setLineno n :: r => opsC P key c n cur r
  | .instr ci :: r =>
    let line := (ci.loc.bind (·.lineno)).getD line
    (expandC P key c ((ci.getJumpTarget P cur).bind (fun t => opAt P t 0 0 c.elems)) ci).map
      (fun p => ⟨p.1, p.2, ci.loc.getD (Loc.line (some line)), handlerAt P c (cur + width P ci - (if P.py310 then 1 else 2))⟩) ++
      opsC P key c line (cur + width P ci) r

/-- The program denoted by a `ConcreteBytecode`. -/
def programC (P : Platform) (key : Arg → κ) (c : Concrete) : List (Op κ) :=
  opsC P key c c.attrs.firstLineno 0 c.elems

end Verif.Spec
