import Verif.Model.Basic
/-
The tables of CPython's `opcode` and `dis` modules the code consults, as a parameter of the model.
-/
namespace Verif

/-- Interpreter-dependent tables. `minor` is `sys.version_info[1]` (8..13). All predicates are keyed by opcode. -/
structure Platform where
  minor : Nat
  /-- `_opcode.opmap` -/
  opmap : String → Option Nat
  /-- `_opcode.opname[op]`; `none` for the placeholder `'<op>'`. -/
  opname : Nat → Option String
  /-- `opcode_has_argument`, instr.py 283-291 -/
  hasArg : Nat → Bool
  /-- `MIN_INSTRUMENTED_OPCODE`, instr.py 20 -/
  minInstrumented : Nat
  /-- `_opcode.EXTENDED_ARG` -/
  extendedArg : Nat
  hasconst : Nat → Bool
  haslocal : Nat → Bool
  hasname : Nat → Bool
  hasfree : Nat → Bool
  hascompare : Nat → Bool
  /-- `_opcode.hasjrel` -/
  hasjrel : Nat → Bool
  /-- `_opcode.hasjabs` -/
  hasjabs : Nat → Bool
  /-- `dis._inline_cache_entries` (keyed by opcode here; 3.13 keys it by name). 0 before 3.11. -/
  cacheEntries : Nat → Nat
  /-- `dis.stack_effect(op, arg, jump=jump)`; `none`: it raises ValueError. -/
  stackEffect : Nat → Option Nat → Option Bool → Option Int

namespace Platform
variable (P : Platform)

/-- `PY310` … `PY313`, utils.py 4-7 -/
def py39 : Bool := 9 ≤ P.minor
def py310 : Bool := 10 ≤ P.minor
def py311 : Bool := 11 ≤ P.minor
def py312 : Bool := 12 ≤ P.minor
def py313 : Bool := 13 ≤ P.minor

/-- `op == _opcode.opmap[name]` -/
def isOp (name : String) (op : Nat) : Bool := P.opmap name == some op

/-- `BITFLAG_OPCODES`, instr.py 24-30 -/
def bitflag (op : Nat) : Bool :=
  if P.py312 then P.isOp "LOAD_GLOBAL" op || P.isOp "LOAD_ATTR" op
  else if P.py311 then P.isOp "LOAD_GLOBAL" op else false

/-- `BITFLAG2_OPCODES`, instr.py 32 -/
def bitflag2 (op : Nat) : Bool := if P.py312 then P.isOp "LOAD_SUPER_ATTR" op else false

/-- `INTRINSIC_1OP`, `INTRINSIC_2OP`, instr.py 35-36 -/
def intrinsic1 (op : Nat) : Bool := if P.py312 then P.isOp "CALL_INTRINSIC_1" op else false
def intrinsic2 (op : Nat) : Bool := if P.py312 then P.isOp "CALL_INTRINSIC_2" op else false

/-- `HASJABS`, `HASJREL`, instr.py 39-43. On 3.13 `opcode.hasjump` is the list bound to `hasjrel` as well. -/
def HASJABS (op : Nat) : Bool := if P.py313 then false else P.hasjabs op
def HASJREL (op : Nat) : Bool := P.hasjrel op

/-- `BaseInstr._has_jump`, instr.py 784-786 -/
def hasJump (op : Nat) : Bool := P.hasjrel op || P.hasjabs op

/-- `DUAL_ARG_OPCODES_SINGLE_OPS`, instr.py 46-58; `none` when the opcode is not in `DUAL_ARG_OPCODES`. -/
def dualSingles (op : Nat) : Option (String × String) :=
  if P.py313 then
    if P.isOp "LOAD_FAST_LOAD_FAST" op then some ("LOAD_FAST", "LOAD_FAST")
    else if P.isOp "STORE_FAST_LOAD_FAST" op then some ("STORE_FAST", "LOAD_FAST")
    else if P.isOp "STORE_FAST_STORE_FAST" op then some ("STORE_FAST", "STORE_FAST")
    else none
  else none

def dual (op : Nat) : Bool := (P.dualSingles op).isSome

/-- Facts about the tables that the theorems use. Each is a property of CPython's `opcode`/`dis` modules and is
proved for the table instances in `Verif.Instances`. -/
structure WF : Prop where
  /-- names and opcodes correspond one to one on base opcodes -/
  name_op : ∀ n op, P.opmap n = some op → op < P.minInstrumented → op < 256 ∧ P.opname op = some n
  op_name : ∀ op n, op < 256 → P.opname op = some n → P.opmap n = some op
  ext : P.opmap "EXTENDED_ARG" = some P.extendedArg
  ext_base : P.extendedArg < P.minInstrumented
  ext_arg : P.hasArg P.extendedArg = true
  /-- NOP exists and takes no argument -/
  nop : ∃ op, P.opmap "NOP" = some op ∧ op < P.minInstrumented ∧ P.hasArg op = false ∧ op ≠ 0
  /-- from 3.11 on, opcode 0 is CACHE, takes no argument, and only it is called so -/
  cache : P.py311 = true → P.opmap "CACHE" = some 0 ∧ 0 < P.minInstrumented
  zero : P.hasArg 0 = false
  /-- EXTENDED_ARG and CACHE have no inline caches -/
  cache_ext : P.cacheEntries P.extendedArg = 0
  cache_zero : P.cacheEntries 0 = 0
  /-- before 3.11 there is no opcode 0 -/
  no_zero : P.py311 = false → ∀ n, P.opmap n ≠ some 0
  /-- every base opcode (with a name) with a symbolic operand takes an argument -/
  operand_arg : ∀ n op, P.opmap n = some op → op < P.minInstrumented → (P.hasconst op || P.haslocal op || P.hasname op || P.hasfree op || P.hascompare op ||
    P.hasjrel op || P.hasjabs op) = true → P.hasArg op = true
  /-- an opcode has at most one kind of symbolic operand -/
  one_kind : ∀ op, [P.hasJump op, P.hasfree op, P.haslocal op, P.hasname op, P.hasconst op, P.hascompare op].count true ≤ 1
  /-- flagged opcodes are name opcodes, two-variable opcodes are local opcodes, intrinsics have an int operand -/
  bitflag_name : ∀ op, P.bitflag op = true → P.hasname op = true ∧ P.bitflag2 op = false
  bitflag2_name : ∀ op, P.bitflag2 op = true → P.hasname op = true
  dual_local : ∀ op, P.dual op = true → P.haslocal op = true
  /-- the single opcodes a two-variable one stands for exist, act on locals and are not two-variable -/
  dual_single : ∀ op n1 n2, P.dualSingles op = some (n1, n2) → ∀ n, n = n1 ∨ n = n2 →
    ∃ o, P.opmap n = some o ∧ P.haslocal o = true ∧ P.dual o = false
  intr_plain : ∀ op, (P.intrinsic1 op || P.intrinsic2 op) = true → P.hasArg op = true ∧ (P.hasJump op || P.hasfree op || P.haslocal op ||
    P.hasname op || P.hasconst op || P.hascompare op) = false
  intr_disjoint : ∀ op, P.intrinsic1 op = true → P.intrinsic2 op = false
  /-- … and have no inline caches -/
  dual_cache : ∀ op n1 n2, P.dualSingles op = some (n1, n2) → ∀ n, n = n1 ∨ n = n2 → ∀ o, P.opmap n = some o → P.cacheEntries o = 0
  /-- … and are not instrumented opcodes -/
  dual_base : ∀ op n1 n2, P.dualSingles op = some (n1, n2) → ∀ n, n = n1 ∨ n = n2 → ∀ o, P.opmap n = some o → o < P.minInstrumented
  /-- 3.13 has no absolute jump -/
  no_jabs : P.py313 = true → ∀ op, P.hasjabs op = false
  /-- no inline caches before 3.11 -/
  old_cache : P.py311 = false → ∀ op, P.cacheEntries op = 0
  /-- and no opcode CACHE -/
  old_name : P.py311 = false → P.opmap "CACHE" = none

end Platform
end Verif
