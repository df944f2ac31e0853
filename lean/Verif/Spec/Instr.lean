import Verif.Model.ConcreteInstr
import Verif.Spec.Location
/-
What a valid concrete instruction is and how an instruction with a wide argument is laid out (documentation of
`dis`: EXTENDED_ARG prefixes any opcode whose argument is too big for one byte; each prefix holds a more
significant byte).
-/
namespace Verif.Spec

/-- Number of EXTENDED_ARG needed for an argument. -/
def extNeeded (a : Nat) : Nat := if a < 256 then 0 else extNeeded (a / 256) + 1
termination_by a
decreasing_by omega

/-- Size in bytes the instruction should have: prefixes asked for explicitly win. -/
def sizeFor (arg ext : Option Nat) : Nat :=
  2 + 2 * (match ext with | some n => n | none => extNeeded (arg.getD 0))

/-- The documented invariant of a `ConcreteInstr`. -/
structure ValidCInstr (P : Platform) (s : CInstr) : Prop where
  name_op : P.opmap s.name = some s.opcode
  base : s.opcode < P.minInstrumented
  arg_required : P.hasArg s.opcode = true → s.arg.isSome
  /-- only CACHE (opcode 0) has an optional argument -/
  arg_forbidden : P.hasArg s.opcode = false → s.opcode ≠ 0 → s.arg = none
  arg_range : ∀ a, s.arg = some a → a ≤ 2147483647
  size_eq : s.size = sizeFor s.arg s.ext
  loc_ok : ∀ l, s.loc = some l → Coherent l

/-- A code unit sequence decodes to (opcode, argument): any number of EXTENDED_ARG units then the opcode. -/
def decodeUnits (ext : Nat) (acc : Nat) : Bytes → Option (Nat × Nat)
  | [op, a] => if op = ext then none else some (op, acc * 256 + a)
  | op :: a :: rest => if op = ext then decodeUnits ext (acc * 256 + a) rest else none
  | _ => none

/-- CPython's rule for inline caches (3.11+): every instruction is followed by exactly the CACHE units its opcode
requires, and CACHE occurs nowhere else. A CACHE is a single unit. -/
inductive CacheLayout (P : Platform) : List CInstr → Prop
  | nil : CacheLayout P []
  | group (i : CInstr) (cs rest : List CInstr) : i.opcode ≠ 0 → cs.length = P.cacheEntries i.opcode →
      (∀ c ∈ cs, c.opcode = 0 ∧ c.size = 2) → CacheLayout P rest → CacheLayout P (i :: (cs ++ rest))

/-- `j` is `i` read back: same name, opcode, size and argument (the argument of a CACHE is not significant: it reads
back as 0 on 3.11+). -/
structure SameInstr (i j : CInstr) : Prop where
  name : j.name = i.name
  opcode : j.opcode = i.opcode
  size : j.size = i.size
  arg : i.opcode ≠ 0 → j.arg = i.arg

/-- The significant part of a 3.11+ code string: inline cache contents and the argument byte of opcodes without
argument are zeroed (CPython ignores the latter and fills the former at run time). `caches` units remain to skip. -/
def significant (P : Platform) : Nat → Bytes → Bytes
  | c + 1, _ :: _ :: rest => 0 :: 0 :: significant P c rest
  | 0, op :: a :: rest => op :: (if P.hasArg op then a else 0) :: significant P (P.cacheEntries op) rest
  | c, _ => List.replicate (2 * c) 0  -- code cut inside a cache

end Verif.Spec
