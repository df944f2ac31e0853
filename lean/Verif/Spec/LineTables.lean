import Verif.Model.Assemble
/-
CPython's readers of co_lnotab (3.8, 3.9) and co_linetable (3.10), and the line each instruction should have.
-/
namespace Verif.Spec

/-- A byte read as a signed char. -/
def signed (b : Nat) : Int := if b < 128 then b else b - 256

/-- `PyCode_Addr2Line` of 3.8/3.9: the line at byte address `q`. -/
def lnotabLine (addr : Nat) (line : Int) (q : Nat) : Bytes → Int
  | d :: l :: rest => if q < addr + d then line else lnotabLine (addr + d) (line + signed l) q rest
  | _ => line

/-- The 3.10 reader, one line (or none) per byte of code: each pair gives a length and a signed line delta; delta
-128 means "no line" and leaves the running line alone. -/
def readLinetable (line : Int) : Bytes → List (Option Int)
  | d :: l :: rest =>
    if signed l = -128 then List.replicate d none ++ readLinetable line rest
    else List.replicate d (some (line + signed l)) ++ readLinetable (line + signed l) rest
  | _ => []

/-- The line an element sets, if any. -/
def lineOf : CElem → Option Nat
  | .setLineno n => some n
  | .instr i => match i.loc with | some l => l.lineno | none => none

/-- The line in force after the given elements. -/
def currentLine (first : Nat) (es : List CElem) : Nat := ((es.filterMap lineOf).getLast?).getD first

/-- Bytes occupied by the instructions among the elements. -/
def codeSize (es : List CElem) : Nat :=
  (es.map (fun | CElem.setLineno _ => 0 | CElem.instr i => i.size)).sum

/-- Size and line of each instruction: its own line, none if its location says so, else the line in force. -/
def instrLines (cur : Nat) : List CElem → List (Nat × Option Nat)
  | [] => []
  | .setLineno n :: r => instrLines n r
  | .instr i :: r =>
    match i.loc with
    | none => (i.size, some cur) :: instrLines cur r
    | some l =>
      match l.lineno with
      | none => (i.size, none) :: instrLines cur r
      | some n => (i.size, some n) :: instrLines n r

/-- The codes on which the 3.10 writer is right about "no line": `prev` is the line of the last instruction that has
one, `cur` the line in force, `run` the size in bytes of the run of no-line instructions just passed. Such runs are
at most 254 bytes, are followed by a different line than the one before them, and no SetLineno changes the line
between the last line and such a run. -/
def NoLineOK (prev cur run : Nat) : List CElem → Prop
  | [] => True
  | .setLineno n :: r => NoLineOK prev n run r
  | .instr i :: r =>
    match i.loc with
    | none => (run = 0 ∨ cur ≠ prev) ∧ NoLineOK cur cur 0 r
    | some l =>
      match l.lineno with
      | none => cur = prev ∧ run + i.size ≤ 254 ∧ NoLineOK prev cur (run + i.size) r
      | some n => (run = 0 ∨ n ≠ prev) ∧ NoLineOK n n 0 r

/-- The lists of lines of operations that the 3.10 writer keeps: at most 31 operations in a row have no line (an operation takes up to
eight bytes), and the line after such a run is not the one before it (`prev`; the first line of the code at the beginning). -/
def LinesKept (prev run : Nat) : List (Option Nat) → Prop
  | [] => True
  | none :: r => run < 31 ∧ LinesKept prev (run + 1) r
  | some n :: r => (run = 0 ∨ n ≠ prev) ∧ LinesKept n 0 r

instance : ∀ prev run ls, Decidable (LinesKept prev run ls)
  | _, _, [] => .isTrue trivial
  | prev, run, none :: r => have := instDecidableLinesKept prev (run + 1) r; by unfold LinesKept; infer_instance
  | prev, run, some n :: r => have := instDecidableLinesKept n 0 r; by unfold LinesKept; infer_instance

/-- The lines that a code object of 3.8 to 3.10 written by the library keeps: before 3.10 each operation has a line. -/
def LinesWritable (P : Platform) (first : Nat) (ls : List (Option Nat)) : Prop :=
  if P.py310 then LinesKept first 0 ls else ∀ l ∈ ls, l ≠ none

instance (P : Platform) (first : Nat) (ls : List (Option Nat)) : Decidable (LinesWritable P first ls) := by unfold LinesWritable; infer_instance

end Verif.Spec
