import Verif.Spec.LineTables
/-
The codes whose lines the 3.10 table keeps, exactly (C06).
-/
namespace Verif.Spec

/-- What the 3.10 writer gets right. `last` is the line of the last instruction that has one (at the beginning, the first line of the code object),
`atRun` the line in force when the run of no-line instructions being passed began, `cur` the line in force and `run` the size in bytes of that run (0 outside of a run).
* A run of no-line instructions takes at most 254 bytes.
* The instruction after a run must be on another line than the one in force when the run began, and that one must be the line of the last instruction before the run;
* the only exception are runs of exactly 254 bytes, after which instructions on the line of before the run are right too (and count as part of the run). -/
def LinesRight (last atRun cur run : Nat) : List CElem → Prop
  | [] => True
  | .setLineno n :: r => LinesRight last atRun n run r
  | .instr i :: r =>
    match i.loc with
    | some ⟨none, _, _, _⟩ => run + i.size ≤ 254 ∧ LinesRight last (if run = 0 then cur else atRun) cur (run + i.size) r
    | some ⟨some n, _, _, _⟩ =>
      if run = 0 ∨ n ≠ atRun then (run = 0 ∨ last = atRun) ∧ LinesRight n n n 0 r
      else (254 ≤ run ∧ n = last) ∧ LinesRight last atRun n (run + i.size) r
    | none =>
      if run = 0 ∨ cur ≠ atRun then (run = 0 ∨ last = atRun) ∧ LinesRight cur cur cur 0 r
      else (254 ≤ run ∧ cur = last) ∧ LinesRight last atRun cur (run + i.size) r

instance decLinesRight : ∀ last atRun cur run es, Decidable (LinesRight last atRun cur run es)
  | _, _, _, _, [] => .isTrue trivial
  | last, atRun, _, run, .setLineno n :: r => decLinesRight last atRun n run r
  | last, atRun, cur, run, .instr i :: r => by
    have h1 := decLinesRight last (if run = 0 then cur else atRun) cur (run + i.size) r
    have h2 := fun n => decLinesRight n n n 0 r
    have h3 := fun n => decLinesRight last atRun n (run + i.size) r
    unfold LinesRight
    match i.loc with
    | some ⟨none, _, _, _⟩ => exact instDecidableAnd
    | some ⟨some n, _, _, _⟩ => have := h2 n; have := h3 n; exact inferInstance
    | none => have := h2 cur; have := h3 cur; exact inferInstance

end Verif.Spec
