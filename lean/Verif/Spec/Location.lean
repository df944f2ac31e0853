import Verif.Model.Location
import Verif.Spec.LocFormat
/-
What a coherent location is (documentation of InstrLocation), what `co_positions()` should report for it, and
which location each instruction of a list has when unset ones inherit.
-/
namespace Verif.Spec

/-- Coherence of a location: an end line needs a line not after it; columns come together and need both lines;
on a single line they are ordered. -/
structure Coherent (l : Loc) : Prop where
  endLine : ∀ e, l.endLineno = some e → 1 ≤ e ∧ ∃ b, l.lineno = some b ∧ b ≤ e
  colPair : l.col.isSome = l.endCol.isSome
  colLine : l.col.isSome → l.endLineno.isSome
  colOrder : l.lineno = l.endLineno → ∀ c e, l.col = some c → l.endCol = some e → c ≤ e

/-- The positions reported for an instruction at `l`: nothing without a line; a location without columns is on
a single line. -/
def posOf (l : Loc) : Pos :=
  match l.lineno with
  | none => ⟨none, none, none, none⟩
  | some ln =>
    match l.col with
    | none => ⟨some ln, some ln, none, none⟩
    | some c => ⟨some ln, l.endLineno.map Int.ofNat, some (c : Int), l.endCol.map Int.ofNat⟩

/-- The one kind of location the 3.11 format cannot express: several lines without columns. -/
def Unencodable (l : Loc) : Prop := l.col = none ∧ ∃ e, l.endLineno = some e ∧ l.lineno ≠ some e

/-- Locations with unset ones replaced by that of the predecessor. -/
def inherit (prev : Loc) : List (Option Loc) → List Loc
  | [] => []
  | none :: rest => prev :: inherit prev rest
  | some l :: rest => l :: inherit l rest

/-- The arguments InstrLocation documents as acceptable; line 0 is allowed from 3.11 on. -/
structure ValidArgs (py311 : Bool) (l el c ec : Option Int) : Prop where
  line : ∀ x, l = some x → (if py311 then 0 else 1) ≤ x
  endLine : ∀ x, el = some x → 1 ≤ x
  col : ∀ x, c = some x → 0 ≤ x
  endCol : ∀ x, ec = some x → 0 ≤ x
  lines : ∀ e, el = some e → ∃ b, l = some b ∧ b ≤ e
  colPair : c.isSome = ec.isSome
  colLine : c.isSome → el.isSome
  colOrder : l = el → ∀ a b, c = some a → ec = some b → a ≤ b

/-- One element per code unit: each instruction's item repeated for its number of code units. -/
def perUnit {α : Type} (sizes : List Nat) (xs : List α) : List α :=
  (List.zipWith (fun s x => List.replicate (s / 2) x) sizes xs).flatten

/-- The location of each instruction of a code object: its own, else that of its predecessor, else (for the
first one) the line inherited from the code object. -/
def effectiveLocs (is : List LineInfo) : List Loc :=
  match is with
  | [] => []
  | i :: rest => inherit (Loc.line (some i.lineno)) ((i :: rest).map (·.loc))

end Verif.Spec
