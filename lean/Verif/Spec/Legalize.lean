import Verif.Model.Bytecode
/-
What `legalize` must produce, position by position.
-/
namespace Verif.Spec

/-- The SetLineno lines of a list, in order. -/
def setLines (es : List BElem) : List Nat := es.filterMap (fun | .setLineno n => some n | _ => none)
/-- The lines carried by the instructions of a list, in order. -/
def ownLines (es : List BElem) : List Nat := es.filterMap (fun | .instr i => i.loc.bind (·.lineno) | _ => none)
/-- The elements that remain. -/
def kept (es : List BElem) : List BElem := es.filter (fun | .setLineno _ => false | _ => true)

/-- The location of an instruction that comes after the elements `pre`: the line of the last SetLineno; else its own
location; else the last line before it (the first line of the code if there is none). -/
def legalLoc (first : Nat) (pre : List BElem) (loc : Option Loc) : Loc :=
  match (setLines pre).getLast? with
  | some n => Loc.line (some n)
  | none => loc.getD (Loc.line (some ((ownLines pre).getLast?.getD first)))

/-- The element that must be found in the place of `e`. -/
def legalElem (first : Nat) (pre : List BElem) : BElem → BElem
  | .instr i => .instr { i with loc := some (legalLoc first pre i.loc) }
  | e => e

/-- `out` is `es` legalized: what remains, in order, each element as above. -/
def Legalized (first : Nat) (es out : List BElem) : Prop :=
  out.length = (kept es).length ∧
  ∀ pre e post, es = pre ++ e :: post → (∀ n, e ≠ .setLineno n) →
    out[(kept pre).length]? = some (legalElem first pre e)

/-- The same for the blocks of a CFG: SetLineno only overrides the lines of its own block, and is also a line seen
by the later blocks. `before` are the blocks before, `pre` the elements before in the block. -/
def linesSeen (set_ : Bool) : List BElem → List Nat
  | [] => []
  | .setLineno n :: r => n :: linesSeen true r
  | .instr i :: r => (if set_ then [] else (i.loc.bind (·.lineno)).toList) ++ linesSeen set_ r
  | _ :: r => linesSeen set_ r

def legalLocBlock (first : Nat) (before : List (List BElem)) (pre : List BElem) (loc : Option Loc) : Loc :=
  match (setLines pre).getLast? with
  | some n => Loc.line (some n)
  | none => loc.getD (Loc.line (some (((before ++ [pre]).flatMap (linesSeen false)).getLast?.getD first)))

def legalElemBlock (first : Nat) (before : List (List BElem)) (pre : List BElem) : BElem → BElem
  | .instr i => .instr { i with loc := some (legalLocBlock first before pre i.loc) }
  | e => e

def LegalizedBlocks (first : Nat) (bs out : List (List BElem)) : Prop :=
  out.length = bs.length ∧
  ∀ before b after, bs = before ++ b :: after →
    (out[before.length]?.map List.length) = some (kept b).length ∧
    ∀ pre e post, b = pre ++ e :: post → (∀ n, e ≠ .setLineno n) →
      (out[before.length]?.bind (·[(kept pre).length]?)) = some (legalElemBlock first before pre e)

/-! The same for the elements of a `ConcreteBytecode`. -/
def setLinesC (es : List CElem) : List Nat := es.filterMap (fun | .setLineno n => some n | _ => none)
def ownLinesC (es : List CElem) : List Nat := es.filterMap (fun | .instr i => i.loc.bind (·.lineno) | _ => none)
def keptC (es : List CElem) : List CElem := es.filter (fun | .setLineno _ => false | _ => true)

def legalElemC (first : Nat) (pre : List CElem) : CElem → CElem
  | .instr i => .instr { i with loc := some (match (setLinesC pre).getLast? with
      | some n => Loc.line (some n)
      | none => i.loc.getD (Loc.line (some ((ownLinesC pre).getLast?.getD first)))) }
  | e => e

def LegalizedC (first : Nat) (es out : List CElem) : Prop :=
  out.length = (keptC es).length ∧
  ∀ pre e post, es = pre ++ e :: post → (∀ n, e ≠ .setLineno n) →
    out[(keptC pre).length]? = some (legalElemC first pre e)

end Verif.Spec
