import Verif.Model.ToConcrete
/-
What becomes of CACHE instructions written by hand (3.11+).
-/
namespace Verif.Spec

/-- Number of CACHE entries the opcode of this name must be followed by. -/
def entriesOf (P : Platform) (n : String) : Nat := if P.py311 then P.cacheEntries ((P.opmap n).getD 0) else 0

/-- The list does not begin with a CACHE instruction. -/
def NoCacheFirst (es : List BElem) : Prop := ∀ i es', es = .instr i :: es' → i.name ≠ "CACHE"

/-- `Laid P es ns`: the elements `es` are emitted as instructions with the names `ns`. Nothing is emitted for labels and
markers; an instruction directly followed by a CACHE written by hand gets this one entry and no other; any other
instruction gets all the entries its opcode requires; a two-variable opcode may be emitted as two instructions. -/
inductive Laid (P : Platform) : List BElem → List String → Prop
  | nil : Laid P [] []
  | other (e : BElem) (es : List BElem) (ns : List String) : (∀ i, e ≠ .instr i) → Laid P es ns → Laid P (e :: es) ns
  | auto (j : Instr) (es : List BElem) (ns : List String) : j.name ≠ "CACHE" → NoCacheFirst es → Laid P es ns →
      Laid P (.instr j :: es) (j.name :: (List.replicate (entriesOf P j.name) "CACHE" ++ ns))
  | manual (j i : Instr) (es : List BElem) (ns : List String) : j.name ≠ "CACHE" → i.name = "CACHE" → 0 < entriesOf P j.name →
      NoCacheFirst es → Laid P es ns → Laid P (.instr j :: .instr i :: es) (j.name :: "CACHE" :: ns)
  | pair (j : Instr) (n1 n2 : String) (es : List BElem) (ns : List String) : j.name ≠ "CACHE" → P.dualSingles j.opcode = some (n1, n2) → NoCacheFirst es →
      Laid P es ns → Laid P (.instr j :: es) (n1 :: n2 :: ns)

/-- Every CACHE written by hand directly follows an instruction that requires exactly one entry. -/
def OneEntryEach (P : Platform) (es : List BElem) : Prop :=
  ∀ es1 j i es2, es = es1 ++ .instr j :: .instr i :: es2 → i.name = "CACHE" → entriesOf P j.name = 1

end Verif.Spec
