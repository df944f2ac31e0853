import Verif.Model.Assemble
/-
Inline cache entries as CPython's compiler lays them out.
-/
namespace Verif.Spec

/-- Number of CACHE entries an opcode must be followed by. -/
def cachesOf (P : Platform) (ci : CInstr) : Nat := if P.py311 then P.cacheEntries ci.opcode else 0

/-- Every instruction is followed by exactly the CACHE entries its opcode requires and CACHE occurs nowhere else;
`pending` entries are still due at the head of the list. -/
def CachesOK (P : Platform) : Nat → List CInstr → Prop
  | 0, [] => True
  | _ + 1, [] => False
  | 0, ci :: r => ci.name ≠ "CACHE" ∧ CachesOK P (cachesOf P ci) r
  | n + 1, ci :: r => ci.name = "CACHE" ∧ CachesOK P n r

instance : ∀ (P : Platform) (n : Nat) (l : List CInstr), Decidable (CachesOK P n l)
  | _, 0, [] => by unfold CachesOK; infer_instance
  | _, _ + 1, [] => by unfold CachesOK; infer_instance
  | P, 0, ci :: r => by
    unfold CachesOK
    have := instDecidableCachesOK P (cachesOf P ci) r
    infer_instance
  | P, n + 1, ci :: r => by
    unfold CachesOK
    have := instDecidableCachesOK P n r
    infer_instance

/-- The instructions of a concrete bytecode, without its SetLineno. -/
def instrsOf (l : List CElem) : List CInstr :=
  l.filterMap (fun e => match e with
    | .instr i => some i
    | .setLineno _ => none)

end Verif.Spec
