import Verif.Spec.Program
/-
The protected regions of a Bytecode, one for each TryBegin/TryEnd pair, by operation numbers.
-/
namespace Verif.Spec

/-- A protected region: the operations from `start` to before `stop`, and their handler. -/
structure TryRegion where
  start : Nat
  stop : Nat
  handler : Option Handler
deriving DecidableEq, Repr

/-- The regions of a list of elements; `n` operations come before it, `cur` is the open TryBegin and where its region starts. -/
def regionsFrom (P : Platform) (tgt : Nat → Option Nat) (n : Nat) (cur : Option (Nat × TryB)) : List BElem → List TryRegion
  | [] => []
  | .instr i :: r => regionsFrom P tgt (n + opCount P i.name i.opcode) cur r
  | .label _ :: r => regionsFrom P tgt n cur r
  | .setLineno _ :: r => regionsFrom P tgt n cur r
  | .tryBegin t :: r => regionsFrom P tgt n (some (n, t)) r
  | .tryEnd _ :: r =>
    match cur with
    | some (s, t) => ⟨s, n, handlerB tgt t⟩ :: regionsFrom P tgt n none r
    | none => regionsFrom P tgt n none r

/-- The regions of a Bytecode, in order. -/
def regionsB (P : Platform) (b : Bytecode) : List TryRegion :=
  regionsFrom P (fun l => labelPos P l 0 b.elems) 0 none b.elems

end Verif.Spec
