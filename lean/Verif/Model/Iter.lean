import Verif.Model.CFG
/-
Iteration over containers that may hold foreign objects: a Python list accepts anything (`append`, `insert`, item
assignment …); the checks are made when iterating.
-/
namespace Verif

/-- `Bytecode.__iter__` and `_check_instr`, bytecode.py 233-253, over any list (`none`: an object that is not a Label,
SetLineno, Instr, TryBegin or TryEnd): what is yielded, and the exception raised if any. `seen` is `seen_try_begin`.
(`super().__iter__`, bytecode.py 166-170, makes the same check once more.) -/
def iterAny (seen : Bool) : List (Option BElem) → List BElem × Py Unit
  | [] => ([], .ok ())
  | none :: _ => ([], .error .valueError)
  | some (.tryBegin t) :: r =>
    if seen then ([], .error .runtimeError)
    else let (ys, e) := iterAny true r; (.tryBegin t :: ys, e)
  | some (.tryEnd t) :: r => let (ys, e) := iterAny false r; (.tryEnd t :: ys, e)
  | some x :: r => let (ys, e) := iterAny seen r; (x :: ys, e)

/-- `Bytecode(instructions)`, bytecode.py 239-248: the content is checked, nesting is not. -/
def bytecodeInit (es : List (Option BElem)) : Py (List (Option BElem)) :=
  if es.any (·.isNone) then .error .valueError else .ok es

/-- `ConcreteBytecode.__iter__` and `_check_instr`, concrete.py 285-297. -/
def iterConcrete : List (Option CElem) → List CElem × Py Unit
  | [] => ([], .ok ())
  | none :: _ => ([], .error .valueError)
  | some x :: r => let (ys, e) := iterConcrete r; (x :: ys, e)

/-- An object found in a BasicBlock. -/
inductive BlkObj where
  /-- not an Instr, SetLineno, TryBegin or TryEnd -/
  | foreign
  | elem (e : BElem)
  /-- a TryBegin whose target is not a BasicBlock -/
  | tryLabel (t : TryB)
deriving DecidableEq

/-- Is it an `Instr`? -/
def BlkObj.isInstr : BlkObj → Bool
  | .elem (.instr _) => true
  | _ => false

/-- One turn of `BasicBlock.__iter__`, cfg.py 44-76: `r` are the objects after. -/
def blkCheckAny (P : Platform) (e : BlkObj) (r : List BlkObj) : Py BElem :=
  match e with
  | .foreign => .error .valueError
  | .tryLabel _ => .error .valueError
  | .elem (.label _) => .error .valueError
  | .elem (.instr i) =>
    if P.hasJump i.opcode then
      if r.any BlkObj.isInstr then .error .valueError
      else if i.arg.asBlock.isNone then .error .valueError
      else .ok (.instr i)
    else .ok (.instr i)
  | .elem e => .ok e

/-- `BasicBlock.__iter__`, cfg.py 44-76 -/
def iterBlock (P : Platform) : List BlkObj → List BElem × Py Unit
  | [] => ([], .ok ())
  | e :: r =>
    match blkCheckAny P e r with
    | .error x => ([], .error x)
    | .ok y => let (ys, x) := iterBlock P r; (y :: ys, x)

end Verif
