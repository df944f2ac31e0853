import Verif.Spec.StackPaths
import Verif.Spec.CfgCode
/-
Executions of a `Bytecode`, seen as changes of the number of values on the stack: its instructions are numbered, execution goes
from each one to the next, or to the instruction a label stands for. No graph here.
-/
namespace Verif.Spec

/-- The instructions of a list, in order. -/
def instrsE (es : List BElem) : List Instr := es.filterMap (fun | .instr i => some i | _ => none)

/-- The instructions of a `Bytecode`, in order. -/
def instrsB (b : Bytecode) : List Instr := instrsE b.elems

/-- Where execution is: before the instruction number `pos` (`none`: it has stopped), with `depth` values on the stack. -/
structure LConfig where
  pos : Option Nat
  depth : Int
  deriving DecidableEq

/-- Execution of an instruction, with its effect `e`: `-e.1` values are popped, then `e.2` are pushed. -/
inductive LExec (P : Platform) (eff : Instr → Bool → Py (Int × Int)) (b : Bytecode) : LConfig → Int × Int → LConfig → Prop
  /-- an instruction that does not jump, execution going on after it -/
  | go {k d ins e} : (instrsB b)[k]? = some ins → isFinal ins.name = false → eff ins false = .ok e →
      LExec P eff b ⟨some k, d⟩ e ⟨some (k + 1), d + e.1 + e.2⟩
  /-- a jump that is taken, to the instruction that follows its label -/
  | jump {k d ins e l n} : (instrsB b)[k]? = some ins → P.hasJump ins.opcode = true → ins.arg = .label l →
      labelAt l b.elems = some n → eff ins true = .ok e → LExec P eff b ⟨some k, d⟩ e ⟨some n, d + e.1 + e.2⟩
  /-- an instruction that ends the execution (return, raise) -/
  | stop {k d ins e} : (instrsB b)[k]? = some ins → isFinal ins.name = true →
      (P.hasJump ins.opcode && isUncondJump ins.name) = false → eff ins false = .ok e →
      LExec P eff b ⟨some k, d⟩ e ⟨none, d + e.1 + e.2⟩

/-- The configurations on the execution paths from the first instruction, started with `d0` values on the stack. -/
def LOnPath (P : Platform) (eff : Instr → Bool → Py (Int × Int)) (b : Bytecode) (d0 : Int) (x : LConfig) : Prop :=
  Star (fun x y => ∃ e, LExec P eff b x e y) ⟨some 0, d0⟩ x

/-- Some instruction on some path pops more values than there are on the stack. -/
def LUnderflows (P : Platform) (eff : Instr → Bool → Py (Int × Int)) (b : Bytecode) (d0 : Int) : Prop :=
  ∃ x e y, LOnPath P eff b d0 x ∧ LExec P eff b x e y ∧ x.depth + e.1 < 0

/-- The effect of an instruction does not depend on where it jumps to. -/
def TargetFree (eff : Instr → Bool → Py (Int × Int)) : Prop :=
  ∀ (i : Instr) (l t : Nat) (j : Bool), eff { i with arg := .label l } j = eff { i with arg := .block t } j

end Verif.Spec
