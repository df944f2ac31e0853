import Verif.Model.CFG
import Verif.Spec.CFG
/-
Execution paths through a control flow graph, seen as changes of the number of values on the stack. Independent of the
analysis of the library.
-/
namespace Verif.Spec

/-- Where execution is: before the element `pos` of a block (`none`: it has stopped), with `depth` values on the stack. -/
structure Config where
  blk : Nat
  pos : Option Nat
  depth : Int
  deriving DecidableEq

/-- Execution of an instruction, with its effect `e`: `-e.1` values are popped, then `e.2` are pushed.
`eff ins taken` is the effect of an instruction when its jump is taken or not. -/
inductive Exec (P : Platform) (eff : Instr → Bool → Py (Int × Int)) (c : CFG) : Config → Int × Int → Config → Prop
  /-- an instruction that does not jump, execution going on after it -/
  | go {b i d ins e} : (c.heap b).elems[i]? = some (.instr ins) → isFinal ins.name = false → eff ins false = .ok e →
      Exec P eff c ⟨b, some i, d⟩ e ⟨b, some (i + 1), d + e.1 + e.2⟩
  /-- a jump that is taken -/
  | jump {b i d ins e t} : (c.heap b).elems[i]? = some (.instr ins) → P.hasJump ins.opcode = true → ins.arg = .block t →
      eff ins true = .ok e → Exec P eff c ⟨b, some i, d⟩ e ⟨t, some 0, d + e.1 + e.2⟩
  /-- an instruction that ends the execution (return, raise) -/
  | stop {b i d ins e} : (c.heap b).elems[i]? = some (.instr ins) → isFinal ins.name = true →
      (P.hasJump ins.opcode && isUncondJump ins.name) = false → eff ins false = .ok e →
      Exec P eff c ⟨b, some i, d⟩ e ⟨b, none, d + e.1 + e.2⟩

/-- Going on without executing an instruction. -/
inductive Move (c : CFG) : Config → Config → Prop
  /-- a line marker or a try marker -/
  | skip {b i d x} : (c.heap b).elems[i]? = some x → x.isInstr = false → Move c ⟨b, some i, d⟩ ⟨b, some (i + 1), d⟩
  /-- the end of a block -/
  | next {b d n} : (c.heap b).next = some n → Move c ⟨b, some (c.heap b).elems.length, d⟩ ⟨n, some 0, d⟩

/-- A step, whatever its effect. -/
def Step (P : Platform) (eff : Instr → Bool → Py (Int × Int)) (c : CFG) (x y : Config) : Prop :=
  (∃ e, Exec P eff c x e y) ∨ Move c x y

/-- The configurations on the execution paths from the first block, entered with `d0` values on the stack. -/
def OnPath (P : Platform) (eff : Instr → Bool → Py (Int × Int)) (c : CFG) (d0 : Int) (x : Config) : Prop :=
  ∃ b, c.blocks.head? = some b ∧ Star (Step P eff c) ⟨b, some 0, d0⟩ x

/-- Some instruction on some path pops more values than there are on the stack. -/
def Underflows (P : Platform) (eff : Instr → Bool → Py (Int × Int)) (c : CFG) (d0 : Int) : Prop :=
  ∃ x e y, OnPath P eff c d0 x ∧ Exec P eff c x e y ∧ x.depth + e.1 < 0

/-- The graph has no exception handler. -/
def NoTry (c : CFG) : Prop := ∀ b t, BElem.tryBegin t ∉ (c.heap b).elems

/-! ### With exception handlers -/

/-- A configuration, and the try region it is in. -/
structure TConfig where
  at_ : Config
  region : Option TryB

/-- The region after passing an element that is not an instruction. -/
def regionAfter (r : Option TryB) : BElem → Option TryB
  | .tryBegin t => some t
  | .tryEnd id => if r.any (fun t => t.id = id) then none else r
  | _ => r

/-- The region after a jump is taken: it is left when the jump is unconditional and is the last instruction of the
region, the TryEnd being right after it (or after line markers). -/
def regionJump (r : Option TryB) (ins : Instr) : List BElem → Option TryB
  | .tryEnd id :: _ => if isFinal ins.name && r.any (fun t => t.id = id) then none else r
  | .setLineno _ :: l => regionJump r ins l
  | _ => r

/-- A step of an execution in which any instruction of a try region may raise. The handler starts with the number of
values recorded in the TryBegin, the exception, and the position of the instruction when `push_lasti` is set. -/
inductive TStep (P : Platform) (eff : Instr → Bool → Py (Int × Int)) (c : CFG) : TConfig → TConfig → Prop
  /-- an instruction without its jump -/
  | go {b i d r ins e} : (c.heap b).elems[i]? = some (.instr ins) → isFinal ins.name = false → eff ins false = .ok e →
      TStep P eff c ⟨⟨b, some i, d⟩, r⟩ ⟨⟨b, some (i + 1), d + e.1 + e.2⟩, r⟩
  | jump {b i d r ins e t} : (c.heap b).elems[i]? = some (.instr ins) → P.hasJump ins.opcode = true → ins.arg = .block t →
      eff ins true = .ok e →
      TStep P eff c ⟨⟨b, some i, d⟩, r⟩ ⟨⟨t, some 0, d + e.1 + e.2⟩, regionJump r ins ((c.heap b).elems.drop (i + 1))⟩
  | stop {b i d r ins e} : (c.heap b).elems[i]? = some (.instr ins) → isFinal ins.name = true →
      (P.hasJump ins.opcode && isUncondJump ins.name) = false → eff ins false = .ok e →
      TStep P eff c ⟨⟨b, some i, d⟩, r⟩ ⟨⟨b, none, d + e.1 + e.2⟩, none⟩
  | skip {b i d r x} : (c.heap b).elems[i]? = some x → x.isInstr = false →
      TStep P eff c ⟨⟨b, some i, d⟩, r⟩ ⟨⟨b, some (i + 1), d⟩, regionAfter r x⟩
  | next {b i d r n} : i = (c.heap b).elems.length → (c.heap b).next = some n →
      TStep P eff c ⟨⟨b, some i, d⟩, r⟩ ⟨⟨n, some 0, d⟩, r⟩
  | raise {b i d ins t k} : (c.heap b).elems[i]? = some (.instr ins) → t.depth = some k →
      TStep P eff c ⟨⟨b, some i, d⟩, some t⟩ ⟨⟨t.target, some 0, (k : Int) + 1 + (if t.lasti then 1 else 0)⟩, none⟩

/-- The configurations on the execution paths, exceptions included. -/
def TOnPath (P : Platform) (eff : Instr → Bool → Py (Int × Int)) (c : CFG) (d0 : Int) (x : TConfig) : Prop :=
  ∃ b, c.blocks.head? = some b ∧ Star (TStep P eff c) ⟨⟨b, some 0, d0⟩, none⟩ x

end Verif.Spec
