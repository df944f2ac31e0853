import Verif.Spec.StackMap
import Verif.Spec.GraphRules
/-
Control flow inside a try region, and the graphs whose stack usage can be asked for.
-/
namespace Verif.Spec

/-- The points (block, position) that can be reached from the TryBegin `t` without leaving its region: by passing an element other
than its TryEnd, by a jump (unless the jump is the last instruction of a region), or by falling into the next block. -/
inductive Inside (P : Platform) (c : CFG) (t : TryB) : Nat → Nat → Prop
  | start {b i} : b ∈ c.blocks → (c.heap b).elems[i]? = some (.tryBegin t) → Inside P c t b (i + 1)
  | mark {b i x} : Inside P c t b i → (c.heap b).elems[i]? = some x → x.isInstr = false → x ≠ .tryEnd t.id → Inside P c t b (i + 1)
  | go {b i ins} : Inside P c t b i → (c.heap b).elems[i]? = some (.instr ins) → isFinal ins.name = false → Inside P c t b (i + 1)
  | jump {b i ins k} : Inside P c t b i → (c.heap b).elems[i]? = some (.instr ins) → P.hasJump ins.opcode = true → ins.arg = .block k →
      (isFinal ins.name = true → nextEnd ((c.heap b).elems.drop (i + 1)) = none) → Inside P c t k 0
  | next {b i n} : Inside P c t b i → i = (c.heap b).elems.length → (c.heap b).next = some n → Inside P c t n 0

/-- Some path goes from inside a region to the beginning of a region, without leaving the first. -/
def NestedFlow (P : Platform) (c : CFG) : Prop :=
  ∃ t b i u, Inside P c t b i ∧ (c.heap b).elems[i]? = some (.tryBegin u)

/-- The graph follows the rules, is closed under fall-through, every TryEnd has its TryBegin, and the stack effects of its
instructions are defined. -/
structure Sizeable (P : Platform) (eff : Instr → Bool → Py (Int × Int)) (c : CFG) : Prop where
  rules : GraphRules P c
  next : ∀ b ∈ c.blocks, ∀ n, (c.heap b).next = some n → n ∈ c.blocks
  ends : ∀ id, BElem.tryEnd id ∈ allCode c → ∃ t, BElem.tryBegin t ∈ allCode c ∧ t.id = id
  fall : ∀ i, BElem.instr i ∈ allCode c → (P.hasJump i.opcode && isUncondJump i.name) = false → ∃ e, eff i false = .ok e
  jump : ∀ i, BElem.instr i ∈ allCode c → P.hasJump i.opcode = true → ∃ e, eff i true = .ok e

/-- No instruction first pops, then pushes a negative number of values. -/
def PushesPos (eff : Instr → Bool → Py (Int × Int)) (c : CFG) : Prop :=
  ∀ i j e, BElem.instr i ∈ allCode c → eff i j = .ok e → 0 ≤ e.2

/-- According to the map, from some point of a block on, with `d` values on the stack and in region `r`: no instruction pops more
values than there are, and no region begins inside another. -/
def StackMap.SafeFrom (M : StackMap) (P : Platform) (eff : Instr → Bool → Py (Int × Int)) : List BElem → Int → InTry → Prop
  | [], _, _ => True
  | .instr i :: l, d, r =>
    (P.hasJump i.opcode = true → ∀ e, eff i true = .ok e → 0 ≤ d + e.1) ∧
    ((P.hasJump i.opcode && isUncondJump i.name) = false → ∀ e, eff i false = .ok e → 0 ≤ d + e.1 ∧
      (isFinal i.name = false → M.SafeFrom P eff l (d + e.1 + e.2) (M.touch (d + e.1 + e.2) r)))
  | .tryBegin t :: l, d, r => r = none ∧ M.SafeFrom P eff l d (some (t, decide (d = M.base t.target)))
  | .tryEnd id :: l, d, r => M.SafeFrom P eff l d (closeTry r id)
  | .setLineno _ :: l, d, r => M.SafeFrom P eff l d r
  | .label _ :: l, d, r => M.SafeFrom P eff l d r

/-- The map shows that nothing underflows and that regions are not nested. -/
structure StackMap.Safe (M : StackMap) (P : Platform) (eff : Instr → Bool → Py (Int × Int)) (c : CFG) : Prop where
  block : ∀ b ∈ c.blocks, ∀ d r, M.entry b = some (d, r) → M.SafeFrom P eff (c.heap b).elems d r
  base : ∀ n, 0 ≤ M.base n

end Verif.Spec
