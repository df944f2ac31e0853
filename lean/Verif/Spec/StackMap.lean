import Verif.Spec.StackPaths
/-
Execution with exceptions, the handler of an instruction being the one the code would be given: the try region open at the
instruction when the blocks are read one after the other. And graphs with a stack map: every block is always entered
with the same number of values on the stack, as in code produced by a compiler.
-/
namespace Verif.Spec

/-- The try region open after some elements. A TryEnd closes its own region only. -/
def openAfter (q : Option TryB) : List BElem → Option TryB
  | [] => q
  | .tryBegin t :: l => openAfter (some t) l
  | .tryEnd id :: l => openAfter (if q.any (fun t => t.id = id) then none else q) l
  | _ :: l => openAfter q l

/-- The try region open at the start of a block of the graph, the blocks being read in order. -/
def openAtBlock (c : CFG) (b : Nat) : Option TryB :=
  openAfter none ((c.blocks.takeWhile (fun k => k ≠ b)).flatMap (fun k => (c.heap k).elems))

/-- The try region open at the element `i` of a block. -/
def openAt (c : CFG) (b i : Nat) : Option TryB := openAfter (openAtBlock c b) ((c.heap b).elems.take i)

/-- A step of an execution in which any instruction of a try region may raise: the handler is then started with the number
of values recorded in the TryBegin, the position of the instruction when `push_lasti` is set, and the exception. -/
inductive GStep (P : Platform) (eff : Instr → Bool → Py (Int × Int)) (c : CFG) : Config → Config → Prop
  | plain {x y} : Step P eff c x y → GStep P eff c x y
  | raise {b i d ins t k} : (c.heap b).elems[i]? = some (.instr ins) → openAt c b i = some t → t.depth = some k →
      GStep P eff c ⟨b, some i, d⟩ ⟨t.target, some 0, (k : Int) + 1 + (if t.lasti then 1 else 0)⟩

/-- The configurations on the execution paths, exceptions included. -/
def GOnPath (P : Platform) (eff : Instr → Bool → Py (Int × Int)) (c : CFG) (d0 : Int) (x : Config) : Prop :=
  ∃ b, c.blocks.head? = some b ∧ Star (GStep P eff c) ⟨b, some 0, d0⟩ x

/-! ### Stack maps -/

/-- In a try region or not; in one, whether the depth at which its handler is started has been met since its beginning. -/
abbrev InTry := Option (TryB × Bool)

/-- A description of the stack of a graph. -/
structure StackMap where
  /-- number of values and region at the start of a block (`none`: nothing is said of the block) -/
  entry : Nat → Option (Int × InTry)
  /-- for the first block of a handler: the number of values left on the stack when the handler is started -/
  base : Nat → Int
  /-- blocks entered from several regions, that start by closing them -/
  joins : Nat → Bool
  /-- blocks that every path to a block goes through first, as the header of a loop for the blocks of the loop -/
  before : Nat → List Nat

/-- Reaching a depth. -/
def StackMap.touch (M : StackMap) (d : Int) (r : InTry) : InTry :=
  r.map fun p => (p.1, p.2 || decide (d = M.base p.1.target))

/-- Passing the end of a region. -/
def closeTry (r : InTry) (id : Nat) : InTry := if r.any (fun p => p.1.id = id) then none else r

/-- Passing the ends of regions a block starts with. -/
def closeLead (r : InTry) : List BElem → InTry
  | .tryEnd id :: l => closeLead (closeTry r id) l
  | .setLineno _ :: l => closeLead r l
  | _ => r

/-- The next end of a region. -/
def nextEnd : List BElem → Option Nat
  | [] => none
  | .tryEnd id :: _ => some id
  | _ :: l => nextEnd l

/-- The depth is at least the one with which the handler is started. -/
def StackMap.Low (M : StackMap) (d : Int) (r : InTry) : Prop := ∀ p, r = some p → M.base p.1.target ≤ d

/-- The instruction ends the execution of the block, and the end of a region follows it: it is the current one. -/
def OwnEnd (i : Instr) (l : List BElem) (r : InTry) : Prop :=
  isFinal i.name = true → ∀ id, nextEnd l = some id → ∃ p, r = some p ∧ p.1.id = id

/-- The handler of the region, if the region may end in block `b`. -/
def StackMap.EndIn (M : StackMap) (b : Nat) (r : InTry) : Prop :=
  ∀ p, r = some p → ∀ k ∈ M.before p.1.target, k = b ∨ k ∈ M.before b

/-- Block `n` may be entered from block `b` with `d` values on the stack, in region `r`: it is always entered with that
number of values, and in that region, unless it starts by closing the region, or it comes before `b` on all paths. -/
def StackMap.Enters (M : StackMap) (c : CFG) (b : Nat) (d : Int) (r : InTry) (n : Nat) : Prop :=
  (∀ k ∈ M.before n, k = b ∨ k ∈ M.before b) ∧
  ∃ r', M.entry n = some (d, r') ∧
    (r' = r ∨ (n = b ∨ n ∈ M.before b) ∨ (M.joins n = true ∧ closeLead r (c.heap n).elems = none ∧ M.EndIn n r))

/-- The handler of a region is described: it starts with the values below, the exception and the position if pushed. -/
def StackMap.Handler (M : StackMap) (t : TryB) : Prop :=
  M.entry t.target = some (M.base t.target + 1 + (if t.lasti then 1 else 0), none)

/-- The map describes the elements of block `b` from some point on, with `d` values on the stack, in region `r`, `q` being
the region open at that point of the code: for an instruction they are the same. -/
def StackMap.Describes (M : StackMap) (P : Platform) (eff : Instr → Bool → Py (Int × Int)) (c : CFG) (b : Nat) :
    List BElem → Int → InTry → Option TryB → Prop
  | [], d, r, _ => ∀ n, (c.heap b).next = some n → (c.heap n).elems ≠ [] ∧ M.Enters c b d r n
  | .instr i :: l, d, r, q =>
    r.map Prod.fst = q ∧ OwnEnd i l r ∧
    (isFinal i.name = true → (nextEnd l).isSome → M.EndIn b r) ∧
    (P.hasJump i.opcode = true → ∀ t e, i.arg = .block t → eff i true = .ok e →
      let d' := d + e.1 + e.2
      let r' := if isFinal i.name && (nextEnd l).isSome then none else M.touch d' r
      M.Low d' r' ∧ M.Enters c b d' r' t) ∧
    ((P.hasJump i.opcode && isUncondJump i.name) = false → ∀ e, eff i false = .ok e →
      let d' := d + e.1 + e.2
      (isFinal i.name = true → (nextEnd l).isSome → M.Low d' r) ∧
      (isFinal i.name = false → M.Low d' r ∧ M.Describes P eff c b l d' (M.touch d' r) q))
  | .tryBegin t :: l, d, _, _ =>
    M.Handler t ∧ M.base t.target ≤ d ∧ M.Describes P eff c b l d (some (t, decide (d = M.base t.target))) (some t)
  | .tryEnd id :: l, d, r, q =>
    (∀ p, r = some p → p.1.id = id → M.EndIn b r) ∧
    M.Describes P eff c b l d (closeTry r id) (if q.any (fun t => t.id = id) then none else q)
  | .setLineno _ :: l, d, r, q => M.Describes P eff c b l d r q
  | .label _ :: _, _, _, _ => False

/-- The map describes the graph, started with `d0` values on the stack. -/
structure StackMap.Valid (M : StackMap) (P : Platform) (eff : Instr → Bool → Py (Int × Int)) (c : CFG) (d0 : Int) : Prop where
  /-- the first block -/
  first : ∀ b, c.blocks.head? = some b → M.entry b = some (d0, none) ∧ M.before b = []
  /-- every block described -/
  block : ∀ b ∈ c.blocks, ∀ d r, M.entry b = some (d, r) →
    (M.joins b = true → r = none) ∧ M.Low d r ∧ M.Describes P eff c b (c.heap b).elems d r (openAtBlock c b)
  /-- handlers are started with fewer values than the sentinel of the analysis -/
  bound : ∀ n, M.base n < 32768

/-- At this point (block, position, number of values, region) the region of `t` ends, after the depth of its handler has
been met. -/
inductive StackMap.EndsAt (M : StackMap) (P : Platform) (eff : Instr → Bool → Py (Int × Int)) (c : CFG) :
    Nat → Nat → Int → InTry → TryB → Prop
  /-- at the TryEnd -/
  | mark {b i d t} : (c.heap b).elems[i]? = some (.tryEnd t.id) → EndsAt M P eff c b i d (some (t, true)) t
  /-- at an unconditional jump before the TryEnd -/
  | jump {b i d t ins e k} : (c.heap b).elems[i]? = some (.instr ins) → P.hasJump ins.opcode = true →
      isUncondJump ins.name = true → ins.arg = .block k → eff ins true = .ok e →
      nextEnd ((c.heap b).elems.drop (i + 1)) = some t.id → EndsAt M P eff c b i d (some (t, true)) t
  /-- at an instruction that ends the execution before the TryEnd -/
  | stop {b i d r t ins e} : (c.heap b).elems[i]? = some (.instr ins) → isFinal ins.name = true →
      (P.hasJump ins.opcode && isUncondJump ins.name) = false → eff ins false = .ok e →
      M.touch (d + e.1 + e.2) r = some (t, true) → nextEnd ((c.heap b).elems.drop (i + 1)) = some t.id →
      EndsAt M P eff c b i d r t

/-- Points of the graph that can be reached, a handler being entered only where its region ends after its depth has been met:
block, position, number of values, region. -/
inductive StackMap.Reached (M : StackMap) (P : Platform) (eff : Instr → Bool → Py (Int × Int)) (c : CFG) :
    Nat → Nat → Int → InTry → Prop
  | first {b d r} : c.blocks.head? = some b → M.entry b = some (d, r) → Reached M P eff c b 0 d r
  | line {b i d r n} : Reached M P eff c b i d r → (c.heap b).elems[i]? = some (.setLineno n) → Reached M P eff c b (i + 1) d r
  | open_ {b i d r t} : Reached M P eff c b i d r → (c.heap b).elems[i]? = some (.tryBegin t) →
      Reached M P eff c b (i + 1) d (some (t, decide (d = M.base t.target)))
  | close {b i d r id} : Reached M P eff c b i d r → (c.heap b).elems[i]? = some (.tryEnd id) →
      Reached M P eff c b (i + 1) d (closeTry r id)
  | go {b i d r ins e} : Reached M P eff c b i d r → (c.heap b).elems[i]? = some (.instr ins) → isFinal ins.name = false →
      eff ins false = .ok e → Reached M P eff c b (i + 1) (d + e.1 + e.2) (M.touch (d + e.1 + e.2) r)
  | jump {b i d r ins e t d' r'} : Reached M P eff c b i d r → (c.heap b).elems[i]? = some (.instr ins) →
      P.hasJump ins.opcode = true → ins.arg = .block t → eff ins true = .ok e → M.entry t = some (d', r') →
      Reached M P eff c t 0 d' r'
  | next {b i d r n d' r'} : Reached M P eff c b i d r → i = (c.heap b).elems.length → (c.heap b).next = some n →
      M.entry n = some (d', r') → Reached M P eff c n 0 d' r'
  | handler {b i d r t d' r'} : Reached M P eff c b i d r → M.EndsAt P eff c b i d r t →
      M.entry t.target = some (d', r') → Reached M P eff c t.target 0 d' r'

/-- Every handler of an instruction reached is reached: some region it protects ends after the depth has been met. -/
def StackMap.Ends (M : StackMap) (P : Platform) (eff : Instr → Bool → Py (Int × Int)) (c : CFG) : Prop :=
  ∀ b i d t f ins, M.Reached P eff c b i d (some (t, f)) → (c.heap b).elems[i]? = some (.instr ins) →
    ∃ b' i' d' r' t', M.Reached P eff c b' i' d' r' ∧ M.EndsAt P eff c b' i' d' r' t' ∧ t'.target = t.target

/-- No region is dead: some instruction of every region is reached. -/
def StackMap.Live (M : StackMap) (P : Platform) (eff : Instr → Bool → Py (Int × Int)) (c : CFG) : Prop :=
  ∀ t, .tryBegin t ∈ c.blocks.flatMap (fun b => (c.heap b).elems) →
    ∃ b i d f ins, M.Reached P eff c b i d (some (t, f)) ∧ (c.heap b).elems[i]? = some (.instr ins)

/-- A TryBegin occurs once in the graph, or its occurrences are the same. -/
def UniqueTry (c : CFG) : Prop :=
  ∀ b1 ∈ c.blocks, ∀ b2 ∈ c.blocks, ∀ t1 t2, BElem.tryBegin t1 ∈ (c.heap b1).elems → BElem.tryBegin t2 ∈ (c.heap b2).elems →
    t1.id = t2.id → t1 = t2

end Verif.Spec
