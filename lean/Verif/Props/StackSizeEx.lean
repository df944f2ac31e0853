import Verif.Props.StackSize
import Verif.Proofs.PathCheck
import Verif.Props.ConvertEx
/-
Concrete graphs for C29-C33: the hypotheses of the theorems are met, and the statements that are false in general.
-/
namespace Verif
open Spec

abbrev eff311 : Instr → Bool → Py (Int × Int) := effOf Py311.platform true
abbrev eff310 : Instr → Bool → Py (Int × Int) := effOf Py310.platform true

def i311 (n : String) (a : Arg := .unset) : BElem := ins Py311.platform n a
def i310 (n : String) (a : Arg := .unset) : BElem := ins Py310.platform n a

/-- The elements are what the constructor of `Instr` gives. -/
def madeCFG (P : Platform) (c : CFG) : Bool := c.blocks.all (fun b => made P (c.heap b).elems)

/-- `for x in it: f(x)`-like graph with a loop, a conditional and a merge. -/
def loop311Blocks : List Blk := [
  ⟨[i311 "RESUME" (.int 0), i311 "LOAD_FAST" (.str "it"), i311 "GET_ITER"], some 1⟩,
  ⟨[i311 "FOR_ITER" (.block 4)], some 2⟩,
  ⟨[i311 "STORE_FAST" (.str "x"), i311 "LOAD_FAST" (.str "x"), i311 "POP_JUMP_BACKWARD_IF_TRUE" (.block 1)], some 3⟩,
  ⟨[i311 "LOAD_CONST" (.int 1), i311 "LOAD_CONST" (.int 2), i311 "BINARY_OP" (.int 0), i311 "POP_TOP",
    i311 "JUMP_BACKWARD" (.block 1)], none⟩,
  ⟨[i311 "LOAD_CONST" (.other 0), i311 "RETURN_VALUE"], none⟩]

def loop311 : CFG := mkCFG loop311Blocks

/-- All the configurations on the paths of `loop311`. -/
def loop311Path : List Config := ([(0, some 0, 0), (0, some 1, 0), (0, some 2, 1), (0, some 3, 1), (1, some 0, 1),
  (1, some 1, 2), (4, some 0, 0), (2, some 0, 2), (4, some 1, 1), (2, some 1, 1), (4, none, 0), (2, some 2, 2),
  (2, some 3, 1), (3, some 0, 1), (3, some 1, 2), (3, some 2, 3), (3, some 3, 2), (3, some 4, 1)] :
  List (Nat × Option Nat × Int)).map (fun x => ⟨x.1, x.2.1, x.2.2⟩)

theorem mkCFG_noTry (bs : List Blk) (h : bs.all (fun b => b.elems.all (fun | .tryBegin _ => false | _ => true)) = true) :
    NoTry (mkCFG bs) := by
  intro b t ht
  unfold mkCFG at ht
  simp only at ht
  cases hb : bs[b]? with
  | none => rw [hb] at ht; simp at ht
  | some k =>
    rw [hb] at ht
    have := List.all_eq_true.1 (List.all_eq_true.1 h k (List.mem_of_getElem? hb)) _ ht
    cases this

theorem mkCFG_nextNe (bs : List Blk)
    (h : bs.all (fun b => match b.next with | none => true | some k => !((bs[k]?.getD ⟨[], none⟩).elems.isEmpty)) = true) :
    ∀ b k, ((mkCFG bs).heap b).next = some k → ((mkCFG bs).heap k).elems ≠ [] := by
  intro b k hk
  unfold mkCFG at hk ⊢
  simp only at hk ⊢
  cases hb : bs[b]? with
  | none => rw [hb] at hk; simp at hk
  | some e =>
    rw [hb] at hk
    simp only [Option.getD_some] at hk
    have := List.all_eq_true.1 h e (List.mem_of_getElem? hb)
    rw [hk] at this
    intro h0
    simp [h0] at this

/-- Non-vacuity of C29-C32 on 3.11: the hypotheses hold for the loop, and the size is 3. -/
example : made Py311.platform (allCode loop311) = true ∧
    (∃ c', loop311.computeStacksize Py311.platform eff311 = .ok (3, c')) ∧
    (∀ x, OnPath Py311.platform eff311 loop311 0 x → x.depth ≤ 3) ∧
    (∃ x, OnPath Py311.platform eff311 loop311 0 x ∧ x.depth = 3) ∧
    ¬ Underflows Py311.platform eff311 loop311 0 := by
  have hno : NoTry loop311 := mkCFG_noTry _ (by decide +kernel)
  have hne := mkCFG_nextNe loop311Blocks (by decide +kernel)
  have hchk : pathCheck Py311.platform eff311 loop311 0 loop311Path = true := by decide +kernel
  have hre : ∀ i j, eff311 i j ≠ .error .runtimeError := fun i j => effOf_ne _ _ _ (.inl rfl) i j
  have hres : ∃ c', loop311.computeStacksize Py311.platform eff311 = .ok (3, c') := by
    cases h : loop311.computeStacksize Py311.platform eff311 with
    | error e =>
      have : (loop311.computeStacksize Py311.platform eff311).toOption.map Prod.fst = some 3 := by decide +kernel
      rw [h] at this; cases this
    | ok p =>
      have : (loop311.computeStacksize Py311.platform eff311).toOption.map Prod.fst = some 3 := by decide +kernel
      rw [h] at this
      obtain ⟨n, c'⟩ := p
      simp [Except.toOption] at this
      subst this
      exact ⟨c', rfl⟩
  obtain ⟨c', hres⟩ := hres
  refine ⟨by decide +kernel, ⟨c', hres⟩, ?_, ?_, ?_⟩
  · exact C29_no_generator_partial _ _ hre _ _ _ _ hno rfl (fun b k h => .inl (hne b k h))
      ⟨3, bounded_of_check hchk (by decide +kernel)⟩ hres
  · exact C30_attained _ _ hre _ _ _ _ hno hres (by decide)
  · exact C31_consistent_partial _ _ hre _ _ _ _ hno (fun b k h => .inl (hne b k h)) (consistent_of_check hchk (by decide +kernel)) hres

/-! ### False statements -/

/-- C29 is false as stated: a block that falls through into an empty block. The computed size is 1, the bounded paths
go up to 2. -/
def emptyNext : CFG := mkCFG [⟨[i311 "LOAD_CONST" (.int 1)], some 1⟩, ⟨[], some 2⟩,
  ⟨[i311 "LOAD_CONST" (.int 2), i311 "RETURN_VALUE"], none⟩]

theorem C29_statement_false :
    made Py311.platform (allCode emptyNext) = true ∧ NoTry emptyNext ∧
    (emptyNext.computeStacksize Py311.platform eff311).toOption.map Prod.fst = some 1 ∧
    (∀ x, OnPath Py311.platform eff311 emptyNext 0 x → x.depth ≤ 2) ∧
    (∃ x, OnPath Py311.platform eff311 emptyNext 0 x ∧ x.depth = 2) := by
  refine ⟨by decide +kernel, mkCFG_noTry _ (by decide +kernel), by decide +kernel, ?_, ?_⟩
  · exact bounded_of_check (L := ([(0, some 0, 0), (0, some 1, 1), (1, some 0, 1), (2, some 0, 1), (2, some 1, 2),
      (2, none, 1)] : List (Nat × Option Nat × Int)).map (fun x => ⟨x.1, x.2.1, x.2.2⟩)) (by decide +kernel) (by decide +kernel)
  · exact ⟨⟨2, some 1, 2⟩, onPath_of_chain 0 rfl [⟨0, some 1, 1⟩, ⟨1, some 0, 1⟩, ⟨2, some 0, 1⟩, ⟨2, some 1, 2⟩] (by decide +kernel) rfl, rfl⟩

/-- The initial value of a generator before 3.13 is not counted: the size of an empty generator is 0. -/
theorem C29_generator_false :
    let c : CFG := { mkCFG [⟨[i311 "NOP"], none⟩] with attrs := { Attrs.default with flags := GENERATOR } }
    (c.computeStacksize Py311.platform eff311).toOption.map Prod.fst = some 1 ∧
    (({ c with heap := fun _ => ⟨[], none⟩ } : CFG).computeStacksize Py311.platform eff311).toOption.map Prod.fst = some 0 ∧
    initialSize Py311.platform c.attrs.flags = 1 := by
  exact ⟨by decide +kernel, by decide +kernel, by decide +kernel⟩

/-- C31 is false as stated: a loop that pops one value at each turn. The computation succeeds, the third turn
underflows. -/
def shrink : CFG := mkCFG [⟨[i311 "LOAD_CONST" (.int 1), i311 "LOAD_CONST" (.int 2)], some 1⟩,
  ⟨[i311 "POP_TOP", i311 "JUMP_BACKWARD" (.block 1)], none⟩]

theorem C31_statement_false :
    made Py311.platform (allCode shrink) = true ∧ NoTry shrink ∧
    (shrink.computeStacksize Py311.platform eff311).toOption.map Prod.fst = some 2 ∧
    Underflows Py311.platform eff311 shrink 0 := by
  refine ⟨by decide +kernel, mkCFG_noTry _ (by decide +kernel), by decide +kernel, ?_⟩
  have h : OnPath Py311.platform eff311 shrink 0 ⟨1, some 0, 0⟩ := onPath_of_chain 0 rfl [⟨0, some 1, 1⟩, ⟨0, some 2, 2⟩, ⟨1, some 0, 2⟩, ⟨1, some 1, 1⟩, ⟨1, some 0, 1⟩, ⟨1, some 1, 0⟩, ⟨1, some 0, 0⟩] (by decide +kernel) rfl
  refine ⟨⟨1, some 0, 0⟩, (-1, 0), _, h, .go (ins := ⟨"POP_TOP", 1, .unset, none⟩) ?_ (by decide +kernel) (by decide +kernel), by decide⟩
  decide +kernel

/-- Before 3.11, without any loop: a block analysed with two values is not analysed again with one. -/
def smaller310 : CFG := mkCFG [
  ⟨[i310 "LOAD_CONST" (.int 1), i310 "LOAD_CONST" (.int 2), i310 "LOAD_CONST" (.int 3), i310 "POP_JUMP_IF_TRUE" (.block 2)], some 1⟩,
  ⟨[i310 "POP_TOP"], some 2⟩, ⟨[i310 "POP_TOP", i310 "POP_TOP", i310 "LOAD_CONST" (.int 1), i310 "RETURN_VALUE"], none⟩]

theorem C31_statement_false_310 :
    made Py310.platform (allCode smaller310) = true ∧ NoTry smaller310 ∧
    (smaller310.computeStacksize Py310.platform eff310).toOption.map Prod.fst = some 3 ∧
    Underflows Py310.platform eff310 smaller310 0 := by
  refine ⟨by decide +kernel, mkCFG_noTry _ (by decide +kernel), by decide +kernel, ?_⟩
  have h : OnPath Py310.platform eff310 smaller310 0 ⟨2, some 1, 0⟩ := onPath_of_chain 0 rfl [⟨0, some 1, 1⟩, ⟨0, some 2, 2⟩, ⟨0, some 3, 3⟩, ⟨0, some 4, 2⟩, ⟨1, some 0, 2⟩, ⟨1, some 1, 1⟩, ⟨2, some 0, 1⟩, ⟨2, some 1, 0⟩] (by decide +kernel) rfl
  refine ⟨⟨2, some 1, 0⟩, (-1, 0), _, h, .go (ins := ⟨"POP_TOP", 1, .unset, none⟩) ?_ (by decide +kernel) (by decide +kernel), by decide⟩
  decide +kernel

/-- An underflow the tables of effects hide: LOAD_METHOD takes a value, but its pre-effect is taken to be nothing. The
computation succeeds on an empty stack. -/
theorem C31_hidden_underflow :
    let c := mkCFG [⟨[i311 "LOAD_METHOD" (.str "m"), i311 "RETURN_VALUE"], none⟩]
    made Py311.platform (allCode c) = true ∧
    (c.computeStacksize Py311.platform eff311).toOption.map Prod.fst = some 1 := by
  exact ⟨by decide +kernel, by decide +kernel⟩

/-- Non-vacuity of `C31_raises`. -/
example : Underflows Py311.platform eff311 (mkCFG [⟨[i311 "LOAD_CONST" (.int 1)], some 1⟩, ⟨[i311 "POP_TOP", i311 "POP_TOP"], none⟩]) 0 :=
  C31_raises _ _ (fun i j => effOf_ne _ _ _ (.inl rfl) i j) _ true (mkCFG_noTry _ (by decide +kernel)) (by
    cases h : CFG.computeStacksize Py311.platform eff311 (mkCFG [⟨[i311 "LOAD_CONST" (.int 1)], some 1⟩, ⟨[i311 "POP_TOP", i311 "POP_TOP"], none⟩]) with
    | error e =>
      have : (match CFG.computeStacksize Py311.platform eff311 (mkCFG [⟨[i311 "LOAD_CONST" (.int 1)], some 1⟩, ⟨[i311 "POP_TOP", i311 "POP_TOP"], none⟩]) with
        | .error .runtimeError => true | _ => false) = true := by decide +kernel
      rw [h] at this
      cases e <;> first | rfl | cases this
    | ok p =>
      have : (match CFG.computeStacksize Py311.platform eff311 (mkCFG [⟨[i311 "LOAD_CONST" (.int 1)], some 1⟩, ⟨[i311 "POP_TOP", i311 "POP_TOP"], none⟩]) with
        | .error .runtimeError => true | _ => false) = true := by decide +kernel
      rw [h] at this
      cases this)

/-- C29 is false with handlers: two regions share a handler, the second also pushes the position of the instruction.
The handler is only analysed for the first. The computed size is 2, an exception in the second region leads to 3. -/
def twoTries : CFG := mkCFG [
  ⟨[.tryBegin ⟨0, 1, false, none⟩, i311 "NOP", .tryEnd 0, .tryBegin ⟨1, 1, true, none⟩, i311 "NOP", .tryEnd 1,
    i311 "LOAD_CONST" (.int 1), i311 "RETURN_VALUE"], none⟩,
  ⟨[i311 "LOAD_CONST" (.int 1), i311 "RETURN_VALUE"], none⟩]

theorem C29_handlers_false :
    ∃ c', twoTries.computeStacksize Py311.platform eff311 = .ok (2, c') ∧
      ∃ x, TOnPath Py311.platform eff311 c' 0 x ∧ x.at_.depth = 3 := by
  have h : ∃ c', twoTries.computeStacksize Py311.platform eff311 = .ok (2, c') ∧
      (c'.heap 0).elems = [.tryBegin ⟨0, 1, false, some 0⟩, i311 "NOP", .tryEnd 0, .tryBegin ⟨1, 1, true, some 0⟩, i311 "NOP",
        .tryEnd 1, i311 "LOAD_CONST" (.int 1), i311 "RETURN_VALUE"] ∧
      (c'.heap 1).elems = [i311 "LOAD_CONST" (.int 1), i311 "RETURN_VALUE"] ∧ c'.blocks = [0, 1] := by
    cases h : twoTries.computeStacksize Py311.platform eff311 with
    | error e =>
      have : (twoTries.computeStacksize Py311.platform eff311).toBool = true := by decide +kernel
      rw [h] at this; cases this
    | ok p =>
      have : (match twoTries.computeStacksize Py311.platform eff311 with
        | .ok (n, c') => decide (n = 2) && (decide ((c'.heap 0).elems = [.tryBegin ⟨0, 1, false, some 0⟩, i311 "NOP", .tryEnd 0, .tryBegin ⟨1, 1, true, some 0⟩, i311 "NOP",
          .tryEnd 1, i311 "LOAD_CONST" (.int 1), i311 "RETURN_VALUE"]) && (decide ((c'.heap 1).elems = [i311 "LOAD_CONST" (.int 1), i311 "RETURN_VALUE"]) && decide (c'.blocks = [0, 1])))
        | .error _ => false) = true := by decide +kernel
      rw [h] at this
      obtain ⟨n, c'⟩ := p
      simp only [Bool.and_eq_true, decide_eq_true_eq] at this
      obtain ⟨h1, h2, h3, h4⟩ := this
      subst h1
      exact ⟨c', rfl, h2, h3, h4⟩
  obtain ⟨c', hc, h0, h1, hb⟩ := h
  refine ⟨c', hc, ⟨⟨1, some 1, 3⟩, none⟩, ⟨0, by rw [hb]; rfl, ?_⟩, rfl⟩
  have s0 : Star (TStep Py311.platform eff311 c') ⟨⟨0, some 0, 0⟩, none⟩ ⟨⟨0, some 1, 0⟩, some ⟨0, 1, false, some 0⟩⟩ :=
    .tail (.refl _) (.skip (x := .tryBegin ⟨0, 1, false, some 0⟩) (by rw [h0]; rfl) rfl)
  have s1 := s0.tail (.go (ins := ⟨"NOP", 9, .unset, none⟩) (e := (0, 0)) (by rw [h0]; decide +kernel) (by decide +kernel) (by decide +kernel))
  have s2 := s1.tail (.skip (x := .tryEnd 0) (by rw [h0]; rfl) rfl)
  have s3 := s2.tail (.skip (x := .tryBegin ⟨1, 1, true, some 0⟩) (by rw [h0]; rfl) rfl)
  have s4 := s3.tail (.raise (ins := ⟨"NOP", 9, .unset, none⟩) (k := 0) (by rw [h0]; decide +kernel) rfl)
  exact s4.tail (.go (ins := ⟨"LOAD_CONST", 100, .int 1, none⟩) (e := (1, 0)) (by rw [h1]; decide +kernel) (by decide +kernel) (by decide +kernel))

/-- C33 is false as stated: one branch of the region pops a value of before the region and pushes one back; the block
where the branches merge is analysed only once, for the other branch. The recorded depth is 2, the stack has 1 value
after POP_TOP. -/
def dip : CFG := mkCFG [
  ⟨[i311 "LOAD_CONST" (.int 1), i311 "LOAD_CONST" (.int 1), .tryBegin ⟨0, 3, false, none⟩, i311 "LOAD_CONST" (.int 1),
    i311 "POP_JUMP_FORWARD_IF_TRUE" (.block 2)], some 1⟩,
  ⟨[i311 "POP_TOP", i311 "LOAD_CONST" (.int 1)], some 2⟩,
  ⟨[i311 "NOP", .tryEnd 0, i311 "RETURN_VALUE"], none⟩,
  ⟨[i311 "RETURN_VALUE"], none⟩]

theorem C33_statement_false :
    ∃ n c', dip.computeStacksize Py311.platform eff311 = .ok (n, c') ∧
      ∃ x t k, TOnPath Py311.platform eff311 c' 0 x ∧ x.region = some t ∧ t.depth = some k ∧ x.at_.depth < k := by
  have h : ∃ n c', dip.computeStacksize Py311.platform eff311 = .ok (n, c') ∧
      (c'.heap 0).elems = [i311 "LOAD_CONST" (.int 1), i311 "LOAD_CONST" (.int 1), .tryBegin ⟨0, 3, false, some 2⟩, i311 "LOAD_CONST" (.int 1),
    i311 "POP_JUMP_FORWARD_IF_TRUE" (.block 2)] ∧ (c'.heap 0).next = some 1 ∧
      (c'.heap 1).elems = [i311 "POP_TOP", i311 "LOAD_CONST" (.int 1)] ∧ c'.blocks = [0, 1, 2, 3] := by
    have : (match dip.computeStacksize Py311.platform eff311 with
        | .ok (_, c') => (decide ((c'.heap 0).elems = [i311 "LOAD_CONST" (.int 1), i311 "LOAD_CONST" (.int 1), .tryBegin ⟨0, 3, false, some 2⟩, i311 "LOAD_CONST" (.int 1),
    i311 "POP_JUMP_FORWARD_IF_TRUE" (.block 2)]) && (decide ((c'.heap 0).next = some 1) && (decide ((c'.heap 1).elems = [i311 "POP_TOP", i311 "LOAD_CONST" (.int 1)]) && decide (c'.blocks = [0, 1, 2, 3]))))
        | .error _ => false) = true := by decide +kernel
    cases h : dip.computeStacksize Py311.platform eff311 with
    | error e => rw [h] at this; cases this
    | ok p =>
      rw [h] at this
      obtain ⟨n, c'⟩ := p
      simp only [Bool.and_eq_true, decide_eq_true_eq] at this
      obtain ⟨h1, h2, h3, h4⟩ := this
      exact ⟨n, c', rfl, h1, h2, h3, h4⟩
  obtain ⟨n, c', hc, h0, h0n, h1, hb⟩ := h
  refine ⟨n, c', hc, ⟨⟨1, some 1, 1⟩, some ⟨0, 3, false, some 2⟩⟩, _, 2, ⟨0, by rw [hb]; rfl, ?_⟩, rfl, rfl, by decide⟩
  have hl : (c'.heap 0).elems.length = 5 := by rw [h0]; rfl
  have g0 : (c'.heap 0).elems[0]? = some (.instr ⟨"LOAD_CONST", 100, .int 1, none⟩) := by rw [h0]; decide +kernel
  have g1 : (c'.heap 0).elems[1]? = some (.instr ⟨"LOAD_CONST", 100, .int 1, none⟩) := by rw [h0]; decide +kernel
  have g2 : (c'.heap 0).elems[2]? = some (.tryBegin ⟨0, 3, false, some 2⟩) := by rw [h0]; rfl
  have g3 : (c'.heap 0).elems[3]? = some (.instr ⟨"LOAD_CONST", 100, .int 1, none⟩) := by rw [h0]; decide +kernel
  have g4 : (c'.heap 0).elems[4]? = some (.instr ⟨"POP_JUMP_FORWARD_IF_TRUE", 115, .block 2, none⟩) := by rw [h0]; decide +kernel
  have g5 : (c'.heap 1).elems[0]? = some (.instr ⟨"POP_TOP", 1, .unset, none⟩) := by rw [h1]; decide +kernel
  have e0 : eff311 ⟨"LOAD_CONST", 100, .int 1, none⟩ false = .ok (1, 0) := by decide +kernel
  have e1 : eff311 ⟨"POP_JUMP_FORWARD_IF_TRUE", 115, .block 2, none⟩ false = .ok (-1, 0) := by decide +kernel
  have e2 : eff311 ⟨"POP_TOP", 1, .unset, none⟩ false = .ok (-1, 0) := by decide +kernel
  have f0 : isFinal "LOAD_CONST" = false := by decide +kernel
  have f1 : isFinal "POP_JUMP_FORWARD_IF_TRUE" = false := by decide +kernel
  have f2 : isFinal "POP_TOP" = false := by decide +kernel
  have t0 : TStep Py311.platform eff311 c' ⟨⟨0, some 0, 0⟩, none⟩ ⟨⟨0, some 1, 1⟩, none⟩ := .go g0 f0 e0
  have t1 : TStep Py311.platform eff311 c' ⟨⟨0, some 1, 1⟩, none⟩ ⟨⟨0, some 2, 2⟩, none⟩ := .go g1 f0 e0
  have t2 : TStep Py311.platform eff311 c' ⟨⟨0, some 2, 2⟩, none⟩ ⟨⟨0, some 3, 2⟩, some ⟨0, 3, false, some 2⟩⟩ := .skip g2 rfl
  have t3 : TStep Py311.platform eff311 c' ⟨⟨0, some 3, 2⟩, some ⟨0, 3, false, some 2⟩⟩ ⟨⟨0, some 4, 3⟩, some ⟨0, 3, false, some 2⟩⟩ := .go g3 f0 e0
  have t4 : TStep Py311.platform eff311 c' ⟨⟨0, some 4, 3⟩, some ⟨0, 3, false, some 2⟩⟩ ⟨⟨0, some 5, 2⟩, some ⟨0, 3, false, some 2⟩⟩ := .go g4 f1 e1
  have t5 : TStep Py311.platform eff311 c' ⟨⟨0, some 5, 2⟩, some ⟨0, 3, false, some 2⟩⟩ ⟨⟨1, some 0, 2⟩, some ⟨0, 3, false, some 2⟩⟩ := .next hl.symm h0n
  have t6 : TStep Py311.platform eff311 c' ⟨⟨1, some 0, 2⟩, some ⟨0, 3, false, some 2⟩⟩ ⟨⟨1, some 1, 1⟩, some ⟨0, 3, false, some 2⟩⟩ := .go g5 f2 e2
  exact ((((((Star.refl _).tail t0).tail t1).tail t2).tail t3).tail t4).tail t5 |>.tail t6

/-- C33 is also false when the end of the region is only in code the analysis does not reach (the body is an infinite
loop): the recorded depth is 32768. -/
theorem C33_unreached_end_false :
    let c := mkCFG [⟨[.tryBegin ⟨0, 2, false, none⟩, i311 "NOP"], some 1⟩, ⟨[i311 "NOP", i311 "JUMP_BACKWARD" (.block 1)], none⟩,
      ⟨[.tryEnd 0, i311 "NOP"], none⟩]
    (c.computeStacksize Py311.platform eff311).toOption.map (fun p => (p.2.heap 0).elems.head?) =
      some (some (.tryBegin ⟨0, 2, false, some 32768⟩)) := by
  decide +kernel

end Verif
