import Verif.Props.CfgEqual
import Verif.Props.StackMapEx
/-
C53: what equality of graphs does not see, and concrete cases.
-/
namespace Verif
open Spec

/-- two graphs made of these blocks compare equal -/
abbrev eqBlocks (x y : List Blk) : Py Bool := do
  let r ← CFG.eq Py311.platform (fun x => x) eff311 (mkCFG x) (mkCFG y)
  return r.1

/-- two bytecodes with the same instructions: the loop of the first repeats one more instruction than that of the second -/
def eqLoop1 : List BElem := [i311 "NOP", .label 0, i311 "LOAD_CONST" (.int 1), i311 "POP_TOP", i311 "NOP", i311 "JUMP_BACKWARD" (.label 0)]
def eqLoop2 : List BElem := [i311 "NOP", i311 "LOAD_CONST" (.int 1), i311 "POP_TOP", .label 0, i311 "NOP", i311 "JUMP_BACKWARD" (.label 0)]

/-- the graphs of two bytecodes compare equal -/
abbrev eqGraphs (x y : List BElem) : Py Bool := do
  let a ← fromBytecode Py311.platform ⟨Attrs.default, [], x⟩
  let b ← fromBytecode Py311.platform ⟨Attrs.default, [], y⟩
  let r ← CFG.eq Py311.platform (fun x => x) eff311 a b
  return r.1

/-- C53 is false as stated: `ControlFlowGraph.from_bytecode(b1) == ControlFlowGraph.from_bytecode(b2)` for two bytecodes whose loops
are different, because the limits of blocks are not compared. -/
theorem C53_statement_false : ∃ (b1 b2 : Bytecode) (c1 c2 x y : CFG),
    fromBytecode Py311.platform b1 = .ok c1 ∧ fromBytecode Py311.platform b2 = .ok c2 ∧
    CFG.eq Py311.platform (fun x => x) eff311 c1 c2 = .ok (true, x, y) ∧ codeG c1 ≠ codeG c2 := by
  have h : eqGraphs eqLoop1 eqLoop2 = .ok true := by decide +kernel
  obtain ⟨a, ha, h⟩ := except_bind_ok h
  obtain ⟨b, hb, h⟩ := except_bind_ok h
  obtain ⟨⟨r, x, y⟩, hr, h⟩ := except_bind_ok h
  cases h
  refine ⟨_, _, a, b, x, y, ha, hb, hr, ?_⟩
  rw [(C26_from _ _ _ (labelsOnly_of (by decide +kernel)) ha).1, (C26_from _ _ _ (labelsOnly_of (by decide +kernel)) hb).1]
  decide +kernel

/-- Code after the first final instruction of a block is not compared. -/
theorem C53_hidden_code : ∃ (a b x y : CFG), CFG.eq Py311.platform (fun x => x) eff311 a b = .ok (true, x, y) ∧ codeG a ≠ codeG b := by
  have h : eqBlocks [⟨[i311 "LOAD_CONST" (.int 1), i311 "RETURN_VALUE", i311 "NOP"], none⟩] [⟨[i311 "LOAD_CONST" (.int 1), i311 "RETURN_VALUE"], none⟩] =
    .ok true := by decide +kernel
  obtain ⟨⟨r, x, y⟩, hr, h⟩ := except_bind_ok h
  cases h
  exact ⟨_, _, x, y, hr, by decide +kernel⟩

/-- The fall-through of blocks is not compared. -/
theorem C53_fallthrough_ignored : ∃ (a b x y : CFG), CFG.eq Py311.platform (fun x => x) eff311 a b = .ok (true, x, y) ∧
    a.blocks = [0, 1] ∧ b.blocks = [0, 1] ∧ (a.heap 0).next = some 1 ∧ (b.heap 0).next = none := by
  have h : eqBlocks [⟨[i311 "LOAD_CONST" (.int 1), i311 "POP_TOP"], some 1⟩, ⟨[i311 "LOAD_CONST" (.int 1), i311 "RETURN_VALUE"], none⟩]
      [⟨[i311 "LOAD_CONST" (.int 1), i311 "POP_TOP"], none⟩, ⟨[i311 "LOAD_CONST" (.int 1), i311 "RETURN_VALUE"], none⟩] = .ok true := by decide +kernel
  obtain ⟨⟨r, x, y⟩, hr, h⟩ := except_bind_ok h
  cases h
  exact ⟨_, _, x, y, hr, rfl, rfl, rfl, rfl⟩

/-- a try region and its handler -/
def eqTry : List Blk := [⟨[.tryBegin ⟨0, 1, false, none⟩, i311 "NOP", .tryEnd 0, i311 "LOAD_CONST" (.int 1), i311 "RETURN_VALUE"], none⟩,
  ⟨[i311 "RERAISE" (.int 0)], none⟩]

/-- Comparing changes the graphs: the stack depth of the handlers is written. -/
theorem C53_depths_written : ∃ (a b x y : CFG), CFG.eq Py311.platform (fun x => x) eff311 a b = .ok (true, x, y) ∧
    (a.heap 0).elems.head? = some (.tryBegin ⟨0, 1, false, none⟩) ∧ (x.heap 0).elems.head? = some (.tryBegin ⟨0, 1, false, some 0⟩) := by
  have h : (do let r ← CFG.eq Py311.platform (fun x => x) eff311 (mkCFG eqTry) (mkCFG eqTry)
               return (r.1, (r.2.1.heap 0).elems.head?) : Py _) = .ok (true, some (.tryBegin ⟨0, 1, false, some 0⟩)) := by decide +kernel
  obtain ⟨⟨r, x, y⟩, hr, h⟩ := except_bind_ok h
  simp only [pure, Except.pure, Except.ok.injEq, Prod.mk.injEq] at h
  obtain ⟨rfl, h⟩ := h
  exact ⟨_, _, x, y, hr, rfl, h⟩

/-! The hypotheses are met. -/

theorem mkCFG_indexOK (bs : List Blk) : IndexOK (mkCFG bs) := by
  constructor
  · intro i b hb
    simp only [mkCFG, List.getElem?_range] at hb
    have hi : i < bs.length := by
      rcases Nat.lt_or_ge i bs.length with h | h
      · exact h
      · rw [List.getElem?_eq_none (by simpa using h)] at hb; cases hb
    rw [List.getElem?_range hi] at hb
    cases hb
    simp [CFG.getBlockIndex, mkCFG, hi]
  · intro b hb
    simp only [mkCFG, List.mem_range] at hb
    simp [CFG.getBlockIndex, mkCFG, hb]

/-- checker of the pairing of try markers -/
def endedB (tries : List Nat) : List BElem → Bool
  | [] => true
  | e :: r => (match e with | .tryEnd id => decide (id ∈ tries) | _ => true) && endedB (triesOf tries e) r

theorem paired_of {es : List BElem} (h : endedB [] es = true) : ∀ x id y, es = x ++ .tryEnd id :: y → ∃ t, .tryBegin t ∈ x ∧ t.id = id := by
  have H : ∀ (x : List BElem) (tries : List Nat) (id : Nat) (y : List BElem), endedB tries (x ++ .tryEnd id :: y) = true → id ∈ x.foldl triesOf tries := by
    intro x
    induction x with
    | nil =>
      intro tries id y h
      simp only [List.nil_append, endedB, Bool.and_eq_true, decide_eq_true_eq] at h
      exact h.1
    | cons e x ih =>
      intro tries id y h
      simp only [List.cons_append, endedB, Bool.and_eq_true] at h
      exact ih _ id y h.2
  rintro x id y rfl
  rcases (mem_fold_tries x [] id).1 (H x [] id y h) with h | h
  · cases h
  · exact h

/-- checker of `ComparableG` -/
def comparableB (P : Platform) (c : CFG) : Bool :=
  c.blocks.all (fun b => blkIter P (c.heap b).elems == .ok ()) && endedB [] (shown P c) &&
  (shown P c).all (fun e => match e with
    | .instr i => P.opmap i.name == some i.opcode &&
        (match i.arg with | .block b => P.hasJump i.opcode && decide (b ∈ c.blocks) | .label _ => P.hasJump i.opcode | _ => true)
    | .tryBegin t => decide (t.target ∈ c.blocks)
    | _ => true)

theorem comparable_of {P : Platform} {c : CFG} (hI : IndexOK c) (hf : c.blocks.length ≤ 2147483647) (h : comparableB P c = true) : ComparableG P c := by
  unfold comparableB at h
  simp only [Bool.and_eq_true, List.all_eq_true, beq_iff_eq] at h
  obtain ⟨⟨h1, h2⟩, h3⟩ := h
  refine ⟨hI, hf, h1, ?_, ?_, paired_of h2, ?_, ?_⟩
  · intro i b hi hb
    have := h3 _ hi
    simp only [hb, Bool.and_eq_true, decide_eq_true_eq] at this
    exact this.2.2
  · intro t ht
    have := h3 _ ht
    simpa using this
  · intro i hi
    have := h3 _ hi
    simp only [Bool.and_eq_true, beq_iff_eq] at this
    exact this.1
  · intro i hi hj l
    have := h3 _ hi
    simp only [Bool.and_eq_true] at this
    constructor
    · intro hl; rw [hl, hj] at this; simp at this
    · intro hl; rw [hl, hj] at this; simp at this

/-- the same graph with another TryBegin object -/
def eqTry2 : List Blk := [⟨[.tryBegin ⟨7, 1, false, none⟩, i311 "NOP", .tryEnd 7, i311 "LOAD_CONST" (.int 1), i311 "RETURN_VALUE"], none⟩,
  ⟨[i311 "RERAISE" (.int 0)], none⟩]

example : ComparableG Py311.platform (mkCFG eqTry) := comparable_of (mkCFG_indexOK _) (by decide) (by decide +kernel)
example : ComparableG Py311.platform (mkCFG eqTry2) := comparable_of (mkCFG_indexOK _) (by decide) (by decide +kernel)
example : AllShown Py311.platform (mkCFG eqTry) := by unfold AllShown; decide +kernel
example : SameSizes (mkCFG eqTry) (mkCFG eqTry2) := by unfold SameSizes; decide +kernel
example : ComparableG Py311.platform loop311 := comparable_of (mkCFG_indexOK _) (by decide) (by decide +kernel)
example : AllShown Py311.platform loop311 := by unfold AllShown; decide +kernel
example : eqBlocks loop311Blocks loop311Blocks = .ok true := by decide +kernel
example : eqBlocks eqTry eqTry2 = .ok true := by decide +kernel
example : ∃ n c, (mkCFG eqTry).computeStacksize Py311.platform eff311 = .ok (n, c) := by
  have h : (do let r ← (mkCFG eqTry).computeStacksize Py311.platform eff311
               return r.1 : Py _) = .ok 1 := by decide +kernel
  obtain ⟨⟨n, c⟩, h, _⟩ := except_bind_ok h
  exact ⟨n, c, h⟩

/-- another constant, another handler: not equal -/
example : eqBlocks eqTry (eqTry.set 1 ⟨[i311 "RERAISE" (.int 1)], none⟩) = .ok false := by decide +kernel

end Verif
