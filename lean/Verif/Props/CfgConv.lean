import Verif.Proofs.CfgConvMain
import Verif.Props.StackSizeEx
/-
C26, C27: Bytecode to ControlFlowGraph and back.
-/
namespace Verif
open Spec

/-- The arguments that are jump targets are labels, as in any `Bytecode` that does not share instructions with a graph. -/
def LabelsOnly (bc : Bytecode) : Prop := ∀ i, BElem.instr i ∈ bc.elems → ∀ b, i.arg ≠ .block b

/-- The arguments that are jump targets are blocks. -/
def BlocksOnly (c : CFG) : Prop := ∀ b ∈ c.blocks, ∀ i, BElem.instr i ∈ (c.heap b).elems → ∀ l, i.arg ≠ .label l

/-- `from_bytecode`: the graph has the instructions and line markers of the bytecode, in order, with the same arguments
and locations, every jump going to the same instruction; attributes and argument names are kept; no label is left. -/
theorem C26_from (P : Platform) (bc : Bytecode) (c : CFG) (hl : LabelsOnly bc) (h : fromBytecode P bc = .ok c) :
    codeG c = codeB bc ∧ c.attrs = bc.attrs ∧ c.argnames = bc.argnames ∧ c.blocks.Nodup ∧ BlocksOnly c := by
  obtain ⟨bs, rfl, h1, h2, h3, h4⟩ := from_main hl h
  refine ⟨h1, rfl, rfl, List.nodup_range, ?_⟩
  intro b hb i hi
  have hb' : b < bs.length := List.mem_range.1 hb
  have hi' : BElem.instr i ∈ ((bs[b]?).getD ⟨[], none⟩).elems := hi
  rw [List.getElem?_eq_getElem hb'] at hi'
  exact h4 _ (List.getElem_mem hb') i hi'

/-- `to_bytecode`: the bytecode has the instructions and line markers of the graph, block after block, every jump going to
the first instruction of the same block. -/
theorem C26_to (P : Platform) (c : CFG) (bc : Bytecode) (hn : c.blocks.Nodup) (hb : BlocksOnly c) (h : c.toBytecode P = .ok bc) :
    codeB bc = codeG c ∧ bc.attrs = c.attrs ∧ bc.argnames = c.argnames :=
  to_main hn hb h

/-- C26: the round trip keeps instructions, line markers, operands, locations and jump targets. -/
theorem C26 (P : Platform) (bc : Bytecode) (c : CFG) (bc' : Bytecode) (hl : LabelsOnly bc)
    (h : fromBytecode P bc = .ok c) (h' : c.toBytecode P = .ok bc') :
    codeB bc' = codeB bc ∧ bc'.attrs = bc.attrs ∧ bc'.argnames = bc.argnames := by
  obtain ⟨h1, h2, h3, h4, h5⟩ := C26_from P bc c hl h
  obtain ⟨k1, k2, k3⟩ := C26_to P c bc' h4 h5 h'
  exact ⟨k1.trans h1, k2.trans h2, k3.trans h3⟩

/-- No jump of a bytecode that was converted is dangling. -/
theorem C26_no_dangling (P : Platform) (bc : Bytecode) (c : CFG) (hl : LabelsOnly bc) (h : fromBytecode P bc = .ok c) :
    (∀ n o loc, CodeItem.op n o .lost loc ∉ codeB bc) ∧ (∀ n o loc, CodeItem.op n o .lost loc ∉ codeG c) := by
  have h1 := (C26_from P bc c hl h).1
  have key : ∀ n o loc, CodeItem.op n o .lost loc ∉ codeB bc := by
    intro n o loc hm
    unfold codeB resolved at hm
    obtain ⟨e, he, hm⟩ := List.mem_filterMap.1 hm
    cases e with
    | instr i =>
      simp only [Option.some.injEq, CodeItem.op.injEq] at hm
      obtain ⟨_, _, hm, _⟩ := hm
      unfold fromBytecode at h
      obtain ⟨_, _, h⟩ := except_bind_ok h
      obtain ⟨starts, hst, h⟩ := except_bind_ok h
      cases ha : i.arg with
      | label l =>
        obtain ⟨p, _, hp⟩ := (blockStarts_ok hst).2 _ he l (by simp [refLabel, ha])
        rw [ha, argRef, (labelIndex_some hp).2] at hm
        cases hm
      | block b => exact hl i he b ha
      | _ => rw [ha] at hm; cases hm
    | _ => cases hm
  exact ⟨key, by rw [h1]; exact key⟩

/-- C27: in the result of `from_bytecode` the blocks are numbered in order; only the last instruction of a block can be a jump or
end the execution; the next block of a block is the following one if there is one and control can fall through, and
nothing otherwise. The targets of the jumps are as C26_from says. -/
theorem C27 (P : Platform) (bc : Bytecode) (c : CFG) (hl : LabelsOnly bc) (h : fromBytecode P bc = .ok c) :
    (∃ n, 0 < n ∧ c.blocks = List.range n ∧ ∀ k < n, OnlyLastJumps P (c.heap k).elems ∧
      (c.heap k).next = (if k + 1 < n ∧ fallsThrough (c.heap k).elems = true then some (k + 1) else none) ∧
      (k + 1 < n → ∃ i, lastInstr (c.heap k).elems = some i)) ∧
    IndexOK c ∧ codeG c = codeB bc := by
  obtain ⟨bs, rfl, h1, h2, h3, h4⟩ := from_main hl h
  refine ⟨⟨bs.length, h2, rfl, ?_⟩, ⟨?_, ?_⟩, h1⟩
  · intro k hk
    have hb : ((CFG.ofBlocks bc.attrs bc.argnames bs).heap k) = bs[k] := by
      show (bs[k]?).getD ⟨[], none⟩ = _
      rw [List.getElem?_eq_getElem hk]; rfl
    have ok := h3 k bs[k] (List.getElem?_eq_getElem hk)
    rw [hb]
    refine ⟨ok.only, ?_, fun hk1 => ?_⟩
    · by_cases hk1 : k + 1 < bs.length
      · obtain ⟨i, hi, hn⟩ := ok.notLast hk1
        rw [hn]
        unfold fallsThrough
        rw [hi]
        cases hf : isFinal i.name <;> simp [hk1, hf]
      · rw [ok.last (by omega)]
        simp [hk1]
    · obtain ⟨i, hi, _⟩ := ok.notLast hk1
      exact ⟨i, hi⟩
  · intro i b hb
    have hb' : (List.range bs.length)[i]? = some b := hb
    have hi : i < bs.length := by simpa using (List.getElem?_eq_some_iff.1 hb').1
    rw [List.getElem?_range hi] at hb'
    simp only [Option.some.injEq] at hb'
    subst hb'
    simp [CFG.getBlockIndex, CFG.ofBlocks, hi]
  · intro b hb
    have hb' : ¬ b < bs.length := fun h => hb (List.mem_range.2 h)
    simp [CFG.getBlockIndex, CFG.ofBlocks, hb']

/-- Iteration over a block of such a graph raises nothing when the jumps of the bytecode have label arguments. -/
theorem C27_iterable (P : Platform) (bc : Bytecode) (c : CFG) (hl : LabelsOnly bc)
    (hj : ∀ i, BElem.instr i ∈ bc.elems → P.hasJump i.opcode = true → ∃ l, i.arg = .label l)
    (h : fromBytecode P bc = .ok c) : ∀ b ∈ c.blocks, blkIter P (c.heap b).elems = .ok () := by
  obtain ⟨⟨n, _, hbl, hbs⟩, _, hc⟩ := C27 P bc c hl h
  obtain ⟨_, _, _, _, hB⟩ := C26_from P bc c hl h
  -- every jump has a block argument
  have harg : ∀ b ∈ c.blocks, ∀ i, BElem.instr i ∈ (c.heap b).elems → P.hasJump i.opcode = true → ∃ k, i.arg = .block k := by
    intro b hb i hi hji
    have hm : CodeItem.op i.name i.opcode (argRef (fun _ => none) (fun b => blockAt c.heap b c.blocks) i.arg) i.loc ∈ codeG c :=
      List.mem_filterMap.2 ⟨.instr i, List.mem_flatMap.2 ⟨b, hb, hi⟩, rfl⟩
    rw [hc] at hm
    obtain ⟨e, he, hm⟩ := List.mem_filterMap.1 hm
    cases e with
    | instr j =>
      simp only [Option.some.injEq, CodeItem.op.injEq] at hm
      obtain ⟨_, ho, ha, _⟩ := hm
      obtain ⟨l, hl'⟩ := hj j he (by rw [ho]; exact hji)
      have hnl := hB b hb i hi
      rw [hl'] at ha
      cases hia : i.arg with
      | label l => exact absurd hia (hnl l)
      | block k => exact ⟨k, rfl⟩
      | _ =>
        rw [hia] at ha
        simp only [argRef] at ha
        split at ha <;> cases ha
    | _ => cases hm
  intro b hb
  have hb' : b < n := by rw [hbl] at hb; exact List.mem_range.1 hb
  have honly := (hbs b hb').1
  have hnolab : ∀ l, BElem.label l ∉ (c.heap b).elems := from_noLabelElem h b hb
  have key : ∀ (es pre : List BElem), (c.heap b).elems = pre ++ es → blkIter P es = .ok () := by
    intro es
    induction es with
    | nil => intro _ _; rfl
    | cons e r ih =>
      intro pre hpre
      have hr := ih (pre ++ [e]) (by rw [hpre]; simp)
      unfold blkIter
      rw [hr]
      have : blkCheck P e r = .ok () := by
        cases e with
        | label l => exact absurd (by rw [hpre]; simp) (hnolab l)
        | instr i =>
          unfold blkCheck
          simp only
          split
          · rename_i hji
            have h0 := honly pre i r hpre (.inl hji)
            have hany : r.any BElem.isInstr = false := by
              rw [List.any_eq_false]
              intro x hx
              simpa using List.countP_eq_zero.1 h0 x hx
            obtain ⟨k, hk⟩ := harg b hb i (by rw [hpre]; simp) hji
            simp [hany, hk, Arg.asBlock]
          · rfl
        | _ => rfl
      rw [this]
      rfl
  exact key _ [] rfl

/-! ### The hypotheses are met -/

/-- A loop with a conditional exit, a try region cut by an unconditional jump, and a line marker in dead code. -/
def cfgEx : Bytecode where
  attrs := { Attrs.default with name := "f" }
  argnames := ["x"]
  elems := [i311 "RESUME" (.int 0), .label 7, i311 "LOAD_FAST" (.str "x"), i311 "POP_JUMP_FORWARD_IF_TRUE" (.label 1),
    .tryBegin ⟨5, 2, true, none⟩, i311 "NOP", i311 "JUMP_FORWARD" (.label 3), .setLineno 4, i311 "POP_TOP", .label 3,
    i311 "NOP", .tryEnd 5, i311 "JUMP_BACKWARD" (.label 7), .label 1, i311 "LOAD_CONST" (.int 1), i311 "RETURN_VALUE",
    .label 2, i311 "RERAISE" (.int 0)]

/-- Hypotheses of the theorems as booleans. -/
def labelsOnlyB (bc : Bytecode) : Bool := bc.elems.all (fun | .instr i => i.arg.asBlock.isNone | _ => true)

theorem labelsOnly_of {bc : Bytecode} (h : labelsOnlyB bc = true) : LabelsOnly bc := by
  intro i hi b hb
  have : i.arg.asBlock.isNone = true := List.all_eq_true.1 h _ hi
  rw [hb] at this
  cases this

/-- Non-vacuity of C26 and C27: seven blocks, the region is split in two in the graph and fused again. -/
example : made Py311.platform cfgEx.elems = true ∧ LabelsOnly cfgEx ∧
    (fromBytecode Py311.platform cfgEx).toOption.map (fun c => c.blocks.map (fun b => ((c.heap b).elems.length, (c.heap b).next))) =
      some [(1, some 1), (2, some 2), (4, none), (3, some 4), (3, none), (2, none), (1, none)] ∧
    ((fromBytecode Py311.platform cfgEx).toOption.bind (fun c => (c.toBytecode Py311.platform).toOption)).map (fun b => b.elems) =
      some [i311 "RESUME" (.int 0), .label 1, i311 "LOAD_FAST" (.str "x"), i311 "POP_JUMP_FORWARD_IF_TRUE" (.label 5),
        .tryBegin ⟨0, 6, true, none⟩, i311 "NOP", i311 "JUMP_FORWARD" (.label 4), .setLineno 4, i311 "POP_TOP", .label 4,
        i311 "NOP", .tryEnd 0, i311 "JUMP_BACKWARD" (.label 1), .label 5, i311 "LOAD_CONST" (.int 1), i311 "RETURN_VALUE",
        .label 6, i311 "RERAISE" (.int 0)] := by
  refine ⟨by decide +kernel, labelsOnly_of (by decide +kernel), by decide +kernel, by decide +kernel⟩

/-- The jumps of the example are resolved: to instructions 1, 6, 8. -/
example : (codeB cfgEx).filterMap (fun | .op n _ (.target k) _ => some (n, k) | _ => none) =
    [("POP_JUMP_FORWARD_IF_TRUE", 8), ("JUMP_FORWARD", 6), ("JUMP_BACKWARD", 1)] := by
  decide +kernel

end Verif
