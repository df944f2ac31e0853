import Verif.Props.LinearTry
import Verif.Props.LinearSizeEx
import Verif.Props.StackMapEx
/-
C55 with handlers, and C56, on a loop in a try block.
-/
namespace Verif
open Spec

theorem from_blocks {P : Platform} {b : Bytecode} {c : CFG} (h : fromBytecode P b = .ok c) : ∃ bs, c = CFG.ofBlocks b.attrs b.argnames bs := by
  unfold fromBytecode at h
  obtain ⟨_, _, h⟩ := except_bind_ok h
  obtain ⟨starts, _, h⟩ := except_bind_ok h
  obtain ⟨s, _, h⟩ := except_bind_ok h
  obtain ⟨bs1, _, h⟩ := except_bind_ok h
  obtain ⟨bs, _, h⟩ := except_bind_ok h
  simp only [pure, Except.pure, Except.ok.injEq] at h
  exact ⟨bs, h.symm⟩

theorem ofBlocks_list (a : Attrs) (n : List String) (bs : List Blk) :
    (CFG.ofBlocks a n bs).blocks.map (fun b => (((CFG.ofBlocks a n bs).heap b).elems, ((CFG.ofBlocks a n bs).heap b).next)) = bs.map (fun b => (b.elems, b.next)) := by
  unfold CFG.ofBlocks
  simp only
  apply List.ext_getElem?
  intro i
  simp only [List.getElem?_map]
  by_cases h : i < bs.length
  · simp [h]
  · rw [List.getElem?_eq_none (by simp; omega), List.getElem?_eq_none (by omega)]; rfl

theorem tryLoop_from : fromBytecode Py311.platform tryLoopCode = .ok tryLoop := by
  have h : (fromBytecode Py311.platform tryLoopCode).toOption.map (fun c => c.blocks.map (fun b => ((c.heap b).elems, (c.heap b).next))) =
    some (tryLoopBlocks.map (fun b => (b.elems, b.next))) := by decide +kernel
  cases hc : fromBytecode Py311.platform tryLoopCode with
  | error e => rw [hc] at h; cases h
  | ok c =>
    rw [hc] at h
    obtain ⟨bs, rfl⟩ := from_blocks hc
    simp only [Except.toOption, Option.map_some, Option.some.injEq] at h
    rw [ofBlocks_list] at h
    have : bs = tryLoopBlocks := by
      refine List.map_injective_iff.2 ?_ h
      rintro ⟨a, b⟩ ⟨c, d⟩ h
      simp only [Prod.mk.injEq] at h
      rw [h.1, h.2]
    rw [this]
    rfl

/-- The Bytecode that is assembled. -/
def tryLoopSized : Bytecode where
  attrs := Attrs.default
  argnames := []
  elems := [i311 "RESUME" (.int 0), i311 "LOAD_CONST" (.int 6), i311 "LOAD_CONST" (.int 7), .tryBegin ⟨0, 4, true, some 1⟩,
    i311 "POP_TOP", .setLineno 3, i311 "LOAD_FAST" (.str "y"), i311 "GET_ITER",
    .label 1, i311 "FOR_ITER" (.label 3), i311 "STORE_FAST" (.str "x"), i311 "JUMP_BACKWARD" (.label 1), .tryEnd 0,
    .label 3, i311 "RETURN_VALUE",
    .label 4, i311 "PUSH_EXC_INFO", i311 "POP_TOP", i311 "POP_EXCEPT", i311 "POP_TOP", i311 "RETURN_VALUE"]

theorem tryLoop_sized : tryLoopCode.sized Py311.platform eff311 true = .ok (4, tryLoopSized) := toOption_ok (by decide +kernel)

theorem tryLoop_code : ∃ co, tryLoopCode.toCode Py311.platform (id : Arg → Arg) eff311 = .ok co ∧ co.stacksize = 4 := by
  unfold Bytecode.toCode
  rw [if_pos (by decide), tryLoop_sized]
  have h : ((toConcrete Py311.platform (id : Arg → Arg) 10 tryLoopSized).toOption.bind (fun c => (c.emit Py311.platform 4).toOption)).isSome = true := by
    decide +kernel
  show ∃ co, (toConcrete Py311.platform (id : Arg → Arg) 10 tryLoopSized >>= fun c => c.emit Py311.platform 4) = .ok co ∧ _
  cases hc : toConcrete Py311.platform (id : Arg → Arg) 10 tryLoopSized with
  | error e => rw [hc] at h; cases h
  | ok c =>
    rw [hc] at h
    cases he : c.emit Py311.platform 4 with
    | error e => simp [Except.toOption, he] at h
    | ok co => exact ⟨co, he, emit_stacksize he⟩

/-- The hypotheses of C55 with handlers are met by the loop in a try block. -/
example : ∃ co, tryLoopCode.toCode Py311.platform (id : Arg → Arg) eff311 = .ok co ∧
    let hs := (programCode Py311.platform (id : Arg → Arg) co).map (·.handler)
    (∀ x, LTOnPath Py311.platform eff311 tryLoopCode hs 0 x → x.depth ≤ 4) ∧
    (∀ x e y, LTOnPath Py311.platform eff311 tryLoopCode hs 0 x → LExec Py311.platform eff311 tryLoopCode x e y → 0 ≤ x.depth + e.1) ∧
    (∀ k d t, LTOnPath Py311.platform eff311 tryLoopCode hs 0 ⟨some k, d⟩ → k < (instrsB tryLoopCode).length → hs[k]? = some (some t) → (t.depth : Int) ≤ d) := by
  obtain ⟨co, h, hs⟩ := tryLoop_code
  have hsz : (tryLoop.computeStacksize Py311.platform eff311 true).toOption.map (fun r => (r.1, sameDepthB (allCode r.2))) = some (4, true) := by decide +kernel
  cases hc : tryLoop.computeStacksize Py311.platform eff311 true with
  | error e => rw [hc] at hsz; cases hsz
  | ok r =>
    obtain ⟨n, g'⟩ := r
    rw [hc] at hsz
    simp only [Except.toOption, Option.map_some, Option.some.injEq, Prod.mk.injEq] at hsz
    obtain ⟨rfl, hsd⟩ := hsz
    have hnd : ∀ i, BElem.instr i ∈ tryLoopCode.elems → Py311.platform.hascompare i.opcode = false ∧ Py311.platform.dual i.opcode = false := by
      intro i hi
      have h1 : tryLoopCode.elems.all (fun e => match e with
        | .instr i => !Py311.platform.hascompare i.opcode && !Py311.platform.dual i.opcode
        | _ => true) = true := by decide +kernel
      have := List.all_eq_true.1 h1 _ hi
      simpa only [Bool.and_eq_true, Bool.not_eq_true'] using this
    obtain ⟨r1, r2, r3⟩ := C55_handlers_partial Py311.platform Py311.wf (by decide) (id : Arg → Arg) eff311 (effOf_targetFree _ _) tryLoopCode
      (noCache_spec (es := tryLoopCode.elems) (by decide +kernel)) (fun i hi => (hnd i hi).2)
      (made_valid Py311.wf (es := tryLoopCode.elems) (by decide +kernel)) (labelsOnly_of (by decide +kernel)) (by decide +kernel) 10 none co h
      (fun i hi => ⟨(fun h => by rw [(hnd i hi).1] at h; cases h), (fun h => by rw [(hnd i hi).2] at h; cases h)⟩)
      tryLoop g' tryLoop_from (by rw [hs]; exact hc) (sameDepth_of hsd) tryLoopMap tryLoop_valid tryLoop_ends
    have e0 : initialSize Py311.platform tryLoopCode.attrs.flags = 0 := by decide +kernel
    rw [e0, hs] at r1
    rw [e0] at r2 r3
    exact ⟨co, h, r1, r2, r3⟩

/-- `FOR_ITER`, instruction 6, is protected by a handler started with one value, the position and the exception. -/
example : ((programB Py311.platform (id : Arg → Arg) tryLoopSized)[6]?.map (fun o : Op Arg => (o.name, o.handler))) =
    some ("FOR_ITER", some ⟨10, true, 1⟩) := by decide +kernel

/-- Two regions with the same handler and the same depth, one after the other, are joined. -/
def joined : CFG := mkCFG [
  ⟨[i311 "RESUME" (.int 0), i311 "LOAD_CONST" (.int 1), .tryBegin ⟨0, 2, true, some 1⟩, i311 "POP_TOP", i311 "LOAD_CONST" (.int 2), i311 "RETURN_VALUE", .tryEnd 0], none⟩,
  ⟨[.tryBegin ⟨1, 2, true, some 1⟩, i311 "LOAD_CONST" (.int 3), i311 "RETURN_VALUE", .tryEnd 1], none⟩,
  ⟨[i311 "PUSH_EXC_INFO", i311 "POP_TOP", i311 "RERAISE" (.int 1)], none⟩]

/-- The hypotheses of C56 are met, by a graph whose two regions are joined. -/
example : ∃ b, joined.toBytecode Py311.platform = .ok b ∧ b.elems.countP (fun | .tryBegin _ => true | _ => false) = 1 ∧
    programB Py311.platform (id : Arg → Arg) b = programG Py311.platform (id : Arg → Arg) joined ∧
    handlersD b = handlersDG joined ∧ (handlersDG joined)[5]? = some (some (some 7, true, some 1)) := by
  have h : ((joined.toBytecode Py311.platform).toOption.map (fun b => b.elems.countP (fun | .tryBegin _ => true | _ => false))) = some 1 := by decide +kernel
  cases hb : joined.toBytecode Py311.platform with
  | error e => rw [hb] at h; cases h
  | ok b =>
    rw [hb] at h
    simp only [Except.toOption, Option.map_some, Option.some.injEq] at h
    have hmem : ∀ b ∈ joined.blocks, ∀ i, BElem.instr i ∈ (joined.heap b).elems → BElem.instr i ∈ allCode joined :=
      fun b hb i hi => List.mem_flatMap.2 ⟨b, hb, hi⟩
    obtain ⟨r1, r2⟩ := C56_to_bytecode_partial (key := (id : Arg → Arg)) Py311.wf joined b (by decide) (by
        intro b hb i hi l hl
        have h1 : (allCode joined).all (fun e => match e with
          | .instr i => (match i.arg with | .label _ => false | _ => true)
          | _ => true) = true := by decide +kernel
        have := List.all_eq_true.1 h1 _ (hmem b hb i hi)
        simp only [hl] at this
        cases this) (made_valid Py311.wf (es := allCode joined) (by decide +kernel)) (by decide +kernel)
      (sameDepth_of (by decide +kernel)) hb
    exact ⟨b, rfl, h, r1, r2, by decide +kernel⟩

end Verif
