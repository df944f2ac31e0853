import Verif.Proofs.CfgTryWell
import Verif.Props.CfgConv
/-
C46: exception handlers through ControlFlowGraph and back.
-/
namespace Verif
open Spec

/-- `from_bytecode`: in the graph every instruction is protected by the same handler (the same instruction, the same lasti
flag) as in the bytecode. -/
theorem C46_from (P : Platform) (bc : Bytecode) (c : CFG) (hw : WellTried none [] false bc.elems) (h : fromBytecode P bc = .ok c) :
    handlersG c = handlersOf bc :=
  (from_tries hw h).2.2

/-- `to_bytecode`: in the bytecode every instruction is protected by the same handler as in the graph, when the regions of the
graph do not overlap, each TryBegin occurs once and each TryEnd after its TryBegin and after some instruction. -/
theorem C46_to (P : Platform) (c : CFG) (bc : Bytecode) (hn : c.blocks.Nodup) (ho : Ordered (allCode c)) (h : c.toBytecode P = .ok bc) :
    handlersOf bc = handlersG c :=
  to_tries hn ho h

/-- C46: after `ControlFlowGraph.from_bytecode(bc).to_bytecode()` every instruction is protected by the same handler as
before, although the regions are cut and joined on the way; the regions of the result are well formed again. -/
theorem C46 (P : Platform) (bc : Bytecode) (c : CFG) (bc' : Bytecode) (hw : WellTried none [] false bc.elems)
    (h : fromBytecode P bc = .ok c) (h' : c.toBytecode P = .ok bc') :
    handlersOf bc' = handlersOf bc ∧ WellTried none [] false bc'.elems := by
  obtain ⟨h1, h2, h3⟩ := from_tries hw h
  have hn : c.blocks.Nodup := by
    unfold fromBytecode at h
    obtain ⟨_, _, h⟩ := except_bind_ok h
    obtain ⟨starts, _, h⟩ := except_bind_ok h
    obtain ⟨s, _, h⟩ := except_bind_ok h
    obtain ⟨bs1, _, h⟩ := except_bind_ok h
    obtain ⟨bs, _, h⟩ := except_bind_ok h
    simp only [pure, Except.pure, Except.ok.injEq] at h
    rw [← h]
    exact List.nodup_range
  exact ⟨(to_tries hn h1 h').trans h3, to_well h1 h2 h'⟩

/-- Non-vacuity of C46: the region of `cfgEx` protects instructions 3 to 6, two of them after the unconditional jump that cuts
the region in the graph; the handler is instruction 10. -/
example : WellTried none [] false cfgEx.elems ∧
    handlersOf cfgEx = List.replicate 3 none ++ List.replicate 4 (some (some 10, true)) ++ List.replicate 4 none ∧
    (fromBytecode Py311.platform cfgEx).toOption.map (fun c => (handlersG c, (allCode c).countP (fun | .tryBegin _ => true | _ => false))) =
      some (handlersOf cfgEx, 2) ∧
    ((fromBytecode Py311.platform cfgEx).toOption.bind (fun c => (c.toBytecode Py311.platform).toOption)).map handlersOf =
      some (handlersOf cfgEx) := by
  refine ⟨by decide +kernel, by decide +kernel, by decide +kernel, by decide +kernel⟩

/-- The stack depth of the handler is not kept: when a region is cut by an instruction that ends the execution, the second half
has no depth, and the two halves are joined with the smaller of 3 and UNSET (0), that is UNSET. -/
theorem C46_depth_lost :
    let bc : Bytecode := { cfgEx with elems := cfgEx.elems.map (fun | .tryBegin t => .tryBegin { t with depth := some 3 } | e => e) }
    WellTried none [] false bc.elems ∧
    ((fromBytecode Py311.platform bc).toOption.bind (fun c => (c.toBytecode Py311.platform).toOption)).map
      (fun b => b.elems.filterMap (fun | .tryBegin t => some t.depth | _ => none)) = some [none] := by
  refine ⟨by decide +kernel, by decide +kernel⟩

end Verif
