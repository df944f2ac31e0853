import Verif.Props.Assemblable
import Verif.Spec.Passes
/-
A family of programs in which every pass of jump resolution lengthens exactly one jump.
-/
namespace Verif
open Spec

/-- `NOP` and `JUMP_FORWARD label`. -/
def chNop : BElem := ins Py311.platform "NOP"
def chJump (l : Nat) : BElem := ins Py311.platform "JUMP_FORWARD" (.label l)

/-- Jumps 0 to i; between two jumps there are 254 NOP, and jump `i` goes just behind jump `i + 1`. -/
def chPre : Nat → List BElem
  | 0 => [chJump 0]
  | i + 1 => chPre i ++ List.replicate 254 chNop ++ [chJump (i + 1), .label i]

/-- The last jump goes over 256 NOP. -/
def chain (n : Nat) : Bytecode where
  attrs := Attrs.default
  argnames := []
  elems := chPre n ++ List.replicate 256 chNop ++ [.label n, chNop]

def chLoc : Loc := ⟨some 1, none, none, none⟩
def chNopI : CInstr := mkI Py311.platform "NOP" none chLoc
def chJumpI (a : Nat) : CInstr := mkI Py311.platform "JUMP_FORWARD" (some a) chLoc

/-- The instructions of `chain n` with the arguments `a` of the jumps. -/
def chAt (n : Nat) (a : Nat → Nat) (p : Nat) : CInstr := if p % 255 = 0 ∧ p / 255 ≤ n then chJumpI (a (p / 255)) else chNopI
def chCode (n : Nat) (a : Nat → Nat) : List CInstr := (List.range (255 * n + 258)).map (chAt n a)
def chJumps (n : Nat) : List (Nat × Nat) := (List.range n).map (fun i => (255 * i, i))
def chLabels : Nat → List (Nat × Nat)
  | 0 => []
  | i + 1 => (i, 255 * (i + 1) + 1) :: chLabels i

def chConv (is : List CInstr) (js ls : List (Nat × Nat)) : Conv where
  tabs := { consts := [], names := [], varnames := [] }
  loc := chLoc
  instrs := is
  jumps := js
  labels := ls
  blocks := []
  required := 0
  seenManual := false
  cellInstrs := []
  freeInstrs := []

theorem make_nop : CInstr.make Py311.platform (some "NOP") .unset .unset (some chLoc) = .ok chNopI :=
  make_ok Py311.platform Py311.wf "NOP" 9 (by decide +kernel) (by decide +kernel) none (by decide +kernel) (by simp) (by simp) (some chLoc) none

theorem make_jump : CInstr.make Py311.platform (some "JUMP_FORWARD") (.int 0) .unset (some chLoc) = .ok (chJumpI 0) :=
  make_ok Py311.platform Py311.wf "JUMP_FORWARD" 110 (by decide +kernel) (by decide +kernel) (some 0) (by simp) (by decide +kernel) (by simp) (some chLoc) none

section
variable {κ : Type} [DecidableEq κ] (key : Arg → κ)

theorem encode_nop (T : Tabs) : encodeOperand Py311.platform key Attrs.default T ⟨"NOP", 9, .unset, none⟩ = .ok (T, .plain .unset) := by
  have h1 : Py311.platform.hasconst 9 = false := by decide +kernel
  have h2 : Py311.platform.haslocal 9 = false := by decide +kernel
  have h3 : Py311.platform.hasname 9 = false := by decide +kernel
  have h4 : Py311.platform.hasfree 9 = false := by decide +kernel
  have h5 : Py311.platform.hascompare 9 = false := by decide +kernel
  have h6 : Py311.platform.intrinsic1 9 = false := by decide +kernel
  have h7 : Py311.platform.intrinsic2 9 = false := by decide +kernel
  simp [encodeOperand, h1, h2, h3, h4, h5, h6, h7, encodeInt, bind, Except.bind, pure, Except.pure]

theorem chNop_eq : chNop = .instr ⟨"NOP", 9, .unset, none⟩ := by
  have h : Py311.platform.opmap "NOP" = some 9 := by decide +kernel
  simp [chNop, ins, h]

theorem chJump_eq (l : Nat) : chJump l = .instr ⟨"JUMP_FORWARD", 110, .label l, none⟩ := by
  have h : Py311.platform.opmap "JUMP_FORWARD" = some 110 := by decide +kernel
  simp [chJump, ins, h]

theorem p311 : Py311.platform.py311 = true := by decide +kernel

theorem step_nop (is : List CInstr) (js ls : List (Nat × Nat)) :
    Conv.step Py311.platform key Attrs.default (chConv is js ls) chNop = .ok (chConv (is ++ [chNopI]) js ls) := by
  have hu : chNopI.useCacheOpcodes Py311.platform = 0 := by decide +kernel
  rw [chNop_eq]
  simp [Conv.step, Conv.cacheStep, Conv.elem, chConv, BElem.isCache, bind, Except.bind, encode_nop, Conv.push, make_nop, hu, pure, Except.pure]

theorem step_jump (is : List CInstr) (js ls : List (Nat × Nat)) (l : Nat) :
    Conv.step Py311.platform key Attrs.default (chConv is js ls) (chJump l) = .ok (chConv (is ++ [chJumpI 0]) (js ++ [(is.length, l)]) ls) := by
  have hu : (chJumpI 0).useCacheOpcodes Py311.platform = 0 := by decide +kernel
  rw [chJump_eq]
  simp [Conv.step, Conv.cacheStep, Conv.elem, chConv, BElem.isCache, bind, Except.bind, encodeOperand, Conv.push, make_jump, hu, pure, Except.pure]

theorem step_label (is : List CInstr) (js ls : List (Nat × Nat)) (l : Nat) :
    Conv.step Py311.platform key Attrs.default (chConv is js ls) (.label l) = .ok (chConv is js ((l, is.length) :: ls)) := by
  simp [Conv.step, Conv.cacheStep, Conv.elem, chConv, BElem.isCache, bind, Except.bind]

theorem fold_nops (k : Nat) : ∀ (is : List CInstr) (js ls : List (Nat × Nat)),
    (List.replicate k chNop).foldlM (Conv.step Py311.platform key Attrs.default) (chConv is js ls) = .ok (chConv (is ++ List.replicate k chNopI) js ls) := by
  induction k with
  | zero => intro is js ls; simp [pure, Except.pure]
  | succ k ih =>
    intro is js ls
    rw [List.replicate_succ, List.foldlM_cons, step_nop]
    show (List.replicate k chNop).foldlM _ (chConv (is ++ [chNopI]) js ls) = _
    rw [ih]
    simp [List.replicate_succ]

/-- The instructions before the first pass, without the limit on the number of jumps. -/
def ch0 (p : Nat) : CInstr := if p % 255 = 0 then chJumpI 0 else chNopI

theorem ch0_next (i : Nat) : (List.range (255 * i + 1)).map ch0 ++ List.replicate 254 chNopI ++ [chJumpI 0] = (List.range (255 * (i + 1) + 1)).map ch0 := by
  apply List.ext_getElem
  · simp [-List.reduceReplicate]; omega
  · intro p h1 h2
    simp [-List.reduceReplicate] at h1 h2
    simp only [List.getElem_append, List.length_map, List.length_range, List.length_append, List.length_replicate, List.getElem_map, List.getElem_range,
      List.getElem_replicate, List.getElem_singleton]
    split
    · split
      · rfl
      · rename_i h3 h4
        have : p % 255 ≠ 0 := by omega
        simp [-List.reduceReplicate, ch0, this]
    · have : p % 255 = 0 := by omega
      simp [-List.reduceReplicate, ch0, this]

theorem ch0_end (n : Nat) : (List.range (255 * n + 1)).map ch0 ++ List.replicate 256 chNopI ++ [chNopI] = chCode n (fun _ => 0) := by
  apply List.ext_getElem
  · simp [-List.reduceReplicate, chCode]
  · intro p h1 h2
    simp [-List.reduceReplicate, chCode] at h1 h2
    simp only [chCode, List.getElem_append, List.length_map, List.length_range, List.length_append, List.length_replicate, List.getElem_map, List.getElem_range,
      List.getElem_replicate, List.getElem_singleton]
    split
    · split
      · have : p / 255 ≤ n := by omega
        simp [-List.reduceReplicate, ch0, chAt, this]
      · have : ¬ (p % 255 = 0 ∧ p / 255 ≤ n) := by omega
        simp [-List.reduceReplicate, chAt, this]
    · have : ¬ (p % 255 = 0 ∧ p / 255 ≤ n) := by omega
      simp [-List.reduceReplicate, chAt, this]

theorem fold_pre (i : Nat) : (chPre i).foldlM (Conv.step Py311.platform key Attrs.default) (chConv [] [] []) =
    .ok (chConv ((List.range (255 * i + 1)).map ch0) (chJumps (i + 1)) (chLabels i)) := by
  induction i with
  | zero =>
    rw [chPre, List.foldlM_cons, step_jump]
    simp [-List.reduceReplicate, bind, Except.bind, pure, Except.pure, chJumps, chLabels, ch0]
  | succ i ih =>
    rw [chPre, List.foldlM_append, List.foldlM_append, ih]
    simp only [bind, Except.bind]
    rw [fold_nops]
    simp only [List.foldlM_cons, List.foldlM_nil]
    rw [step_jump]
    simp only [bind, Except.bind]
    rw [step_label, ch0_next]
    simp only [pure, Except.pure]
    congr 2
    · show _ = chJumps (i + 1 + 1)
      rw [chJumps, chJumps, List.range_succ (n := i + 1), List.map_append]
      congr 1
      simp only [List.length_append, List.length_map, List.length_range, List.length_replicate, List.map_cons, List.map_nil, List.cons.injEq, Prod.mk.injEq, and_true]
      omega
    · simp [-List.reduceReplicate, chLabels]

theorem chPre_mem {e : BElem} {i : Nat} (h : e ∈ chPre i) : (∃ l, l ≤ i ∧ e = chJump l) ∨ (∃ l, l < i ∧ e = .label l) ∨ e = chNop := by
  induction i with
  | zero => simp [chPre] at h; exact .inl ⟨0, Nat.le_refl _, h⟩
  | succ i ih =>
    rw [chPre, List.mem_append, List.mem_append] at h
    rcases h with (h | h) | h
    · rcases ih h with ⟨l, h1, h2⟩ | ⟨l, h1, h2⟩ | h
      · exact .inl ⟨l, by omega, h2⟩
      · exact .inr (.inl ⟨l, by omega, h2⟩)
      · exact .inr (.inr h)
    · exact .inr (.inr (List.eq_of_mem_replicate h))
    · simp only [List.mem_cons, List.not_mem_nil, or_false] at h
      rcases h with rfl | rfl
      · exact .inl ⟨_, Nat.le_refl _, rfl⟩
      · exact .inr (.inl ⟨_, Nat.lt_succ_self _, rfl⟩)

theorem chain_mem {e : BElem} {n : Nat} (h : e ∈ (chain n).elems) : (∃ l, e = chJump l) ∨ (∃ l, e = .label l) ∨ e = chNop := by
  simp only [chain, List.mem_append, List.mem_cons, List.not_mem_nil, or_false] at h
  rcases h with (h | h) | h | h
  · rcases chPre_mem h with ⟨l, _, h⟩ | ⟨l, _, h⟩ | h
    · exact .inl ⟨l, h⟩
    · exact .inr (.inl ⟨l, h⟩)
    · exact .inr (.inr h)
  · exact .inr (.inr (List.eq_of_mem_replicate h))
  · exact .inr (.inl ⟨n, h⟩)
  · exact .inr (.inr h)

theorem iter_chain (n : Nat) : (iterElems false (chain n).elems).2 = .ok () := by
  have hno : ∀ t, BElem.tryBegin t ∉ (chain n).elems := fun t ht => by
    rcases chain_mem ht with ⟨_, h⟩ | ⟨_, h⟩ | h <;> simp [chNop, chJump, ins] at h
  refine iter_total _ _ (fun pre t mid t' post h => ?_) (by simp)
  exact absurd (by rw [h]; simp) (hno t)

theorem chain_start (n : Nat) : concreteInstructions Py311.platform key (chain n) =
    .ok (chConv (chCode n (fun _ => 0)) (chJumps (n + 1)) ((n, 255 * n + 257) :: chLabels n)) := by
  have hl : Loc.make Py311.platform.py311 (some ((chain n).attrs.firstLineno : Int)) none none none = .ok chLoc := by
    show Loc.make Py311.platform.py311 (some (Attrs.default.firstLineno : Int)) none none none = .ok chLoc
    decide +kernel
  have hp : prepass Py311.platform (chain n).argnames (chain n).elems = .ok [] := by
    have : Py311.platform.py313 = false := by decide +kernel
    simp only [prepass, this, Bool.false_eq_true, if_false]
    rfl
  have hf : (chain n).elems.foldlM (Conv.step Py311.platform key Attrs.default) (chConv [] [] []) =
    .ok (chConv (chCode n (fun _ => 0)) (chJumps (n + 1)) ((n, 255 * n + 257) :: chLabels n)) := by
    rw [chain, List.foldlM_append, List.foldlM_append, fold_pre]
    simp only [bind, Except.bind]
    rw [fold_nops]
    simp only [List.foldlM_cons, List.foldlM_nil]
    rw [step_label]
    simp only [bind, Except.bind]
    rw [step_nop, ch0_end]
    simp [-List.reduceReplicate, pure, Except.pure]
  unfold concreteInstructions
  rw [hl]
  simp only [bind, Except.bind]
  rw [iter_chain]
  simp only
  rw [hp]
  simp only
  have hi : Conv.init (chain n).attrs [] chLoc = chConv [] [] [] := rfl
  rw [hi]
  have hA : (chain n).attrs = Attrs.default := rfl
  rw [hA, hf]
  simp only
  have hs : Conv.cacheStep Py311.platform (chConv (chCode n (fun _ => 0)) (chJumps (n + 1)) ((n, 255 * n + 257) :: chLabels n)) false =
    .ok (chConv (chCode n (fun _ => 0)) (chJumps (n + 1)) ((n, 255 * n + 257) :: chLabels n)) := by
    simp [-List.reduceReplicate, Conv.cacheStep, chConv]
  rw [hs]
  simp [-List.reduceReplicate, fixCells, chConv, p311, bind, Except.bind, pure, Except.pure]

end
end Verif
