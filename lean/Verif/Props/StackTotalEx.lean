import Verif.Props.StackTotal
import Verif.Props.LinearSizeEx
/-
C61 on concrete programs.
-/
namespace Verif
open Spec

/-- No instruction pops more values than the depths `m` say there are. -/
def popsCheck (eff : Instr → Bool → Py (Int × Int)) (b : Bytecode) (m : List Int) : Bool :=
  (List.range (instrsB b).length).all (fun k =>
    match (instrsB b)[k]?, m[k]? with
    | some i, some d => [true, false].all (fun j => match eff i j with
        | .ok e => decide (0 ≤ d + e.1)
        | .error _ => true)
    | _, _ => true)

/-- A list of depths that every instruction respects shows that no execution underflows. -/
theorem noUnderflow_of {P : Platform} {eff : Instr → Bool → Py (Int × Int)} {b : Bytecode} {d0 : Int} {m : List Int}
    (h : depthsCheck P eff b d0 m = true) (hp : popsCheck eff b m = true) : ¬ LUnderflows P eff b d0 := by
  rintro ⟨x, e, y, h1, h2, h3⟩
  have key : ∀ k i j, x.pos = some k → (instrsB b)[k]? = some i → eff i j = .ok e → False := by
    intro k i j hk hi he
    have hm := depths_sound h x h1 k hk
    have := List.all_eq_true.1 hp k (List.mem_range.2 (List.getElem?_eq_some_iff.1 hi).1)
    simp only [hi, hm] at this
    have := List.all_eq_true.1 this j (by cases j <;> simp)
    rw [he] at this
    have := of_decide_eq_true this
    omega
  cases h2 with
  | go g1 g2 g3 => exact key _ _ _ rfl g1 g3
  | jump g1 g2 g3 g4 g5 => exact key _ _ _ rfl g1 g5
  | stop g1 g2 g3 g4 => exact key _ _ _ rfl g1 g4

/-- Effects are defined, with a number of values pushed that is not negative. -/
def effsCheck (eff : Instr → Bool → Py (Int × Int)) (b : Bytecode) : Bool :=
  (instrsB b).all (fun i => [true, false].all (fun j => match eff i j with | .ok e => decide (0 ≤ e.2) | .error _ => false))

theorem effs_of {eff : Instr → Bool → Py (Int × Int)} {b : Bytecode} (h : effsCheck eff b = true) :
    ∀ i, BElem.instr i ∈ b.elems → ∀ j, ∃ e, eff i j = .ok e ∧ 0 ≤ e.2 := by
  intro i hi j
  have := List.all_eq_true.1 h i (List.mem_filterMap.2 ⟨_, hi, rfl⟩)
  have := List.all_eq_true.1 this j (by cases j <;> simp)
  split at this
  · rename_i e he
    exact ⟨e, he, of_decide_eq_true this⟩
  · cases this

theorem locs_none {b : Bytecode} (h : (instrsB b).all (fun i => i.loc.isNone) = true) :
    ∀ i l, BElem.instr i ∈ b.elems → i.loc = some l → ¬ Unencodable l := by
  intro i l hi hl
  have := List.all_eq_true.1 h i (List.mem_filterMap.2 ⟨_, hi, rfl⟩)
  rw [hl] at this
  cases this

theorem rules_of {P : Platform} (hP : P.WF) {b : Bytecode} (hw : WellMade P b) {passes : Nat} (hp : 3 * jumpCount b.elems < passes)
    (h : (toConcrete P (id : Arg → Arg) passes b).isOk = true) : Assemblable P b := by
  refine (C58_assembled_iff_rules (key := (id : Arg → Arg)) hP hw hp).1 ?_
  cases hc : toConcrete P (id : Arg → Arg) passes b with
  | error e => rw [hc] at h; cases h
  | ok c => exact ⟨c, rfl⟩

/-- The loop of C55 has no handler, follows the rules and never underflows, so it is compiled. -/
example : ∃ co, loopB.toCode Py311.platform (id : Arg → Arg) eff311 = .ok co := by
  have hw : WellMade Py311.platform loopB := wellMade_spec Py311.wf (by decide +kernel)
  refine C61_to_code_total (passes := 10) Py311.wf (by decide) (fun i j => effOf_ne _ _ _ (.inl rfl) i j) (fun i j => effOf_ne _ _ _ (.inr rfl) i j)
    (effOf_targetFree _ _) hw (labelsOnly_of (by decide +kernel)) ?_ (rules_of Py311.wf hw (passes := 10) (by decide +kernel) (by decide +kernel))
    (locs_none (by decide +kernel)) (fun i hi j => (effs_of (by decide +kernel) i hi j).imp fun _ h => h.1)
    (noUnderflow_of (m := [0, 0, 1, 1, 2, 1, 2, 1, 2, 3, 2, 1, 0, 1, 0]) (by decide +kernel) (by decide +kernel)) (by decide +kernel) none
  intro t ht
  have h1 : loopB.elems.all (fun | .tryBegin _ => false | _ => true) = true := by decide +kernel
  have := List.all_eq_true.1 h1 _ ht
  cases this

/-- A conditional jump back, from a region to code before another region that the first path does not go through. -/
def backEx : Bytecode where
  attrs := Attrs.default
  argnames := []
  elems := [i311 "RESUME" (.int 0), i311 "LOAD_CONST" (.int 0), i311 "POP_JUMP_FORWARD_IF_TRUE" (.label 1),
    .label 2, i311 "NOP", .tryBegin ⟨0, 3, false, none⟩, i311 "NOP", .tryEnd 0,
    .label 1, i311 "NOP", .tryBegin ⟨1, 3, false, none⟩, i311 "LOAD_CONST" (.int 0), i311 "POP_JUMP_BACKWARD_IF_TRUE" (.label 2), i311 "NOP", .tryEnd 1,
    i311 "LOAD_CONST" (.int 0), i311 "RETURN_VALUE", .label 3, i311 "RERAISE" (.int 0)]

/-- **C61: AssertionError is possible.** This program follows all the rules, it can be assembled with a stack size given, but
`to_code()` raises AssertionError: the jump back is followed as if it did not leave the region. -/
theorem C61_jump_back_refused : WellMade Py311.platform backEx ∧ LabelsOnly backEx ∧ WellTried none [] false backEx.elems ∧
    NoEmptyTry false backEx.elems ∧ Assemblable Py311.platform (zeroDepths backEx) ∧
    (∀ i, BElem.instr i ∈ backEx.elems → ∀ j, ∃ e, eff311 i j = .ok e ∧ 0 ≤ e.2) ∧
    backEx.toCode Py311.platform (id : Arg → Arg) eff311 = .error .assertionError := by
  have hw : WellMade Py311.platform (zeroDepths backEx) := wellMade_spec Py311.wf (by decide +kernel)
  refine ⟨wellMade_spec Py311.wf (by decide +kernel), labelsOnly_of (by decide +kernel), by decide +kernel, by decide +kernel,
    rules_of Py311.wf hw (passes := 10) (by decide +kernel) (by decide +kernel), effs_of (by decide +kernel), ?_⟩
  have : backEx.sized Py311.platform eff311 true = .error .assertionError := by decide +kernel
  unfold Bytecode.toCode
  rw [if_pos (by decide), this]
  rfl

/-- By `C61_to_code_reasons` its graph has a path from inside a region to the beginning of another. -/
example : ∃ c, fromBytecode Py311.platform backEx = .ok c ∧ NestedFlow Py311.platform c := by
  obtain ⟨h1, h2, h3, h4, h5, h6, h7⟩ := C61_jump_back_refused
  rcases C61_to_code_reasons (key := (id : Arg → Arg)) Py311.wf (by decide) (fun i j => effOf_ne _ _ _ (.inr rfl) i j) (effOf_targetFree _ _)
    h1 h2 h3 h4 h5 (locs_none (by decide +kernel)) h6 (passes := 10) (by decide +kernel) h7 with h | ⟨_, h⟩
  · cases h
  · exact h

end Verif
