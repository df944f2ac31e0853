import Verif.Props.LinearSize
import Verif.Props.StackSizeEx
/-
C55 on a concrete loop: a list of depths, one for each instruction, that every instruction respects, is a proof that each
instruction is always met with the same number of values.
-/
namespace Verif
open Spec

/-- The depths `m` (one for each instruction, and one for the end) are respected by every instruction. -/
def depthsCheck (P : Platform) (eff : Instr → Bool → Py (Int × Int)) (b : Bytecode) (d0 : Int) (m : List Int) : Bool :=
  decide (m[0]? = some d0) &&
  (List.range (instrsB b).length).all (fun k =>
    match (instrsB b)[k]?, m[k]? with
    | some i, some d =>
      (match eff i false with
        | .ok e => isFinal i.name || decide (m[k + 1]? = some (d + e.1 + e.2))
        | .error _ => true) &&
      (match i.arg with
        | .label l => (match labelAt l b.elems with
          | some n => (match eff i true with
            | .ok e => decide (m[n]? = some (d + e.1 + e.2))
            | .error _ => true)
          | none => true)
        | _ => true)
    | _, _ => true)

theorem depths_sound {P : Platform} {eff : Instr → Bool → Py (Int × Int)} {b : Bytecode} {d0 : Int} {m : List Int}
    (h : depthsCheck P eff b d0 m = true) : ∀ x, LOnPath P eff b d0 x → ∀ k, x.pos = some k → m[k]? = some x.depth := by
  unfold depthsCheck at h
  rw [Bool.and_eq_true, decide_eq_true_eq] at h
  obtain ⟨h0, h⟩ := h
  intro x hx
  induction hx with
  | refl => rintro k ⟨⟩; exact h0
  | tail _ hs ih =>
    obtain ⟨e, hs⟩ := hs
    cases hs with
    | @go k d i e g1 g2 g3 =>
      rintro k' ⟨⟩
      have hm := ih k rfl
      have := List.all_eq_true.1 h k (List.mem_range.2 (List.getElem?_eq_some_iff.1 g1).1)
      simp only [g1, hm, g3, g2, Bool.false_or, Bool.and_eq_true, decide_eq_true_eq] at this
      exact this.1
    | @jump k d i e l n g1 g2 g3 g4 g5 =>
      rintro k' ⟨⟩
      have hm := ih k rfl
      have := List.all_eq_true.1 h k (List.mem_range.2 (List.getElem?_eq_some_iff.1 g1).1)
      simp only [g1, hm, g3, g4, g5, Bool.and_eq_true, decide_eq_true_eq] at this
      exact this.2
    | stop _ _ _ _ => rintro k ⟨⟩

theorem lconsistent_of {P : Platform} {eff : Instr → Bool → Py (Int × Int)} {b : Bytecode} {d0 : Int} {m : List Int}
    (h : depthsCheck P eff b d0 m = true) :
    ∀ k a s, LOnPath P eff b d0 ⟨some k, a⟩ → LOnPath P eff b d0 ⟨some k, s⟩ → a = s := by
  intro k a s ha hs
  have h1 := depths_sound h _ ha k rfl
  have h2 := depths_sound h _ hs k rfl
  rw [h1] at h2
  exact Option.some.inj h2

/-- 3.11: `for x in it: if not x: 1 + 2`, with line markers. -/
def loopB : Bytecode where
  attrs := Attrs.default
  argnames := ["it"]
  elems := [i311 "RESUME" (.int 0), .setLineno 2, i311 "LOAD_FAST" (.str "it"), i311 "GET_ITER", .label 1, i311 "FOR_ITER" (.label 2),
    i311 "STORE_FAST" (.str "x"), .setLineno 3, i311 "LOAD_FAST" (.str "x"), i311 "POP_JUMP_BACKWARD_IF_TRUE" (.label 1),
    i311 "LOAD_CONST" (.int 1), i311 "LOAD_CONST" (.int 2), i311 "BINARY_OP" (.int 0), i311 "POP_TOP", i311 "JUMP_BACKWARD" (.label 1),
    .label 2, i311 "LOAD_CONST" (.other 0), i311 "RETURN_VALUE"]

/-- The Bytecode that is assembled. -/
def loopBSized : Bytecode where
  attrs := Attrs.default
  argnames := ["it"]
  elems := [i311 "RESUME" (.int 0), .setLineno 2, i311 "LOAD_FAST" (.str "it"), i311 "GET_ITER", .label 1, i311 "FOR_ITER" (.label 4),
    i311 "STORE_FAST" (.str "x"), .setLineno 3, i311 "LOAD_FAST" (.str "x"), i311 "POP_JUMP_BACKWARD_IF_TRUE" (.label 1),
    i311 "LOAD_CONST" (.int 1), i311 "LOAD_CONST" (.int 2), i311 "BINARY_OP" (.int 0), i311 "POP_TOP", i311 "JUMP_BACKWARD" (.label 1),
    .label 4, i311 "LOAD_CONST" (.other 0), i311 "RETURN_VALUE"]

theorem loopB_sized : loopB.sized Py311.platform eff311 true = .ok (3, loopBSized) := toOption_ok (by decide +kernel)

theorem loopB_code : ∃ co, loopB.toCode Py311.platform (id : Arg → Arg) eff311 = .ok co ∧ co.stacksize = 3 := by
  unfold Bytecode.toCode
  rw [if_pos (by decide), loopB_sized]
  have h : ((toConcrete Py311.platform (id : Arg → Arg) 10 loopBSized).toOption.bind (fun c => (c.emit Py311.platform 3).toOption)).isSome = true := by
    decide +kernel
  show ∃ co, (toConcrete Py311.platform (id : Arg → Arg) 10 loopBSized >>= fun c => c.emit Py311.platform 3) = .ok co ∧ _
  cases hc : toConcrete Py311.platform (id : Arg → Arg) 10 loopBSized with
  | error e => rw [hc] at h; cases h
  | ok c =>
    rw [hc] at h
    cases he : c.emit Py311.platform 3 with
    | error e => simp [Except.toOption, he] at h
    | ok co => exact ⟨co, he, emit_stacksize he⟩

/-- The hypotheses of C55 hold for the loop, with the effects of the library: its three values suffice, are needed, and nothing
underflows. -/
example : ∃ co, loopB.toCode Py311.platform (id : Arg → Arg) eff311 = .ok co ∧ made Py311.platform loopB.elems = true ∧
    (∀ x, LOnPath Py311.platform eff311 loopB 0 x → x.depth ≤ 3) ∧ ¬ LUnderflows Py311.platform eff311 loopB 0 ∧
    ∃ x, LOnPath Py311.platform eff311 loopB 0 x ∧ x.depth = 3 := by
  obtain ⟨co, h, hs⟩ := loopB_code
  have hno : ∀ t, BElem.tryBegin t ∉ loopB.elems := by
    intro t ht
    have h1 : loopB.elems.all (fun | .tryBegin _ => false | _ => true) = true := by decide +kernel
    have := List.all_eq_true.1 h1 _ ht
    cases this
  have hd : depthsCheck Py311.platform eff311 loopB 0 [0, 0, 1, 1, 2, 1, 2, 1, 2, 3, 2, 1, 0, 1, 0] = true := by decide +kernel
  obtain ⟨r1, r2, r3⟩ := C55_to_code_partial Py311.platform (id : Arg → Arg) eff311 (fun i j => effOf_ne _ _ _ (.inl rfl) i j)
    (effOf_targetFree _ _) loopB (labelsOnly_of (by decide +kernel)) hno 10 none true (.inl rfl) (lconsistent_of hd) co h
  rw [hs] at r1 r3
  refine ⟨co, h, by decide +kernel, fun x hx => ?_, r2, r3 (by decide)⟩
  rcases r1 x hx with h | h
  · exact h
  · rw [h]; decide +kernel

/-- And a real underflow is reported. -/
example : LUnderflows Py311.platform eff311 ⟨Attrs.default, [], [i311 "LOAD_CONST" (.int 1), i311 "POP_TOP", i311 "POP_TOP"]⟩ 0 := by
  refine C55_raises Py311.platform eff311 (fun i j => effOf_ne _ _ _ (.inl rfl) i j) (effOf_targetFree _ _)
    ⟨Attrs.default, [], [i311 "LOAD_CONST" (.int 1), i311 "POP_TOP", i311 "POP_TOP"]⟩ (labelsOnly_of (by decide +kernel)) ?_ ?_
  · intro t ht
    simp [i311, ins] at ht
  · decide +kernel

end Verif
