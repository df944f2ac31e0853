import Verif.Props.ConvertBack
import Verif.Props.ToBytecodeEx
/-
C80: each of the three exceptions occurs, at its boundary; the theorem on the case of the round trip examples.
-/
namespace Verif
open Spec

/-- What the conversion back raises (`outOfFuel`, which no conversion raises, if the first conversion fails). -/
def backErr (P : Platform) (es : List BElem) (prune : Bool := true) : Option PyErr :=
  match toConcrete P (id : Arg → Arg) 10 ⟨Attrs.default, [], es⟩ with
  | .ok c => match toBytecode P prune true c with
    | .ok _ => none
    | .error e => some e
  | .error _ => some .outOfFuel

open Py311 in
/-- A jump to the last instruction, one to the end; a handler at the last instruction, one at the end. -/
example :
    backErr platform [ins platform "JUMP_FORWARD" (.label 0), .label 0, ins platform "NOP"] = none ∧
    backErr platform [ins platform "JUMP_FORWARD" (.label 0), ins platform "NOP", .label 0, .setLineno 3] = some .keyError ∧
    backErr platform [.label 0, ins platform "JUMP_FORWARD" (.label 0), .label 0] = some .keyError ∧
    backErr platform [.tryBegin ⟨0, 0, false, some 0⟩, ins platform "NOP", .tryEnd 0, .label 0, ins platform "NOP"] = none ∧
    backErr platform [.tryBegin ⟨0, 0, false, some 0⟩, ins platform "NOP", .tryEnd 0, .label 0] = some .keyError ∧
    -- a label at the end nothing goes to
    backErr platform [ins platform "NOP", .label 0] = none := by decide +kernel

open Py311 in
/-- An empty region followed by a region: at the same instruction, then not. An empty region alone is converted. -/
example :
    backErr platform [.label 0, ins platform "NOP", .tryBegin ⟨0, 0, false, some 0⟩, .tryEnd 0, .tryBegin ⟨1, 0, false, some 0⟩, ins platform "NOP", .tryEnd 1] =
      some .assertionError ∧
    backErr platform [.label 0, ins platform "NOP", .tryBegin ⟨0, 0, false, some 0⟩, .tryEnd 0, ins platform "NOP", .tryBegin ⟨1, 0, false, some 0⟩,
      ins platform "NOP", .tryEnd 1] = none := by decide +kernel

open Py311 in
/-- CACHE entries with and without `prune_caches`. -/
example : backErr platform [ins platform "LOAD_GLOBAL" (.tuple [.bool true, .str "print"])] = none ∧
    backErr platform [ins platform "LOAD_GLOBAL" (.tuple [.bool true, .str "print"])] false = some .valueError ∧
    backErr platform [ins platform "LOAD_FAST" (.str "x")] false = none := by decide +kernel

theorem intrinsicOK_of {es : List BElem} (h : es.all (fun e => match e with
    | .instr i => (match i.arg with | .intr1 v => decide (v ≤ 11) | .intr2 v => decide (v ≤ 4) | _ => true)
    | _ => true) = true) : ∀ i, .instr i ∈ es → IntrinsicOK i := by
  intro i hi
  have := List.all_eq_true.1 h _ hi
  simp only at this
  refine ⟨fun v hv => ?_, fun v hv => ?_⟩ <;> (rw [hv] at this; simpa using this)

theorem notAtEnd_of {es : List BElem} (h : ∃ pre i, es = pre ++ [BElem.instr i]) (l : Nat) : ¬ AtEnd es l := by
  rintro ⟨pre, post, h1, h2⟩
  obtain ⟨pre', i, h3⟩ := h
  have hl : es.getLast? = some (.instr i) := by rw [h3]; simp
  rw [h1] at hl
  cases hp : post with
  | nil => rw [hp] at hl; simp at hl
  | cons x post' =>
    have : post.getLast? = some (.instr i) := by
      rw [hp] at hl ⊢
      rw [List.getLast?_append, List.getLast?_cons_cons] at hl
      cases hx : (x :: post').getLast? with
      | none => simp at hx
      | some y => rw [hx] at hl; simpa using hl
    exact h2 i (List.mem_of_getLast? this)

/-- The hypotheses of `C80_back` and `C80_default` on `ex311`: a jump forward, one backward, a handler, cells, a comparison. -/
example : ∃ c b', toConcrete Py311.platform (id : Arg → Arg) 10 ex311 = .ok c ∧ toBytecode Py311.platform true true c = .ok b' ∧
    toBytecode Py311.platform false true c = .error .valueError := by
  have hc := noCache_spec (es := ex311.elems) (by decide +kernel)
  have hv := made_valid Py311.wf (es := ex311.elems) (by decide +kernel)
  have hw : WellTried none [] false ex311.elems := by decide +kernel
  have hin := intrinsicOK_of (es := ex311.elems) (by decide +kernel)
  have hkey : ∀ x y : Arg, (id x : Arg) = id y → IsValue y → IsValue x := by rintro x y rfl h; exact h
  have hok : (match toConcrete Py311.platform (id : Arg → Arg) 10 ex311 with | .ok c => hasCaches c | .error _ => false) = true := by decide +kernel
  cases h : toConcrete Py311.platform (id : Arg → Arg) 10 ex311 with
  | error e => rw [h] at hok; cases hok
  | ok c =>
    rw [h] at hok
    have hop : ∀ i, .instr i ∈ ex311.elems → OperandOK Py311.platform c.varnames i := by
      intro i hi
      have hall : ex311.elems.all (fun e => match e with
        | .instr i => !Py311.platform.dual i.opcode && (match i.arg with | .compare v => decide (CompareMember Py311.platform v) | _ => true)
        | _ => true) = true := by decide +kernel
      have := List.all_eq_true.1 hall _ hi
      simp only [Bool.and_eq_true, Bool.not_eq_true'] at this
      refine ⟨fun _ v hv => ?_, fun hd => ?_⟩
      · have h2 := this.2; rw [hv] at h2; simpa using h2
      · rw [this.1] at hd; cases hd
    have hf : FreeApart Py311.platform c := fun h13 => by cases h13
    obtain ⟨b', hb⟩ := C80_default (conserve := true) Py311.wf hc hv h hw hf hop hin hkey (notAtEnd_of ⟨ex311.elems.dropLast, _, rfl⟩) (by decide +kernel)
    refine ⟨c, b', rfl, hb, ?_⟩
    have hback := C80_back (prune := false) (conserve := true) Py311.wf hc hv h hw hf hop hin hkey
    cases hx : toBytecode Py311.platform false true c with
    | ok b'' => exact absurd (NotBack.caches hok rfl) (hback.1.1 ⟨b'', hx⟩ _)
    | error e =>
      have := hback.2 e hx
      cases this with
      | same hs =>
        have := (C80_back (prune := true) (conserve := true) Py311.wf hc hv h hw hf hop hin hkey).1.1 ⟨b', hb⟩ _ (.same hs)
        exact this.elim
      | atEnd _ he => exact absurd he (notAtEnd_of ⟨ex311.elems.dropLast, _, rfl⟩ _)
      | caches _ _ => rfl

end Verif
