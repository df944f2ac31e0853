import Verif.Proofs.Unreadable
import Verif.Props.DecodeErrors
import Verif.Props.RealEx
/-
C81: an exception of from_code names the mistake.
-/
namespace Verif
open Spec
variable {P : Platform} {co : Code}

theorem listable_iff : (∀ h ∈ heads P 0 0 co.code, Listable P ((readLocs co.firstlineno co.linetable).getD []) h) ↔ ¬ Unlistable P co := by
  constructor
  · intro h hu
    cases hu with
    | opcode hm hx =>
      obtain ⟨⟨n, h1⟩, h2, _⟩ := h _ hm
      rcases hx with hx | hx
      · rw [h1] at hx; cases hx
      · exact absurd h2 (by simp only; omega)
    | @position u op k hm hk hx =>
      obtain ⟨_, _, h3⟩ := h _ hm
      exact hx (h3 k hk)
  · intro hu h hm
    obtain ⟨u, op⟩ := h
    refine ⟨?_, ?_, ?_⟩
    · cases hn : P.opname op with
      | some n => exact ⟨n, rfl⟩
      | none => exact absurd (.opcode hm (.inl hn)) hu
    · apply Nat.lt_of_not_le
      intro hx
      exact hu (.opcode hm (.inr hx))
    · intro k hk
      apply Classical.byContradiction
      intro hx
      exact hu (.position hm hk hx)

/-- The code is listed exactly when each opcode has a name and each position is accepted. -/
theorem listing_says (hP : P.WF) (h11 : P.py311 = true) (hb : ∀ b ∈ co.code, b < 256) :
    (∃ us, disCode P 0 ((readLocs co.firstlineno co.linetable).getD []) co.code = .ok us ∧ ¬ Unlistable P co ∧ (∀ u ∈ us, ValidCInstr P u) ∧
      ∀ e, BadPrefix us e ↔ BadExtended P co e) ∨
    disCode P 0 ((readLocs co.firstlineno co.linetable).getD []) co.code = .error .valueError ∧ Unlistable P co := by
  rcases disCode_says hP h11 ((readLocs co.firstlineno co.linetable).getD []) co.code.length 0 0 co.code (Nat.le_refl _) hb with ⟨us, h1, h2, h3⟩ | ⟨h1, h, hm, h2⟩
  · left
    refine ⟨us, h1, listable_iff.1 h2, disCode_valid P _ 0 _ _ us (Nat.le_refl _) h1, ?_⟩
    intro e
    have := listed_prefix hP h3 hb (e := e) [] [] 0 0 rfl (fun _ => rfl) (fun _ => rfl)
    simp only [List.nil_append] at this
    rw [this]
    constructor
    · rintro (⟨rfl, h⟩ | ⟨f, hf, rfl, h4, h5, h6⟩ | ⟨f, hf, rfl, h4, h5⟩)
      · exact .dangling h
      · exact .noArg hf h4 h5 h6
      · exact .large hf h4 h5
    · intro h
      cases h with
      | dangling h => exact .inl ⟨rfl, h⟩
      | noArg hf h4 h5 h6 => exact .inr (.inl ⟨_, hf, rfl, h4, h5, h6⟩)
      | large hf h4 h5 => exact .inr (.inr ⟨_, hf, rfl, h4, h5⟩)
  · right
    refine ⟨h1, ?_⟩
    apply Classical.byContradiction
    intro hx
    exact h2 (listable_iff.2 hx h hm)

theorem reading_says (hP : P.WF) (h11 : P.py311 = true) (hb : ∀ b ∈ co.code, b < 256) :
    (∃ c, Concrete.fromCode P co = .ok c ∧ (∀ e, ¬ Unreadable P co e) ∧ ∀ ci, .instr ci ∈ c.elems → ValidCInstr P ci ∧ ci.name ≠ "EXTENDED_ARG") ∨
    ∃ e, Concrete.fromCode P co = .error e ∧ Unreadable P co e := by
  unfold Concrete.fromCode
  rcases listing_says hP h11 hb with ⟨us, h1, h2, h3, h4⟩ | ⟨h1, h2⟩
  · rw [h1]
    simp only [bind, Except.bind, Bool.false_eq_true, if_false]
    have hv : ∀ ci, CElem.instr ci ∈ us.map .instr → ValidCInstr P ci := by
      intro ci hci
      simp only [List.mem_map, CElem.instr.injEq, exists_eq_right] at hci
      exact h3 ci hci
    have hi : instrsOf (us.map .instr) = us := by
      clear h1 h3 h4 hv
      induction us with
      | nil => rfl
      | cons u us ih => simpa [instrsOf] using ih
    rcases removeExtendedArgs_says hP (us.map .instr) hv [] [] rfl 0 with ⟨es, h5, h6, h7⟩ | ⟨e, h5, h6⟩
    · left
      have h5 : removeExtendedArgs P 0 none (us.map .instr) = .ok es := h5
      rw [h5]
      refine ⟨_, rfl, ?_, ?_⟩
      · intro e hx
        cases hx with
        | listing hx => exact h2 hx
        | extended hx =>
          apply h6 e
          rw [hi]
          exact (h4 e).2 hx
      · intro ci hci
        exact ⟨removeExtendedArgs_valid P _ hv _ _ _ h5 ci hci, h7 ci hci⟩
    · right
      have h5 : removeExtendedArgs P 0 none (us.map .instr) = .error e := h5
      rw [h5]
      rw [hi] at h6
      exact ⟨e, rfl, .extended ((h4 e).1 h6)⟩
  · right
    rw [h1]
    exact ⟨.valueError, rfl, .listing h2⟩

/-- **C81.** An exception of `ConcreteBytecode.from_code` (3.11+) names the mistake: ValueError for an opcode without a name or an
instrumented one, for a position that InstrLocation does not accept, for an EXTENDED_ARG at the end of the code and for an argument that does not fit
in 31 bits; TypeError for an EXTENDED_ARG before an opcode without argument (NOP apart). -/
theorem C81_says (hP : P.WF) (h11 : P.py311 = true) (hb : ∀ b ∈ co.code, b < 256) {e : PyErr} (h : Concrete.fromCode P co = .error e) :
    Unreadable P co e := by
  rcases reading_says hP h11 hb with ⟨c, h1, _⟩ | ⟨e', h1, h2⟩
  · rw [h] at h1; cases h1
  · rw [h] at h1; cases h1; exact h2

/-- **C81.** A code object is read exactly when nothing is wrong with it — whatever the inline caches contain, whatever the argument
bytes of opcodes without argument, whatever the exception table. -/
theorem C81_iff (hP : P.WF) (h11 : P.py311 = true) (hb : ∀ b ∈ co.code, b < 256) :
    (∃ c, Concrete.fromCode P co = .ok c) ↔ ∀ e, ¬ Unreadable P co e := by
  rcases reading_says hP h11 hb with ⟨c, h1, h2, _⟩ | ⟨e, h1, h2⟩
  · exact ⟨fun _ => h2, fun _ => ⟨c, h1⟩⟩
  · exact ⟨fun ⟨c, h⟩ => (by rw [h] at h1; cases h1), fun h => absurd h2 (h e)⟩

/-- **C81.** With `extended_arg=True`, only an opcode or a position can be wrong: ValueError. -/
theorem C81_extended_arg (hP : P.WF) (h11 : P.py311 = true) (hb : ∀ b ∈ co.code, b < 256) :
    ((∃ c, Concrete.fromCode P co true = .ok c) ↔ ¬ Unlistable P co) ∧
    (∀ e, Concrete.fromCode P co true = .error e → e = .valueError ∧ Unlistable P co) := by
  unfold Concrete.fromCode
  rcases listing_says hP h11 hb with ⟨us, h1, h2, h3, h4⟩ | ⟨h1, h2⟩
  · rw [h1]
    simp only [bind, Except.bind, if_true]
    exact ⟨⟨fun _ => h2, fun _ => ⟨_, rfl⟩⟩, fun e h => by cases h⟩
  · rw [h1]
    refine ⟨⟨fun ⟨c, h⟩ => (by cases h), fun h => absurd h2 h⟩, fun e h => ?_⟩
    cases h
    exact ⟨rfl, h2⟩

/-- **C81.** An exception of `Bytecode.from_code` says what is wrong with the code object or — when it can be read — with the
ConcreteBytecode read from it; and it succeeds exactly when nothing is. -/
theorem C81_bytecode (hP : P.WF) (h11 : P.py311 = true) (hb : ∀ b ∈ co.code, b < 256) (prune conserve : Bool) :
    (∀ e, Bytecode.fromCode P co prune conserve = .error e →
      Unreadable P co e ∨ ∃ c, Concrete.fromCode P co = .ok c ∧ Undecodable P c prune c.elems e) ∧
    ((∃ b, Bytecode.fromCode P co prune conserve = .ok b) ↔
      (∀ e, ¬ Unreadable P co e) ∧ ∀ c, Concrete.fromCode P co = .ok c → ∀ e, ¬ Undecodable P c prune c.elems e) := by
  unfold Bytecode.fromCode
  rcases reading_says hP h11 hb with ⟨c, h1, h2, h3⟩ | ⟨e, h1, h2⟩
  · rw [h1]
    simp only [bind, Except.bind]
    obtain ⟨h4, h5⟩ := C79_plain (prune := prune) (conserve := conserve) hP (fun ci hci => (h3 ci hci).1) (fun ci hci => (h3 ci hci).2)
    refine ⟨fun e h => .inr ⟨c, rfl, h5 e h⟩, ?_⟩
    rw [h4]
    constructor
    · intro h
      refine ⟨h2, ?_⟩
      intro c' hc
      cases hc
      exact h
    · rintro ⟨_, h⟩
      exact h c rfl
  · rw [h1]
    refine ⟨fun e' h => ?_, ⟨fun ⟨b, h⟩ => (by cases h), fun ⟨h, _⟩ => absurd h2 (h e)⟩⟩
    cases h
    exact .inl h2

/-! ### Cases -/

def readErr (P : Platform) (code : Bytes) (linetable : Bytes := []) (ext : Bool := false) : Option PyErr :=
  match Concrete.fromCode P { realCode with code := code, linetable := linetable } ext with
  | .ok _ => none
  | .error e => some e

open Py311 in
/-- Each mistake occurs: an opcode without a name, EXTENDED_ARG at the end, before RETURN_VALUE, and 0x80000000 as an argument; a
position with columns out of order. Nothing is wrong with EXTENDED_ARG before NOP, with caches or argument bytes that are not 0, with
0x7fffffff, and with most of this when `extended_arg=True`. -/
example :
    readErr platform [3, 0] = some .valueError ∧ readErr platform [144, 1] = some .valueError ∧ readErr platform [144, 1, 83, 0] = some .typeError ∧
    readErr platform [144, 128, 144, 0, 144, 0, 100, 0] = some .valueError ∧ readErr platform [144, 127, 144, 255, 144, 255, 100, 255] = none ∧
    readErr platform [144, 1, 9, 0] = none ∧ readErr platform [9, 7] = none ∧
    readErr platform [100, 0] [240, 0, 0, 3, 2] = some .valueError ∧ readErr platform [100, 0] [240, 0, 0, 2, 3] = none ∧
    readErr platform [144, 1] [] true = none ∧ readErr platform [144, 1, 83, 0] [] true = none ∧ readErr platform [3, 0] [] true = some .valueError := by
  decide +kernel

/-- A code object as compiled by CPython is read. -/
example : (∀ b ∈ realCode.code, b < 256) ∧ ∀ e, ¬ Unreadable Py311.platform realCode e := by
  have hb : ∀ b ∈ realCode.code, b < 256 := by decide +kernel
  refine ⟨hb, (C81_iff Py311.wf (by decide) hb).1 ?_⟩
  cases h : Concrete.fromCode Py311.platform realCode with
  | ok c => exact ⟨c, rfl⟩
  | error e =>
    exfalso
    have : (match Concrete.fromCode Py311.platform realCode with | .ok _ => true | .error _ => false) = true := by decide +kernel
    rw [h] at this
    cases this

end Verif
