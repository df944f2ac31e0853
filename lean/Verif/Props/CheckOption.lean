import Verif.Proofs.CheckOption
import Verif.Proofs.CfgToTotal
import Verif.Proofs.Linear
import Verif.Props.EffectsExact
import Verif.Props.StackSizeEx
/-
C86: what the option `check_pre_and_post` of `compute_stacksize` changes.
-/
namespace Verif
open Spec

/-- `LIST_APPEND 0`, `SET_ADD 0`, `MAP_ADD 0` or `MAP_ADD 1`: no compiled code contains them. -/
def AddsToNothing (i : Instr) : Prop :=
  (i.name = "LIST_APPEND" ∧ i.argNat = 0) ∨ (i.name = "SET_ADD" ∧ i.argNat = 0) ∨ (i.name = "MAP_ADD" ∧ i.argNat < 2)

theorem sameSum_of {P : Platform} {s : Bool} {i : Instr} (j : Bool)
    (h : ∃ pre post, i.prePost P (some j) = .ok (pre, post) ∧ i.stackEffect P (some j) = .ok (pre + post) ∧ (s = true → 0 ≤ post)) :
    SameSum s (effOf P true i j) (effOf P false i j) := by
  obtain ⟨pre, post, h1, h2, h3⟩ := h
  refine .inl ⟨pre, post, pre + post, 0, ?_, ?_, by omega, fun hs => by have := h3 hs; omega⟩
  · simp only [effOf, if_true, h1]
  · simp only [effOf, Bool.false_eq_true, if_false, h2]; rfl

theorem sameSum_311_312 {P : Platform} (hP : P ∈ [Py311.platform, Py312.platform]) {i : Instr} (hv : ValidInstr P i) (j : Bool) :
    SameSum false (effOf P true i j) (effOf P false i j) := by
  simp only [List.mem_cons, List.not_mem_nil, or_false] at hP
  rcases hP with rfl | rfl
  · obtain ⟨a, b, h1, h2⟩ := C43_sum_311 i hv (some j)
    exact sameSum_of j ⟨a, b, h1, h2, by simp⟩
  · obtain ⟨a, b, h1, h2⟩ := C43_sum_312 i hv (some j)
    exact sameSum_of j ⟨a, b, h1, h2, by simp⟩

theorem sameSum_311 {i : Instr} (hv : ValidInstr Py311.platform i) (ha : ¬ AddsToNothing i) (j : Bool) :
    SameSum true (effOf Py311.platform true i j) (effOf Py311.platform false i j) := by
  obtain ⟨a, b, h1, h2⟩ := C43_sum_311 i hv (some j)
  refine sameSum_of j ⟨a, b, h1, h2, fun _ => ?_⟩
  have := (C43_signs_exact i hv (some j) a b h1).1
  apply Classical.not_not.1
  intro hb
  exact ha (this.1 (by omega))

/-- **C86 (same result, graph).** With `check_pre_and_post` on or off, `compute_stacksize` returns the same size and records
the same depths, when it succeeds both ways (3.11, 3.12). -/
theorem C86_same {P : Platform} (hP : P ∈ [Py311.platform, Py312.platform]) {c : CFG} (hv : ∀ i, .instr i ∈ allCode c → ValidInstr P i)
    {depths : Bool} {r r' : Int × CFG} (h : c.computeStacksize P (effOf P true) depths = .ok r)
    (h' : c.computeStacksize P (effOf P false) depths = .ok r') : r = r' := by
  rcases computeStacksize_agree (P := P) (s := false) (fun i hi j => sameSum_311_312 hP (hv i hi) j) depths with e | e | ⟨-, e⟩
  · rw [h, h'] at e; cases e; rfl
  · rw [h] at e; cases e
  · rw [h'] at e; cases e

/-- **C86 (failures, graph).** The two ways differ only by a RuntimeError (an underflow): any other exception is raised both
ways or hidden by a RuntimeError. -/
theorem C86_failures {P : Platform} (hP : P ∈ [Py311.platform, Py312.platform]) {c : CFG} (hv : ∀ i, .instr i ∈ allCode c → ValidInstr P i)
    (depths : Bool) : c.computeStacksize P (effOf P true) depths = c.computeStacksize P (effOf P false) depths ∨
      c.computeStacksize P (effOf P true) depths = .error .runtimeError ∨ c.computeStacksize P (effOf P false) depths = .error .runtimeError := by
  rcases computeStacksize_agree (P := P) (s := false) (fun i hi j => sameSum_311_312 hP (hv i hi) j) depths with e | e | ⟨-, e⟩
  · exact .inl e
  · exact .inr (.inl e)
  · exact .inr (.inr e)

theorem Agree.ok {α : Type} {x x' : Py α} {r : α} (h : Agree true x x') (hx : x = .ok r) : x' = .ok r := by
  rcases h with e | e | ⟨h, -⟩
  · rw [← e]; exact hx
  · rw [hx] at e; cases e
  · cases h

theorem Agree.err {α : Type} {x x' : Py α} {e : PyErr} (h : Agree true x x') (hx : x' = .error e) : x = .error e ∨ x = .error .runtimeError := by
  rcases h with h | h | ⟨h, -⟩
  · rw [h]; exact .inl hx
  · exact .inr h
  · cases h

/-- **C86 (the check is stricter, 3.11).** Without the check the analysis accepts whatever it accepts with it, with the same
result, and refuses nothing else than RuntimeError. -/
theorem C86_stricter {c : CFG} (hv : ∀ i, .instr i ∈ allCode c → ValidInstr Py311.platform i)
    (ha : ∀ i, .instr i ∈ allCode c → ¬ AddsToNothing i) (depths : Bool) :
    (∀ r, c.computeStacksize Py311.platform (effOf Py311.platform true) depths = .ok r →
      c.computeStacksize Py311.platform (effOf Py311.platform false) depths = .ok r) ∧
    (∀ e, c.computeStacksize Py311.platform (effOf Py311.platform false) depths = .error e →
      c.computeStacksize Py311.platform (effOf Py311.platform true) depths = .error e ∨
      c.computeStacksize Py311.platform (effOf Py311.platform true) depths = .error .runtimeError) := by
  have h := computeStacksize_agree (P := Py311.platform) (s := true) (fun i hi j => sameSum_311 (hv i hi) (ha i hi) j) depths
  exact ⟨fun r hr => h.ok hr, fun e he => h.err he⟩

/-- The same for the instructions of a graph made from a Bytecode. -/
theorem sameSum_from {P : Platform} {s : Bool} {b : Bytecode} {g : CFG} (hl : LabelsOnly b) (hg : fromBytecode P b = .ok g)
    (hs : ∀ i, .instr i ∈ b.elems → ∀ j, SameSum s (effOf P true i j) (effOf P false i j)) :
    ∀ i, .instr i ∈ allCode g → ∀ j, SameSum s (effOf P true i j) (effOf P false i j) := by
  intro i hi j
  obtain ⟨k, hk, h1, h2, h3, h4⟩ := (from_src hl hg).1 i hi
  have := hs k hk j
  rcases h4 with ⟨n, l, h5, h6, -⟩ | ⟨h5, -⟩
  · have e : i = { k with arg := .block n } := by cases i; cases k; simp_all
    have e' : k = { k with arg := .label l } := by cases k; simp_all
    rw [e, ← effOf_targetFree P true k l n j, ← effOf_targetFree P false k l n j, ← e']
    exact this
  · have e : i = k := by cases i; cases k; simp_all
    rw [e]; exact this

theorem bytecode_agree {P : Platform} {s : Bool} {b : Bytecode} (hl : LabelsOnly b)
    (hs : ∀ i, .instr i ∈ b.elems → ∀ j, SameSum s (effOf P true i j) (effOf P false i j)) :
    Agree s (b.computeStacksize P (effOf P true)) (b.computeStacksize P (effOf P false)) := by
  cases hg : fromBytecode P b with
  | error e =>
    have h : ∀ eff, b.computeStacksize P eff = .error e := by
      intro eff
      unfold Bytecode.computeStacksize
      rw [hg]
      rfl
    rw [h, h]
    exact .refl _
  | ok g =>
    have h : ∀ eff, b.computeStacksize P eff = g.computeStacksize P eff >>= fun r => .ok r.1 := by
      intro eff
      unfold Bytecode.computeStacksize
      rw [hg]
      rfl
    rw [h, h]
    exact Agree.bind (computeStacksize_agree (P := P) (s := s) (sameSum_from hl hg hs) true) (fun a => .refl _)

/-- **C86 (Bytecode).** The same for `Bytecode.compute_stacksize`: the two ways differ only by a RuntimeError. -/
theorem C86_bytecode {P : Platform} (hP : P ∈ [Py311.platform, Py312.platform]) {b : Bytecode} (hl : LabelsOnly b)
    (hv : ∀ i, .instr i ∈ b.elems → ValidInstr P i) : b.computeStacksize P (effOf P true) = b.computeStacksize P (effOf P false) ∨
      b.computeStacksize P (effOf P true) = .error .runtimeError ∨ b.computeStacksize P (effOf P false) = .error .runtimeError := by
  rcases bytecode_agree hl (fun i hi j => sameSum_311_312 hP (hv i hi) j) with e | e | ⟨-, e⟩
  · exact .inl e
  · exact .inr (.inl e)
  · exact .inr (.inr e)

/-- **C86 (Bytecode, the check is stricter, 3.11).** -/
theorem C86_bytecode_stricter {b : Bytecode} (hl : LabelsOnly b) (hv : ∀ i, .instr i ∈ b.elems → ValidInstr Py311.platform i)
    (ha : ∀ i, .instr i ∈ b.elems → ¬ AddsToNothing i) {n : Int} (h : b.computeStacksize Py311.platform (effOf Py311.platform true) = .ok n) :
    b.computeStacksize Py311.platform (effOf Py311.platform false) = .ok n :=
  Agree.ok (bytecode_agree hl (fun i hi j => sameSum_311 (hv i hi) (ha i hi) j)) h

/-! ### Examples -/

/-- The exception, if any. -/
def sizeErr (r : Py (Int × CFG)) : Option PyErr :=
  match r with
  | .ok _ => none
  | .error e => some e

instance (i : Instr) : Decidable (AddsToNothing i) := by unfold AddsToNothing; infer_instance

example : (∀ i, .instr i ∈ allCode loop311 → ValidInstr Py311.platform i) ∧ ∀ i, .instr i ∈ allCode loop311 → ¬ AddsToNothing i := by
  refine ⟨fun i hi => made_valid Py311.wf (es := allCode loop311) (by decide +kernel) i hi, ?_⟩
  have h : (allCode loop311).all (fun | .instr i => decide (¬ AddsToNothing i) | _ => true) = true := by decide +kernel
  intro i hi
  simpa using List.all_eq_true.1 h _ hi

/-- With the check the size of this loop is 3 (Props/StackSizeEx); so it is without. -/
example {g : CFG} (h : loop311.computeStacksize Py311.platform (effOf Py311.platform true) = .ok (3, g)) :
    loop311.computeStacksize Py311.platform (effOf Py311.platform false) = .ok (3, g) := by
  refine (C86_stricter (fun i hi => made_valid Py311.wf (es := allCode loop311) (by decide +kernel) i hi) ?_ true).1 _ h
  have h : (allCode loop311).all (fun | .instr i => decide (¬ AddsToNothing i) | _ => true) = true := by decide +kernel
  intro i hi
  simpa using List.all_eq_true.1 h _ hi

/-- Without the check a SWAP on an empty stack is not noticed. -/
theorem C86_check_needed :
    let c := mkCFG [⟨[i311 "SWAP" (.int 2), i311 "LOAD_CONST" (.int 1), i311 "RETURN_VALUE"], none⟩]
    sizeErr (c.computeStacksize Py311.platform (effOf Py311.platform true)) = some .runtimeError ∧
    (c.computeStacksize Py311.platform (effOf Py311.platform false)).toOption.map Prod.fst = some 1 := by decide +kernel

/-- The exception in `C86_stricter` is needed: LIST_APPEND 0 on an empty stack is noticed only without the check. -/
theorem C86_stricter_false :
    let c := mkCFG [⟨[i311 "LIST_APPEND" (.int 0), i311 "LOAD_CONST" (.int 1), i311 "LOAD_CONST" (.int 1), i311 "RETURN_VALUE"], none⟩]
    (c.computeStacksize Py311.platform (effOf Py311.platform true)).toOption.map Prod.fst = some 1 ∧
    sizeErr (c.computeStacksize Py311.platform (effOf Py311.platform false)) = some .runtimeError := by decide +kernel

end Verif
