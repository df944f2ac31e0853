import Verif.Model.Instr
import Verif.Spec.ControlFlow
import Verif.Instances.Py39
import Verif.Instances.Py310
import Verif.Instances.Py311
import Verif.Instances.Py312
import Verif.Instances.Py313
/-
C67: the predicates of instructions about control flow say what CPython does.
-/
namespace Verif
open Spec

/-- **C67 (unconditional jumps).** `is_uncond_jump()` is true exactly of the instructions that always jump, for every name. -/
theorem C67_uncond (n : String) : isUncondJump n = true ↔ flow n = .jump := by
  simp only [isUncondJump, Bool.or_eq_true, beq_iff_eq, flow]
  constructor
  · rintro (((h | h) | h) | h) <;> (subst h; decide)
  · intro h
    by_cases hn : n ∈ gotos
    · simpa [gotos, or_assoc] using hn
    · rw [if_neg hn] at h
      repeat' split at h
      all_goals cases h

/-- **C67 (final instructions).** `is_final()` is true exactly of the instructions control never goes on from (and of two names no
release from 3.8 has). -/
theorem C67_final (n : String) : isFinal n = true ↔ flow n = .exit ∨ flow n = .jump ∨ n = "BREAK_LOOP" ∨ n = "CONTINUE_LOOP" := by
  rw [← C67_uncond]
  simp only [isFinal, Bool.or_eq_true, beq_iff_eq]
  constructor
  · rintro ((((((h | h) | h) | h) | h) | h) | h)
    · subst h; left; decide
    · subst h; left; decide
    · subst h; left; decide
    · subst h; left; decide
    · exact .inr (.inr (.inl h))
    · exact .inr (.inr (.inr h))
    · exact .inr (.inl h)
  · rintro (h | h | h | h)
    · by_cases hn : n ∈ exits
      · simp only [exits, List.mem_cons, List.not_mem_nil, or_false] at hn
        rcases hn with h | h | h | h <;> simp [h]
      · unfold flow at h
        rw [if_neg hn] at h
        repeat' split at h
        all_goals cases h
    · exact .inr h
    · simp [h]
    · simp [h]

/-- The platforms of the model. -/
def platforms : List Platform := [Py39.platform, Py310.platform, Py311.platform, Py312.platform, Py313.platform]

/-- What C67 says of one opcode. -/
def flowOK (P : Platform) (n : String) (op : Nat) : Bool :=
  (P.hasJump op == (flow n == .jump || flow n == .branch || flow n == .setup)) &&
  (!isCondJump n || flow n == .branch) && (flow n != .branch || isCondJump n || n == "FOR_ITER" || n == "SEND") &&
  (isBackwardRelJump P n op == (P.hasJump op && backwards.contains n)) &&
  ((if isAbsJump P op then 1 else 0) + (if isForwardRelJump P n op then 1 else 0) + (if isBackwardRelJump P n op then 1 else 0) ==
    if P.hasJump op then 1 else 0) &&
  (P.minor < 11 || !isAbsJump P op)

theorem table_all {minor : Nat} {table : List (String × Nat)} {caches : List (Nat × Nat)} {hasArg : Nat → Bool} {mi ea : Nat} {l1 l2 l3 l4 l5 l6 l7 : List Nat}
    {se : Nat → Option Nat → Option Bool → Option Int} {f : Platform → String → Nat → Bool}
    (h : table.all (fun p => decide (mi ≤ p.2) || f (mkPlatform minor table caches hasArg mi ea l1 l2 l3 l4 l5 l6 l7 se) p.1 p.2) = true)
    {n : String} {op : Nat} (hn : (mkPlatform minor table caches hasArg mi ea l1 l2 l3 l4 l5 l6 l7 se).opmap n = some op) (hb : op < mi) :
    f (mkPlatform minor table caches hasArg mi ea l1 l2 l3 l4 l5 l6 l7 se) n op = true := by
  simp only [mkPlatform] at hn
  cases hf : table.find? (fun p => p.1 == n) with
  | none => rw [hf] at hn; cases hn
  | some p =>
    rw [hf] at hn
    have h1 := List.find?_some hf
    have h2 := List.mem_of_find?_eq_some hf
    simp only [beq_iff_eq] at h1
    simp only [Option.map_some, Option.some.injEq] at hn
    have := List.all_eq_true.1 h p h2
    simp only [Bool.or_eq_true, decide_eq_true_iff] at this
    subst h1 hn
    rcases this with h | h
    · omega
    · exact h

theorem flow_all {P : Platform} (hP : P ∈ platforms) {n : String} {op : Nat} (h : P.opmap n = some op) (hb : op < P.minInstrumented) : flowOK P n op = true := by
  simp only [platforms, List.mem_cons, List.not_mem_nil, or_false] at hP
  rcases hP with rfl | rfl | rfl | rfl | rfl
  · exact table_all (f := flowOK) (by decide +kernel) h hb
  · exact table_all (f := flowOK) (by decide +kernel) h hb
  · exact table_all (f := flowOK) (by decide +kernel) h hb
  · exact table_all (f := flowOK) (by decide +kernel) h hb
  · exact table_all (f := flowOK) (by decide +kernel) h hb

/-- **C67 (jumps).** For every opcode of a release, `has_jump()` is true exactly when the instruction has a target. -/
theorem C67_has_jump {P : Platform} (hP : P ∈ platforms) {n : String} {op : Nat} (h : P.opmap n = some op) (hb : op < P.minInstrumented) :
    P.hasJump op = true ↔ flow n = .jump ∨ flow n = .branch ∨ flow n = .setup := by
  have := flow_all hP h hb
  simp only [flowOK, Bool.and_eq_true, beq_iff_eq] at this
  rw [this.1.1.1.1.1]
  simp [or_assoc]

/-- **C67 (conditional jumps).** For every opcode of a release, if `is_cond_jump()` is true then the instruction either jumps or
goes on. The converse holds but for FOR_ITER and SEND. -/
theorem C67_cond_partial {P : Platform} (hP : P ∈ platforms) {n : String} {op : Nat} (h : P.opmap n = some op) (hb : op < P.minInstrumented) :
    (isCondJump n = true → flow n = .branch) ∧ (flow n = .branch → n ≠ "FOR_ITER" → n ≠ "SEND" → isCondJump n = true) := by
  have := flow_all hP h hb
  simp only [flowOK, Bool.and_eq_true, beq_iff_eq] at this
  have h1 := this.1.1.1.1.2
  have h2 := this.1.1.1.2
  constructor
  · intro hc; rw [hc] at h1; simpa using h1
  · intro hf h3 h4
    rw [hf] at h2
    simpa [h3, h4] using h2

/-- **C67 (limit).** `is_cond_jump()` is false for FOR_ITER and SEND, which either jump or go on: a tool that takes "jump and not
conditional" for "always jumps" is wrong on every `for` loop. -/
theorem C67_cond_false : ∃ n op, Py311.platform.opmap n = some op ∧ Py311.platform.hasJump op = true ∧ flow n = .branch ∧ isCondJump n = false ∧
    isUncondJump n = false :=
  ⟨"FOR_ITER", 93, by decide +kernel, by decide +kernel, by decide +kernel, by decide +kernel, by decide +kernel⟩

/-- **C67 (direction).** For every opcode of a release, a jump is exactly one of absolute, relative forward and relative backward;
backward as in `dis`, and no absolute jump from 3.11. -/
theorem C67_direction {P : Platform} (hP : P ∈ platforms) {n : String} {op : Nat} (h : P.opmap n = some op) (hb : op < P.minInstrumented) :
    (isBackwardRelJump P n op = true ↔ P.hasJump op = true ∧ n ∈ backwards) ∧
    (P.hasJump op = true → (isAbsJump P op = true ∧ isForwardRelJump P n op = false ∧ isBackwardRelJump P n op = false) ∨
      (isAbsJump P op = false ∧ isForwardRelJump P n op = true ∧ isBackwardRelJump P n op = false) ∨
      (isAbsJump P op = false ∧ isForwardRelJump P n op = false ∧ isBackwardRelJump P n op = true)) ∧
    (P.hasJump op = false → isAbsJump P op = false ∧ isForwardRelJump P n op = false ∧ isBackwardRelJump P n op = false) ∧
    (P.py311 = true → isAbsJump P op = false) := by
  have := flow_all hP h hb
  simp only [flowOK, Bool.and_eq_true, beq_iff_eq] at this
  obtain ⟨⟨⟨_, h1⟩, h2⟩, h3⟩ := this
  refine ⟨by rw [h1]; simp, ?_, ?_, ?_⟩
  · intro hj
    rw [hj] at h2
    revert h2
    cases isAbsJump P op <;> cases isForwardRelJump P n op <;> cases isBackwardRelJump P n op <;> simp
  · intro hj
    rw [hj] at h2
    revert h2
    cases isAbsJump P op <;> cases isForwardRelJump P n op <;> cases isBackwardRelJump P n op <;> simp
  · intro h11
    simp only [Platform.py311, decide_eq_true_iff] at h11
    simp only [Bool.or_eq_true, decide_eq_true_iff, Bool.not_eq_true'] at h3
    rcases h3 with h3 | h3
    · omega
    · exact h3

/-- The loop instruction of 3.12 is a backward jump, the branch of 3.9 an absolute one. -/
example : isBackwardRelJump Py312.platform "JUMP_BACKWARD" 140 = true ∧ isAbsJump Py39.platform 114 = true ∧ flow "POP_JUMP_IF_FALSE" = .branch ∧
    flow "LOAD_CONST" = .next := by decide +kernel

end Verif
