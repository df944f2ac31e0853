import Verif.Spec.OpFacts
import Verif.Props.ControlFlow
/-
C20, C21: the instructions treated as having a packed argument are those CPython packs, release by release.
-/
namespace Verif
open Spec
section
variable {P : Platform} {op : Nat}

theorem isOp_some {n : String} : P.isOp n op = true ↔ P.opmap n = some op := by simp [Platform.isOp]

/-- **C20 (which instructions).** The opcodes treated as name plus flag, name plus two flags, and intrinsic are those of the
instructions CPython reads so, whatever the release. -/
theorem C20_which : (P.bitflag op = true ↔ ∃ n ∈ flagged P.minor, P.opmap n = some op) ∧
    (P.bitflag2 op = true ↔ ∃ n ∈ flagged2 P.minor, P.opmap n = some op) ∧
    (P.intrinsic1 op = true ↔ ∃ n, (n, 1) ∈ intrinsicCalls P.minor ∧ P.opmap n = some op) ∧
    (P.intrinsic2 op = true ↔ ∃ n, (n, 2) ∈ intrinsicCalls P.minor ∧ P.opmap n = some op) := by
  unfold Platform.bitflag Platform.bitflag2 Platform.intrinsic1 Platform.intrinsic2 flagged flagged2 intrinsicCalls
  simp only [Platform.py311, Platform.py312, decide_eq_true_iff]
  by_cases h12 : 12 ≤ P.minor
  · have h11 : 11 ≤ P.minor := by omega
    simp [h11, h12, isOp_some]
  · by_cases h11 : 11 ≤ P.minor <;> simp [h11, h12, isOp_some]

/-- **C21 (which instructions).** The opcodes treated as on two variables are those of the instructions of CPython on two
variables, and stand for the two single ones in that order. -/
theorem C21_which (hP : P.WF) (hb : op < P.minInstrumented) {n1 n2 : String} : P.dualSingles op = some (n1, n2) ↔ ∃ n, (n, n1, n2) ∈ pairs P.minor ∧ P.opmap n = some op := by
  unfold Platform.dualSingles pairs
  simp only [Platform.py313, decide_eq_true_iff]
  by_cases h13 : 13 ≤ P.minor
  · simp only [h13, if_true, isOp_some]
    constructor
    · intro h
      split at h
      · cases h; exact ⟨"LOAD_FAST_LOAD_FAST", by simp, by assumption⟩
      · split at h
        · cases h; exact ⟨"STORE_FAST_LOAD_FAST", by simp, by assumption⟩
        · split at h
          · cases h; exact ⟨"STORE_FAST_STORE_FAST", by simp, by assumption⟩
          · cases h
    · rintro ⟨n, hn, hop⟩
      have inj : ∀ m, P.opmap m = some op → m = n := by
        intro m hm
        have h1 := (hP.name_op _ _ hm hb).2
        rw [(hP.name_op _ _ hop hb).2] at h1
        exact (Option.some.inj h1).symm
      simp only [List.mem_cons, Prod.mk.injEq, List.not_mem_nil, or_false] at hn
      rcases hn with ⟨rfl, rfl, rfl⟩ | ⟨rfl, rfl, rfl⟩ | ⟨rfl, rfl, rfl⟩
      · rw [if_pos hop]
      · rw [if_neg (fun h => absurd (inj _ h) (by decide)), if_pos hop]
      · rw [if_neg (fun h => absurd (inj _ h) (by decide)), if_neg (fun h => absurd (inj _ h) (by decide)), if_pos hop]
  · simp [h13]

end

/-- On 3.13, LOAD_FAST_LOAD_FAST is opcode 88 and stands for two LOAD_FAST; on 3.11 LOAD_GLOBAL is flagged and LOAD_ATTR is not. -/
example : Py313.platform.dualSingles 88 = some ("LOAD_FAST", "LOAD_FAST") ∧ Py311.platform.bitflag 116 = true ∧ Py311.platform.bitflag 106 = false ∧
    Py312.platform.bitflag 106 = true := by decide +kernel

end Verif
