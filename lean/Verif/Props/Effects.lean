import Verif.Proofs.EffectsUse
import Verif.Props.ConvertEx
/-
C43: `pre_and_post_stack_effect`. The sum is right for every opcode and argument; the signs are not as the name
suggests for the opcodes absent from the tables of instr.py; C47: the prerequisite never exceeds what is really used
(3.11), so `compute_stacksize` never sees an underflow that does not exist because of the tables, and the complete list
of the opcodes for which it asks for less.
-/
namespace Verif
open Spec

/-- C43, 3.11: for every instruction the API accepts and every `jump`, both effects exist and their sum is the
`stack_effect` of the instruction. -/
theorem C43_sum_311 (i : Instr) (hv : ValidInstr Py311.platform i) (jump : Option Bool) :
    ∃ pre post, i.prePost Py311.platform jump = .ok (pre, post) ∧ i.stackEffect Py311.platform jump = .ok (pre + post) :=
  prePost_sum effTable311 hv jump

/-- C43, 3.12 -/
theorem C43_sum_312 (i : Instr) (hv : ValidInstr Py312.platform i) (jump : Option Bool) :
    ∃ pre post, i.prePost Py312.platform jump = .ok (pre, post) ∧ i.stackEffect Py312.platform jump = .ok (pre + post) :=
  prePost_sum effTable312 hv jump

/-- Every 3.11 instruction is of one of two sorts: its effects and use depend on the argument as listed, or not at all. -/
theorem cases311 {i : Instr} (hv : ValidInstr Py311.platform i) {j : Option Bool} {pre post : Int}
    (hp : i.prePost Py311.platform j = .ok (pre, post)) :
    i.name = "LOAD_GLOBAL" ∨ (∃ p, argPre311 i.name i.argNat = some p ∧ pre = p) ∨
    (i.name ∉ argNames311 ∧ 0 ≤ post ∧ (pre ≤ 0 ∨ post = 0) ∧ -pre ≤ ((uses311 i.name i.argNat).getD 0 : Nat) ∧
      (i.name ∉ gapNames311 → min pre 0 = -((uses311 i.name i.argNat).getD 0 : Nat))) := by
  by_cases hn : i.name ∈ argNames311
  · by_cases hg : i.name = "LOAD_GLOBAL"
    · exact .inl hg
    · refine .inr (.inl ?_)
      have : (argPre311 i.name i.argNat).isSome := by
        simp only [argNames311, List.mem_cons, List.not_mem_nil, or_false] at hn
        rcases hn with h | h | h | h | h | h | h | h | h | h | h | h | h | h | h | h | h | h | h | h | h | h | h | h | h <;>
          first | exact absurd h hg | (rw [h]; rfl)
      obtain ⟨p, hp'⟩ := Option.isSome_iff_exists.1 this
      exact ⟨p, hp', pre_arg311 hv hp hp'⟩
  · refine .inr (.inr ⟨hn, ?_⟩)
    have := List.all_eq_true.1 rows311 _ (mem_table311 hv.name_op)
    rw [Bool.or_eq_true] at this
    rcases this with h | h
    · exact absurd (List.contains_iff_mem.1 h) hn
    · have h := List.all_eq_true.1 h j (by rcases j with _ | _ | _ <;> decide)
      simp only at h
      split at h
      · cases h
      · rename_i r hr
        have := pre_row311 hv hp hn hr
        cases this
        rw [uses_noarg hn]
        simp only [Bool.and_eq_true, decide_eq_true_eq, Bool.or_eq_true, beq_iff_eq] at h
        obtain ⟨⟨h1, h2⟩, h3⟩ := h
        refine ⟨h2, h3, ?_, ?_⟩
        · split at h1
          · exact of_decide_eq_true h1
          · have := of_decide_eq_true h1; omega
        · intro hg
          rw [if_neg (by rw [List.contains_iff_mem]; exact hg)] at h1
          exact of_decide_eq_true h1

theorem global311 {i : Instr} (hv : ValidInstr Py311.platform i) (hn : i.name = "LOAD_GLOBAL") {j : Option Bool} {pre post : Int}
    (hp : i.prePost Py311.platform j = .ok (pre, post)) : 0 ≤ pre ∧ post = 0 := by
  have ho := opOf311 hv hn (op := 116) (by decide +kernel)
  obtain ⟨e, a, he, _, hs, hsome⟩ := effect_total effTable311 hv j
  rw [prePost_eq he, hn] at hp
  rw [ho] at hs hsome
  have ha : Py311.platform.hasArg 116 = true := by decide +kernel
  rw [ha] at hsome
  obtain ⟨x, rfl⟩ := Option.isSome_iff_exists.1 hsome
  have hs' := stackEffect_arg311 (op := 116) (a := x.toNat) (j := j) (by decide +kernel) (by decide +kernel) hs
  cases hs'; cases hp
  exact ⟨by omega, rfl⟩

/-- The signs of C43, 3.11: apart from the three opcodes that add to a collection (see `C43_signs_false`), the second
effect is never negative, and the first is not positive or the second is 0 (the opcodes absent from the tables of
instr.py, all the effect being in the first number). -/
theorem C43_signs_partial (i : Instr) (hv : ValidInstr Py311.platform i)
    (hx : i.name ∉ ["SET_ADD", "LIST_APPEND", "MAP_ADD"]) (jump : Option Bool) (pre post : Int)
    (hp : i.prePost Py311.platform jump = .ok (pre, post)) : 0 ≤ post ∧ (pre ≤ 0 ∨ post = 0) := by
  rcases cases311 hv hp with h | ⟨p, h, hpp⟩ | ⟨_, h1, h2, _⟩
  · have := global311 hv h hp; omega
  · refine ⟨post_arg311 hv hp h hx, .inl ?_⟩
    subst hpp
    unfold argPre311 at h
    split at h <;> first | (cases h; omega) | (cases h; split <;> omega) | cases h
  · exact ⟨h1, h2⟩

/-- The signs of C43 do not hold: LOAD_CONST is said to need "+1" items and to push none, and LIST_APPEND 0 to push -1. -/
theorem C43_signs_false :
    (∃ i, ValidInstr Py311.platform i ∧ i.prePost Py311.platform none = .ok (1, 0)) ∧
    (∃ i, ValidInstr Py311.platform i ∧ i.prePost Py311.platform none = .ok (0, -1)) :=
  ⟨⟨⟨"LOAD_CONST", 100, .int 1, none⟩, made_valid Py311.wf (es := [.instr ⟨"LOAD_CONST", 100, .int 1, none⟩]) (by decide +kernel) _ (List.mem_singleton.2 rfl), by decide +kernel⟩,
   ⟨⟨"LIST_APPEND", 145, .int 0, none⟩, made_valid Py311.wf (es := [.instr ⟨"LIST_APPEND", 145, .int 0, none⟩]) (by decide +kernel) _ (List.mem_singleton.2 rfl), by decide +kernel⟩⟩

/-- C47: the prerequisite never exceeds the number of stack items the instruction uses (3.11). The argument of the four
opcodes that update a collection in place is at least 1 in any code CPython runs. -/
theorem C47_no_false_underflow (i : Instr) (hv : ValidInstr Py311.platform i)
    (hx : i.name ∈ ["LIST_EXTEND", "SET_UPDATE", "DICT_UPDATE", "DICT_MERGE"] → 1 ≤ i.argNat) (jump : Option Bool) (pre post : Int)
    (hp : i.prePost Py311.platform jump = .ok (pre, post)) : -pre ≤ ((uses311 i.name i.argNat).getD 0 : Nat) := by
  rcases cases311 hv hp with h | ⟨p, h, hpp⟩ | ⟨_, _, _, h, _⟩
  · have := global311 hv h hp; omega
  · subst hpp
    unfold argPre311 at h
    split at h <;> first
      | cases h; done
      | (rename_i hn
         rw [hn] at hx ⊢
         simp only [uses311, Option.getD_some]
         cases h
         first
           | omega
           | (have := hx (by decide); omega)
           | (split <;> omega))
  · exact h

/-- C47: apart from fifteen opcodes the prerequisite is exactly the number of items used (3.11): an underflow caused by
any other instruction is seen. -/
theorem C47_exact_partial (i : Instr) (hv : ValidInstr Py311.platform i)
    (hx : i.name ∉ ["LOAD_METHOD", "BEFORE_WITH", "SEND", "YIELD_VALUE", "JUMP_IF_FALSE_OR_POP", "JUMP_IF_TRUE_OR_POP",
      "RERAISE", "LIST_APPEND", "SET_ADD", "MAP_ADD", "LIST_EXTEND", "SET_UPDATE", "DICT_UPDATE", "DICT_MERGE", "PRECALL"])
    (jump : Option Bool) (pre post : Int)
    (hp : i.prePost Py311.platform jump = .ok (pre, post)) : min pre 0 = -((uses311 i.name i.argNat).getD 0 : Nat) := by
  rcases cases311 hv hp with h | ⟨p, h, hpp⟩ | ⟨_, _, _, _, h⟩
  · have := global311 hv h hp
    have hu : (uses311 i.name i.argNat).getD 0 = 0 := by rw [h]; rfl
    omega
  · subst hpp
    unfold argPre311 at h
    split at h <;> first
      | cases h; done
      | (rename_i hn
         rw [hn] at hx ⊢
         first
           | exact absurd (by decide) hx
           | (simp only [uses311, Option.getD_some]
              cases h
              first
                | omega
                | (split <;> omega)))
  · exact h hx

/-- The fifteen opcodes do ask for less than they use. -/
theorem C47_exact_false : ∀ n ∈ ["LOAD_METHOD", "BEFORE_WITH", "SEND", "YIELD_VALUE", "JUMP_IF_FALSE_OR_POP",
    "JUMP_IF_TRUE_OR_POP", "RERAISE", "LIST_APPEND", "SET_ADD", "MAP_ADD", "LIST_EXTEND", "SET_UPDATE", "DICT_UPDATE",
    "DICT_MERGE", "PRECALL"], ∃ i jump pre post, i.name = n ∧ ValidInstr Py311.platform i ∧
      i.prePost Py311.platform jump = .ok (pre, post) ∧ -(min pre 0) < ((uses311 i.name i.argNat).getD 0 : Nat) := by
  have key : ∀ (n : String) (op : Nat) (a : Arg) (j : Option Bool) (pre post : Int),
      made Py311.platform [.instr ⟨n, op, a, none⟩] = true →
      (Instr.prePost Py311.platform ⟨n, op, a, none⟩ j == .ok (pre, post)) = true →
      -(min pre 0) < ((uses311 n (Instr.argNat ⟨n, op, a, none⟩)).getD 0 : Nat) →
      ∃ i jump pre post, i.name = n ∧ ValidInstr Py311.platform i ∧
      i.prePost Py311.platform jump = .ok (pre, post) ∧ -(min pre 0) < ((uses311 i.name i.argNat).getD 0 : Nat) :=
    fun n op a j pre post h1 h2 h3 => ⟨⟨n, op, a, none⟩, j, pre, post, rfl, made_valid Py311.wf h1 _ (List.mem_singleton.2 rfl), eq_of_beq h2, h3⟩
  intro n hn
  simp only [List.mem_cons, List.not_mem_nil, or_false] at hn
  rcases hn with rfl | rfl | rfl | rfl | rfl | rfl | rfl | rfl | rfl | rfl | rfl | rfl | rfl | rfl | rfl
  · exact key _ 160 (.str "m") none 1 0 (by decide +kernel) (by decide +kernel) (by decide +kernel)
  · exact key _ 53 .unset none 1 0 (by decide +kernel) (by decide +kernel) (by decide +kernel)
  · exact key _ 123 (.label 0) none 0 0 (by decide +kernel) (by decide +kernel) (by decide +kernel)
  · exact key _ 86 .unset none 0 0 (by decide +kernel) (by decide +kernel) (by decide +kernel)
  · exact key _ 111 (.label 0) (some true) 0 0 (by decide +kernel) (by decide +kernel) (by decide +kernel)
  · exact key _ 112 (.label 0) (some true) 0 0 (by decide +kernel) (by decide +kernel) (by decide +kernel)
  · exact key _ 119 (.int 1) none (-1) 0 (by decide +kernel) (by decide +kernel) (by decide +kernel)
  · exact key _ 145 (.int 1) none (-1) 0 (by decide +kernel) (by decide +kernel) (by decide +kernel)
  · exact key _ 146 (.int 1) none (-1) 0 (by decide +kernel) (by decide +kernel) (by decide +kernel)
  · exact key _ 147 (.int 1) none (-1) (-1) (by decide +kernel) (by decide +kernel) (by decide +kernel)
  · exact key _ 162 (.int 2) none (-2) 1 (by decide +kernel) (by decide +kernel) (by decide +kernel)
  · exact key _ 163 (.int 2) none (-2) 1 (by decide +kernel) (by decide +kernel) (by decide +kernel)
  · exact key _ 165 (.int 2) none (-2) 1 (by decide +kernel) (by decide +kernel) (by decide +kernel)
  · exact key _ 164 (.int 2) none (-2) 1 (by decide +kernel) (by decide +kernel) (by decide +kernel)
  · exact key _ 166 (.int 2) none (-2) 0 (by decide +kernel) (by decide +kernel) (by decide +kernel)

/-- Non-vacuity: a valid instruction with an argument-dependent effect. -/
example : ∃ i, ValidInstr Py311.platform i ∧ i.prePost Py311.platform none = .ok (-7, 1) ∧ uses311 i.name i.argNat = some 7 :=
  ⟨⟨"BUILD_LIST", 103, .int 7, none⟩, made_valid Py311.wf (es := [.instr ⟨"BUILD_LIST", 103, .int 7, none⟩]) (by decide +kernel) _ (List.mem_singleton.2 rfl), by decide +kernel, rfl⟩

end Verif
