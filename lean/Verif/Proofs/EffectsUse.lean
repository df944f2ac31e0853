import Verif.Proofs.Effects
/- The prerequisites `pre_and_post_stack_effect` gives on 3.11 against the number of stack items used. -/
namespace Verif
open Spec

/-- The int argument of an instruction, 0 when it has another kind of argument. -/
def Instr.argNat (i : Instr) : Nat := (i.arg.asInt.getD 0).toNat

/-- opcodes for which the effects or the items used depend on the argument -/
def argNames311 : List String := ["SWAP", "COPY", "SET_ADD", "LIST_APPEND", "MAP_ADD", "FORMAT_VALUE", "UNPACK_SEQUENCE",
  "UNPACK_EX", "MAKE_FUNCTION", "CALL_FUNCTION_EX", "BUILD_TUPLE", "BUILD_LIST", "BUILD_SET", "BUILD_STRING", "BUILD_MAP",
  "BUILD_CONST_KEY_MAP", "BUILD_SLICE", "RAISE_VARARGS", "PRECALL", "LOAD_GLOBAL", "RERAISE", "LIST_EXTEND", "SET_UPDATE",
  "DICT_UPDATE", "DICT_MERGE"]

/-- the first effect of those opcodes -/
def argPre311 (n : String) (a : Nat) : Option Int :=
  match n with
  | "SWAP" | "COPY" | "SET_ADD" | "LIST_APPEND" | "MAP_ADD" | "BUILD_TUPLE" | "BUILD_LIST" | "BUILD_SET" | "BUILD_STRING"
  | "RAISE_VARARGS" | "PRECALL" => some (-(a : Int))
  | "FORMAT_VALUE" => some (-1 - (a / 4 % 2 : Nat))
  | "UNPACK_SEQUENCE" | "UNPACK_EX" | "RERAISE" => some (-1)
  | "MAKE_FUNCTION" => some (-((1 + a % 2 + a / 2 % 2 + a / 4 % 2 + a / 8 % 2 : Nat) : Int))
  | "CALL_FUNCTION_EX" => some (-3 - (a % 2 : Nat))
  | "BUILD_MAP" => some (-(2 * a : Int))
  | "BUILD_CONST_KEY_MAP" => some (-(a + 1 : Int))
  | "BUILD_SLICE" => some (if a = 3 then -3 else -2)
  | "LIST_EXTEND" | "SET_UPDATE" | "DICT_UPDATE" | "DICT_MERGE" => some (-2)
  | _ => none

theorem prePost_eq {P : Platform} {i : Instr} {j : Option Bool} {e : Int} (he : i.stackEffect P j = .ok e) :
    i.prePost P j = (match staticEffect P i.name with
      | some e => .ok e
      | none => match dynamicEffect P i.name e i.arg j with
        | some e => e
        | none => .ok (e, 0)) := by
  unfold Instr.prePost; rw [he]; rfl

theorem opOf311 {i : Instr} (hv : ValidInstr Py311.platform i) {n : String} (hn : i.name = n) {op : Nat}
    (h : Py311.platform.opmap n = some op) : i.opcode = op := by
  have := hv.name_op
  rw [hn, h] at this
  exact (Option.some.inj this).symm

/-- An opcode with an int argument: what `stack_effect` gives. -/
theorem intEff311 {i : Instr} (hv : ValidInstr Py311.platform i) {n : String} (hn : i.name = n) {op : Nat}
    (h : Py311.platform.opmap n = some op) (ha : Py311.platform.hasArg op = true)
    (hk : (Py311.platform.hasJump op || Py311.platform.hasfree op || Py311.platform.haslocal op || Py311.platform.hasname op ||
      Py311.platform.hasconst op || Py311.platform.hascompare op || Py311.platform.intrinsic1 op || Py311.platform.intrinsic2 op) = false)
    (j : Option Bool) :
    ∃ e, i.stackEffect Py311.platform j = .ok e ∧ Py311.stackEffect op (some i.argNat) j = some e ∧
      effectInt i.arg = .ok (i.argNat : Int) := by
  have ho := opOf311 hv hn h
  obtain ⟨k, h1, h2, h3⟩ := effectArg_int hv (by rw [ho]; exact ha) (by rw [ho]; exact hk)
  obtain ⟨e, a, he, ha', hs, _⟩ := effect_total effTable311 hv j
  rw [h2] at ha'; cases ha'
  have hk' : i.argNat = k := by unfold Instr.argNat; rw [h1]; rfl
  refine ⟨e, he, ?_, by rw [hk']; exact h3⟩
  rw [hk', ← ho]; exact hs

set_option hygiene false in
/-- one case of `pre_arg311` -/
local macro "pre_arg_tac" op:num : tactic => `(tactic| (
    rename_i hn
    obtain ⟨e, he, hs, hi⟩ := intEff311 hv hn (op := $op) (by decide +kernel) (by decide +kernel) (by decide +kernel) j
    rw [prePost_eq he, hn] at hp
    first
      | (cases hp; cases h; rfl)
      | (simp only [staticEffect, dynamicEffect, hi] at hp; cases hp; cases h; rfl)
      | (have hs' := stackEffect_arg311 (by decide +kernel) (by decide +kernel) hs
         cases hs'; cases hp; cases h; first | rfl | omega | (split <;> omega))))

set_option maxHeartbeats 4000000 in
theorem pre_arg311 {i : Instr} (hv : ValidInstr Py311.platform i) {j : Option Bool} {pre post p : Int}
    (hp : i.prePost Py311.platform j = .ok (pre, post)) (h : argPre311 i.name i.argNat = some p) : pre = p := by
  unfold argPre311 at h
  split at h
  · pre_arg_tac 99
  · pre_arg_tac 120
  · pre_arg_tac 146
  · pre_arg_tac 145
  · pre_arg_tac 147
  · pre_arg_tac 102
  · pre_arg_tac 103
  · pre_arg_tac 104
  · pre_arg_tac 157
  · pre_arg_tac 130
  · pre_arg_tac 166
  · pre_arg_tac 155
  · pre_arg_tac 92
  · pre_arg_tac 94
  · rename_i hn
    obtain ⟨e, he, hs, hi⟩ := intEff311 hv hn (op := 119) (by decide +kernel) (by decide +kernel) (by decide +kernel) j
    rw [prePost_eq he, hn, stackEffect_const311 (e := -1) (by decide +kernel) hs] at hp
    cases hp; cases h; rfl
  · pre_arg_tac 132
  · pre_arg_tac 142
  · pre_arg_tac 105
  · pre_arg_tac 156
  · pre_arg_tac 133
  · pre_arg_tac 162
  · pre_arg_tac 163
  · pre_arg_tac 165
  · pre_arg_tac 164
  · cases h

set_option hygiene false in
/-- one case of `post_arg311` -/
local macro "post_arg_tac" op:num : tactic => `(tactic| (
    rename_i hn
    first
      | exact absurd (by rw [hn]; decide) hx
      | (obtain ⟨e, he, hs, hi⟩ := intEff311 hv hn (op := $op) (by decide +kernel) (by decide +kernel) (by decide +kernel) j
         rw [prePost_eq he, hn] at hp
         first
          | (cases hp; decide)
          | (simp only [staticEffect, dynamicEffect, hi] at hp; cases hp; omega)
          | (have hs' := stackEffect_const311 (e := 1) (by decide +kernel) hs
             simp only [staticEffect, dynamicEffect, hi] at hp; cases hp; omega)
          | (have hs' := stackEffect_arg311 (by decide +kernel) (by decide +kernel) hs
             cases hs'; cases hp; first | decide | omega | (split <;> omega)))))

set_option maxHeartbeats 4000000 in
theorem post_arg311 {i : Instr} (hv : ValidInstr Py311.platform i) {j : Option Bool} {pre post p : Int}
    (hp : i.prePost Py311.platform j = .ok (pre, post)) (h : argPre311 i.name i.argNat = some p)
    (hx : i.name ∉ ["SET_ADD", "LIST_APPEND", "MAP_ADD"]) : 0 ≤ post := by
  unfold argPre311 at h
  split at h
  · post_arg_tac 99
  · post_arg_tac 120
  · post_arg_tac 146
  · post_arg_tac 145
  · post_arg_tac 147
  · post_arg_tac 102
  · post_arg_tac 103
  · post_arg_tac 104
  · post_arg_tac 157
  · post_arg_tac 130
  · post_arg_tac 166
  · post_arg_tac 155
  · post_arg_tac 92
  · post_arg_tac 94
  · rename_i hn
    obtain ⟨e, he, hs, hi⟩ := intEff311 hv hn (op := 119) (by decide +kernel) (by decide +kernel) (by decide +kernel) j
    rw [prePost_eq he, hn, stackEffect_const311 (e := -1) (by decide +kernel) hs] at hp
    cases hp; cases h; decide
  · post_arg_tac 132
  · post_arg_tac 142
  · post_arg_tac 105
  · post_arg_tac 156
  · post_arg_tac 133
  · post_arg_tac 162
  · post_arg_tac 163
  · post_arg_tac 165
  · post_arg_tac 164
  · cases h

/-- names whose lambda reads the argument on 3.11 -/
theorem dynamic_noarg {n : String} (h : n ∉ argNames311) (e : Int) (x y : Arg) (j : Option Bool) :
    n = "CALL_KW" ∨ n = "ROT_N" ∨ dynamicEffect Py311.platform n e x j = dynamicEffect Py311.platform n e y j := by
  by_cases h1 : n = "CALL_KW"
  · exact .inl h1
  by_cases h2 : n = "ROT_N"
  · exact .inr (.inl h2)
  refine .inr (.inr ?_)
  unfold dynamicEffect
  split
  all_goals first
    | rfl
    | exact absurd (by decide) h
    | exact absurd rfl h1
    | exact absurd rfl h2

/-- The effect of an opcode that does not depend on its argument. -/
def rowEff311 (op : Nat) (j : Option Bool) : Option Int :=
  match Py311.effects.find? (·.1 == op) with
    | some e => some e.2
    | none => match Py311.jumpEffects.find? (·.1 == op) with
      | some (_, m, t, f) => some (match j with | none => m | some true => t | some false => f)
      | none => none

/-- The two effects of an opcode that do not depend on its argument. -/
def rowPre311 (p : String × Nat) (j : Option Bool) : Option (Int × Int) :=
  match rowEff311 p.2 j with
  | none => none
  | some e => match staticEffect Py311.platform p.1 with
    | some e => some e
    | none => match dynamicEffect Py311.platform p.1 e .unset j with
      | some (.ok e) => some e
      | some (.error _) => none
      | none => some (e, 0)

theorem pre_row311 {i : Instr} (hv : ValidInstr Py311.platform i) {j : Option Bool} {pre post : Int}
    (hp : i.prePost Py311.platform j = .ok (pre, post)) (hn : i.name ∉ argNames311) {r : Int × Int}
    (hr : rowPre311 (i.name, i.opcode) j = some r) : (pre, post) = r := by
  obtain ⟨e, a, he, ha', hs, _⟩ := effect_total effTable311 hv j
  have hm := mem_table311 hv.name_op
  have hkw : i.name ≠ "CALL_KW" := by
    intro h; rw [h] at hm
    exact absurd (List.mem_map.2 ⟨_, hm, rfl⟩ : "CALL_KW" ∈ Py311.table.map (·.1)) (by decide +kernel)
  have hrn : i.name ≠ "ROT_N" := by
    intro h; rw [h] at hm
    exact absurd (List.mem_map.2 ⟨_, hm, rfl⟩ : "ROT_N" ∈ Py311.table.map (·.1)) (by decide +kernel)
  rw [prePost_eq he] at hp
  have hdyn : dynamicEffect Py311.platform i.name e i.arg j = dynamicEffect Py311.platform i.name e .unset j := by
    rcases dynamic_noarg hn e i.arg .unset j with h | h | h
    · exact absurd h hkw
    · exact absurd h hrn
    · exact h
  rw [hdyn] at hp
  have hee : rowEff311 i.opcode j = some e ∨ rowEff311 i.opcode j = none := by
    change Py311.stackEffect i.opcode (a.map Int.toNat) j = some e at hs
    unfold Py311.stackEffect at hs
    unfold rowEff311
    cases h1 : Py311.effects.find? (·.1 == i.opcode) with
    | some x =>
      rw [h1] at hs
      split at hs
      · cases hs
      · exact .inl hs
    | none =>
      cases h2 : Py311.jumpEffects.find? (·.1 == i.opcode) with
      | some x =>
        rw [h1, h2] at hs
        split at hs
        · cases hs
        · exact .inl hs
      | none => exact .inr rfl
  unfold rowPre311 at hr
  rcases hee with h | h
  · rw [h] at hr
    cases hst : staticEffect Py311.platform i.name with
    | some x => simp only [hst] at hr hp; cases hr; cases hp; rfl
    | none =>
      simp only [hst] at hr hp
      cases hd : dynamicEffect Py311.platform i.name e .unset j with
      | none => simp only [hd] at hr hp; cases hr; cases hp; rfl
      | some x =>
        simp only [hd] at hr hp
        subst hp
        cases hr; rfl
  · rw [h] at hr; cases hr

/-- opcodes whose prerequisite is smaller than what they use -/
def gapNames311 : List String := ["LOAD_METHOD", "BEFORE_WITH", "SEND", "YIELD_VALUE", "JUMP_IF_FALSE_OR_POP",
  "JUMP_IF_TRUE_OR_POP", "RERAISE", "LIST_APPEND", "SET_ADD", "MAP_ADD", "LIST_EXTEND", "SET_UPDATE", "DICT_UPDATE",
  "DICT_MERGE", "PRECALL"]

theorem rows311 : Py311.table.all (fun p => argNames311.contains p.1 || [none, some true, some false].all (fun j =>
    match rowPre311 p j with
    | none => false
    | some r => (if gapNames311.contains p.1 then decide (-r.1 ≤ ((uses311 p.1 0).getD 0 : Nat)) else
        decide (min r.1 0 = -((uses311 p.1 0).getD 0 : Nat))) && decide (0 ≤ r.2) && (decide (r.1 ≤ 0) || r.2 == 0))) = true := by decide +kernel

theorem uses_noarg {n : String} (h : n ∉ argNames311) (a : Nat) : uses311 n a = uses311 n 0 := by
  unfold uses311
  split
  all_goals first
    | rfl
    | exact absurd (by decide) h

end Verif
