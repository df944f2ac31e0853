import Verif.Props.Effects
/-
C43 and C47, exact versions: the complete list of the exceptions.
-/
namespace Verif
open Spec

/-- The opcodes that add to a collection further down: all the effect of the argument is put in the first number. -/
theorem adds311 {i : Instr} (hv : ValidInstr Py311.platform i) {j : Option Bool} {pre post : Int} (hp : i.prePost Py311.platform j = .ok (pre, post)) :
    (i.name = "SET_ADD" → pre = -(i.argNat : Int) ∧ post = i.argNat - 1) ∧ (i.name = "LIST_APPEND" → pre = -(i.argNat : Int) ∧ post = i.argNat - 1) ∧
    (i.name = "MAP_ADD" → pre = -(i.argNat : Int) ∧ post = i.argNat - 2) := by
  obtain ⟨pre', post', hp', hs⟩ := C43_sum_311 i hv j
  rw [hp] at hp'
  cases hp'
  have key : ∀ (n : String) (op : Nat) (e0 : Int), i.name = n → argPre311 n i.argNat = some (-(i.argNat : Int)) → Py311.platform.opmap n = some op →
      Py311.platform.hasArg op = true →
      (Py311.platform.hasJump op || Py311.platform.hasfree op || Py311.platform.haslocal op || Py311.platform.hasname op ||
      Py311.platform.hasconst op || Py311.platform.hascompare op || Py311.platform.intrinsic1 op || Py311.platform.intrinsic2 op) = false →
      (Py311.effects.find? (·.1 == op)).map (·.2) = some e0 → pre = -(i.argNat : Int) ∧ post = i.argNat + e0 := by
    intro n op e0 hn ha ho h1 h2 h3
    obtain ⟨e, he, hse, _⟩ := intEff311 hv hn ho h1 h2 j
    have hpre := pre_arg311 hv hp (by rw [hn]; exact ha)
    rw [he] at hs
    cases hs
    have := stackEffect_const311 h3 hse
    omega
  refine ⟨fun hn => ?_, fun hn => ?_, fun hn => ?_⟩
  · exact key _ 146 (-1) hn rfl (by decide +kernel) (by decide +kernel) (by decide +kernel) (by decide +kernel)
  · exact key _ 145 (-1) hn rfl (by decide +kernel) (by decide +kernel) (by decide +kernel) (by decide +kernel)
  · exact key _ 147 (-2) hn rfl (by decide +kernel) (by decide +kernel) (by decide +kernel) (by decide +kernel)

/-- **C43 (signs, exact, 3.11).** The second number is negative exactly for `LIST_APPEND 0`, `SET_ADD 0`, `MAP_ADD 0` and `MAP_ADD 1` (which no valid code contains); and the first is positive
only when the second is 0. -/
theorem C43_signs_exact (i : Instr) (hv : ValidInstr Py311.platform i) (jump : Option Bool) (pre post : Int)
    (hp : i.prePost Py311.platform jump = .ok (pre, post)) :
    (post < 0 ↔ (i.name = "LIST_APPEND" ∧ i.argNat = 0) ∨ (i.name = "SET_ADD" ∧ i.argNat = 0) ∨ (i.name = "MAP_ADD" ∧ i.argNat < 2)) ∧
    (0 < pre → post = 0) := by
  obtain ⟨h1, h2, h3⟩ := adds311 hv hp
  by_cases hs : i.name = "SET_ADD"
  · have := h1 hs
    rw [hs]
    simp
    omega
  by_cases hl : i.name = "LIST_APPEND"
  · have := h2 hl
    rw [hl]
    simp
    omega
  by_cases hm : i.name = "MAP_ADD"
  · have := h3 hm
    rw [hm]
    simp
    omega
  · obtain ⟨ha, hb⟩ := C43_signs_partial i hv (by simp [hs, hl, hm]) jump pre post hp
    simp only [hs, hl, hm, false_and, or_false, iff_false]
    omega

/-- The opcodes that ask for less than they use. -/
def askLess : List String := ["LOAD_METHOD", "BEFORE_WITH", "SEND", "YIELD_VALUE", "JUMP_IF_FALSE_OR_POP", "JUMP_IF_TRUE_OR_POP",
  "RERAISE", "LIST_APPEND", "SET_ADD", "MAP_ADD", "LIST_EXTEND", "SET_UPDATE", "DICT_UPDATE", "DICT_MERGE", "PRECALL"]

/-- **C47 (exact).** An opcode of 3.11 always asks for exactly the items it uses iff it is not one of the fifteen (for the updates in place, with an argument of at least 1). -/
theorem C47_exact (n : String) :
    (∀ i, i.name = n → ValidInstr Py311.platform i → ∀ jump pre post, i.prePost Py311.platform jump = .ok (pre, post) →
      min pre 0 = -((uses311 i.name i.argNat).getD 0 : Nat)) ↔ n ∉ askLess := by
  constructor
  · intro h hn
    obtain ⟨i, jump, pre, post, hin, hv, hp, hlt⟩ := C47_exact_false n hn
    have := h i hin hv jump pre post hp
    omega
  · intro hn i hin hv jump pre post hp
    exact C47_exact_partial i hv (by rw [hin]; exact hn) jump pre post hp

end Verif
