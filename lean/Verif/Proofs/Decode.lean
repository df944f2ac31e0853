import Verif.Model.ToBytecode
import Verif.Proofs.Operand
import Verif.Props.Instr
import Verif.Props.ConcreteInstr
/-
The operands `to_bytecode` gives mean what the concrete operands mean.
-/
namespace Verif
open Spec

theorem argIdx_ok {α : Type} {l : List α} {a : Nat} {x : α} (h : argIdx l a = .ok x) : l[a]? = some x := by
  unfold argIdx at h
  split at h
  · rename_i y hy; simp only [Except.ok.injEq] at h; rw [hy, h]
  · simp at h

/-- No free variable is also a local variable (from 3.13 on): see finding 23. -/
def FreeApart (P : Platform) (c : Concrete) : Prop := P.py313 = true → ∀ n ∈ c.attrs.freevars, n ∉ c.varnames

def atomSlot : Atom → Slot
  | .str n => .named n
  | .cell n => .named n
  | .free n => .free n
  | _ => .named ""

section
variable {κ : Type} [DecidableEq κ] {P : Platform} {key : Arg → κ} {c : Concrete}

theorem cells_slots (F : List String) (h11 : P.py311 = true) :
    frameSlots c.varnames c.attrs.cellvars F = (cellsLookup P c).map atomSlot ++ F.map .free := by
  simp [frameSlots, cellsLookup, h11, atomSlot, Function.comp_def]

theorem locals_slots (hf : FreeApart P c) : localSlots P c = (localsLookup P c).map atomSlot := by
  unfold localSlots localsLookup
  split
  · rename_i h
    have hx : c.attrs.freevars.filter (fun n => !c.varnames.contains n) = c.attrs.freevars := by
      rw [List.filter_eq_self]; intro n hn; simpa using hf h n hn
    rw [cells_slots _ (py313_311 h), hx]; simp [atomSlot, Function.comp_def]
  · simp [atomSlot, Function.comp_def]

theorem locals_atoms {x : Atom} (h : x ∈ localsLookup P c) : (∃ n, x = .str n) ∨ (∃ n, x = .cell n) ∨ ∃ n, x = .free n := by
  unfold localsLookup cellsLookup at h
  repeat' split at h
  all_goals (simp at h; grind)

theorem slotOf_atom {x : Atom} (h : x ∈ localsLookup P c) : (slotOf x : Operand κ) = .slot (atomSlot x) := by
  rcases locals_atoms h with ⟨n, rfl⟩ | ⟨n, rfl⟩ | ⟨n, rfl⟩ <;> rfl

/-- The local variables an instruction uses are read at the slots they have in CPython. -/
def SlotsRead (P : Platform) (c : Concrete) (ci : CInstr) : Prop :=
  ∀ a, ci.arg = some a → P.haslocal ci.opcode = true → ∀ k, (P.dual ci.opcode = false → k = a) → (P.dual ci.opcode = true → k = a / 16 ∨ k = a % 16) →
    (localSlots P c)[k]? = ((localsLookup P c).map atomSlot)[k]?

theorem slotsRead_apart (hf : FreeApart P c) (ci : CInstr) : SlotsRead P c ci := by
  intro a _ _ k _ _; rw [locals_slots hf]

theorem local_slotAt {a : Nat} {x : Atom} (hf : (localSlots P c)[a]? = ((localsLookup P c).map atomSlot)[a]?)
    (h : argIdx (localsLookup P c) a = .ok x) :
    slotAt (localSlots P c) a = (slotOf x : Operand κ) := by
  have h := argIdx_ok h
  rw [slotOf_atom (List.mem_of_getElem? h), slotAt, hf, List.getElem?_map, h]; rfl

theorem cells_atoms {x : Atom} (h : x ∈ cellsLookup P c) : (∃ n, x = .str n) ∨ (∃ n, x = .cell n) := by
  unfold cellsLookup at h
  repeat' split at h
  all_goals (simp at h; grind)

theorem deref_slots : derefSlots P c = (cellsLookup P c).map atomSlot ++ c.attrs.freevars.map .free := by
  unfold derefSlots
  split
  · rename_i h; exact cells_slots _ h
  · rename_i h; simp [cellsLookup, h, atomSlot, Function.comp_def]

theorem deref_cell {a : Nat} {x : Atom} (h : argIdx (cellsLookup P c) a = .ok x) :
    slotAt (derefSlots P c) a = (.slot (atomSlot x) : Operand κ) := by
  have h := argIdx_ok h
  have hl := (List.getElem?_eq_some_iff.1 h).1
  rw [slotAt, deref_slots, List.getElem?_append_left (by simpa using hl), List.getElem?_map, h]; rfl

theorem deref_free {a : Nat} {n : String} (hl : ¬ a < (cellsLookup P c).length) (h : argIdx c.attrs.freevars (a - (cellsLookup P c).length) = .ok n) :
    slotAt (derefSlots P c) a = (.slot (.free n) : Operand κ) := by
  have h := argIdx_ok h
  rw [slotAt, deref_slots, List.getElem?_append_right (by simpa using hl), List.length_map, List.getElem?_map, h]; rfl

theorem shr4 (a : Nat) : a >>> 4 = a / 16 := by simp [Nat.shiftRight_eq_div_pow]
theorem shr5 (a : Nat) : a >>> 5 = a / 32 := by simp [Nat.shiftRight_eq_div_pow]
theorem shr1 (a : Nat) : a >>> 1 = a / 2 := by simp [Nat.shiftRight_eq_div_pow]
theorem shr2 (a : Nat) : a >>> 2 = a / 4 := by simp [Nat.shiftRight_eq_div_pow]
theorem bit0 (a : Nat) : (a &&& 1 != 0) = (a % 2 == 1) := by
  rw [Nat.and_one_is_mod]
  rcases Nat.mod_two_eq_zero_or_one a with h | h <;> simp [h]
theorem bit1 (a : Nat) : (a &&& 2 != 0) = (a / 2 % 2 == 1) := by
  have : a &&& 2 = 2 * (a / 2 % 2) := by
    apply Nat.eq_of_testBit_eq
    intro j
    rw [Nat.testBit_and]
    rcases j with _ | _ | j
    · simp [Nat.testBit_zero]
    · simp [Nat.testBit_succ, Nat.testBit_zero]
    · simp [Nat.testBit_succ]
  rw [this]
  rcases Nat.mod_two_eq_zero_or_one (a / 2) with h | h <;> simp [h]

theorem target_hasJump {ci : CInstr} {off t : Int} (h : ci.getJumpTarget P off = some t) : P.hasJump ci.opcode = true := by
  unfold CInstr.getJumpTarget at h
  simp only at h
  split at h
  · simp at h
  · unfold isForwardRelJump isBackwardRelJump isAbsJump Platform.HASJREL Platform.HASJABS at h
    unfold Platform.hasJump
    grind

theorem hasJump_target (hP : P.WF) {ci : CInstr} (hv : ValidCInstr P ci) (off : Int) (h : P.hasJump ci.opcode = true) :
    ∃ t, ci.getJumpTarget P off = some t := by
  have hA : P.hasArg ci.opcode = true := hP.operand_arg _ _ hv.name_op hv.base (by
    unfold Platform.hasJump at h; grind)
  obtain ⟨a, ha⟩ := Option.isSome_iff_exists.1 (hv.arg_required hA)
  unfold CInstr.getJumpTarget
  simp only [ha]
  unfold isForwardRelJump isBackwardRelJump isAbsJump Platform.HASJREL Platform.HASJABS
  unfold Platform.hasJump at h
  have hn := hP.no_jabs
  cases h1 : P.hasjrel ci.opcode with
  | true => cases strContains "BACKWARD" ci.name <;> simp
  | false =>
    rw [h1] at h
    simp only [Bool.false_or] at h
    cases h3 : P.py313 with
    | true => rw [hn h3] at h; simp at h
    | false => simp [h]

theorem compare_enum {v : Nat} {x : Arg} (h : compareEnum P v = .ok x) : x = .compare v ∧ CompareMember P v := by
  unfold compareEnum at h
  split at h
  · rename_i hc
    simp only [Except.ok.injEq] at h
    refine ⟨h.symm, ?_⟩
    unfold CompareMember
    simp at hc
    grind
  · simp at h

/-- What `to_bytecode` decodes means what the argument means. -/
theorem decode_operand (hP : P.WF) {ci : CInstr} (hf : SlotsRead P c ci) {arg : Arg}
    (hj : P.hasJump ci.opcode = false) (hd : P.dual ci.opcode = false)
    (h : decodeOperand P c ci = .ok arg) (tgt : Nat → Option Nat) (dest : Option Nat) :
    operandB P key tgt ci.opcode arg = operandC P key c dest ci := by
  have hK := kinds_excl hP ci.opcode
  unfold decodeOperand at h
  unfold operandB operandC
  simp only [hj, Bool.false_eq_true, if_false]
  cases ha : ci.arg with
  | none =>
    rw [ha] at h
    simp only at h
    split at h
    · simp at h
    · rename_i hk
      simp only [Except.ok.injEq] at h
      simp only [Bool.or_eq_true, not_or, Bool.not_eq_true] at hk
      obtain ⟨⟨⟨⟨⟨⟨h1, h2⟩, h3⟩, h4⟩, h5⟩, h6⟩, h7⟩ := hk
      subst h
      simp [h1, h2, h3, h4, h5, h6, h7]
  | some a =>
    rw [ha] at h
    simp only at h ⊢
    unfold decodeArg at h
    split at h
    · rename_i hk
      rw [if_pos hk, if_pos hk, argIdx_ok h]
    · rename_i hc
      rw [if_neg hc, if_neg hc]
      split at h
      · rename_i hk
        rw [if_neg (by simp [hd])] at h
        rw [if_pos (by simp [hk]), if_pos hk]
        obtain ⟨x, hx, h⟩ := except_bind_ok h
        simp only [pure, Except.pure, Except.ok.injEq] at h
        subst h
        rw [local_slotAt (hf a ha hk a (fun _ => rfl) (by simp [hd])) hx]
        rcases locals_atoms (List.mem_of_getElem? (argIdx_ok hx)) with ⟨n, rfl⟩ | ⟨n, rfl⟩ | ⟨n, rfl⟩ <;> rfl
      · rename_i hl
        rw [if_neg hl]
        split at h
        · rename_i hk
          have := hK.name hk
          rw [if_neg (by simp; grind), if_pos hk, if_neg (by grind), if_pos hk]
          split at h
          · rename_i hb
            rw [if_pos hb]
            obtain ⟨n, hn, h⟩ := except_bind_ok h
            simp only [pure, Except.pure, Except.ok.injEq] at h
            subst h
            have hn := argIdx_ok hn
            rw [shr1] at hn
            simp [nameAt, hn, bit0]
          · rename_i hb
            rw [if_neg hb]
            split at h
            · rename_i hb2
              rw [if_pos hb2]
              obtain ⟨n, hn, h⟩ := except_bind_ok h
              simp only [pure, Except.pure, Except.ok.injEq] at h
              subst h
              have hn := argIdx_ok hn
              rw [shr2] at hn
              simp only [nameAt, hn, bit0, bit1]
            · rename_i hb2
              rw [if_neg hb2]
              obtain ⟨n, hn, h⟩ := except_bind_ok h
              simp only [pure, Except.pure, Except.ok.injEq] at h
              subst h
              simp [nameAt, argIdx_ok hn]
        · rename_i hn
          split at h
          · rename_i hk
            rw [if_pos (by simp [hk]), if_pos hk]
            split at h
            · obtain ⟨x, hx, h⟩ := except_bind_ok h
              rw [deref_cell hx]
              rcases cells_atoms (List.mem_of_getElem? (argIdx_ok hx)) with ⟨n, rfl⟩ | ⟨n, rfl⟩ <;>
              · simp only [pure, Except.pure, Except.ok.injEq] at h
                subst h; rfl
            · rename_i hlt
              obtain ⟨n, hx, h⟩ := except_bind_ok h
              simp only [pure, Except.pure, Except.ok.injEq] at h
              subst h
              rw [deref_free hlt hx]
          · rename_i hfr
            rw [if_neg (by simp [hl, hfr]), if_neg hn, if_neg hfr, if_neg hn]
            split at h
            · rename_i hk
              rw [if_pos hk, if_pos hk]
              obtain ⟨rfl, _⟩ := compare_enum h
              simp only [Operand.compare.injEq]
              unfold compareOf
              split
              · rw [shr5, and16]
                have : (16 * (a / 16 % 2) != 0) = decide (a / 16 % 2 = 1) := by
                  rcases Nat.mod_two_eq_zero_or_one (a / 16) with h | h <;> simp [h]
                rw [this]; simp
              · split
                · rw [shr4]
                · rfl
            · rename_i hco
              rw [if_neg hco, if_neg hco]
              split at h
              · rename_i hk
                rw [if_pos (by simp [hk]), if_pos (by simp [hk])]
                unfold intr1Enum at h
                split at h <;> simp only [Except.ok.injEq, reduceCtorEq] at h
                subst h; rfl
              · rename_i hi1
                split at h
                · rename_i hk
                  rw [if_pos (by simp [hk]), if_pos (by simp [hk])]
                  unfold intr2Enum at h
                  split at h <;> simp only [Except.ok.injEq, reduceCtorEq] at h
                  subst h; rfl
                · rename_i hi2
                  rw [if_neg (by simp [hi1, hi2]), if_neg (by simp [hi1, hi2])]
                  simp only [Except.ok.injEq] at h
                  subst h
                  simp [Arg.asInt]

/-- The operations of the instruction `to_bytecode` builds. -/
theorem decode_expand (hP : P.WF) {ci : CInstr} (hf : SlotsRead P c ci) (hv : ValidCInstr P ci) {arg : Arg} {i : Instr} {off : Int}
    (h : decodeOperand P c ci = .ok arg) (hn : i.name = ci.name) (ho : i.opcode = ci.opcode)
    (hi : i.arg = match ci.getJumpTarget P off with | some t => .label t.toNat | none => arg)
    (tgt : Nat → Option Nat) (dest : Option Nat) (ht : ∀ t, ci.getJumpTarget P off = some t → tgt t.toNat = dest) :
    expandB P key tgt i = expandC P key c dest ci := by
  unfold expandB expandC
  rw [hn, ho]
  split
  · rfl
  · cases hd : P.dualSingles ci.opcode with
    | none =>
      simp only
      cases hj : P.hasJump ci.opcode with
      | true =>
        obtain ⟨t, htt⟩ := hasJump_target hP hv off hj
        rw [htt] at hi
        simp only at hi
        unfold operandB operandC
        rw [if_pos hj, if_pos hj, hi]
        simp only [ht t htt]
      | false =>
        have htn : ci.getJumpTarget P off = none := by
          cases hx : ci.getJumpTarget P off with
          | none => rfl
          | some t => rw [target_hasJump hx] at hj; simp at hj
        rw [htn] at hi
        simp only at hi
        rw [hi, decode_operand hP hf hj (by simp [Platform.dual, hd]) h tgt dest]
    | some p =>
      obtain ⟨n1, n2⟩ := p
      simp only
      have hdual : P.dual ci.opcode = true := by simp [Platform.dual, hd]
      have hloc := hP.dual_local _ hdual
      have hK := (kinds_excl hP ci.opcode).local_ hloc
      have htn : ci.getJumpTarget P off = none := by
        cases hx : ci.getJumpTarget P off with
        | none => rfl
        | some t => rw [target_hasJump hx] at hK; simp at hK
      rw [htn] at hi
      simp only at hi
      rw [hi]
      unfold decodeOperand at h
      cases ha : ci.arg with
      | none => rw [ha] at h; simp [hloc] at h
      | some a =>
        rw [ha] at h
        simp only at h ⊢
        unfold decodeArg at h
        rw [if_neg (by simp [hK]), if_pos hloc, if_pos hdual] at h
        obtain ⟨x, hx, h⟩ := except_bind_ok h
        obtain ⟨y, hy, h⟩ := except_bind_ok h
        simp only [pure, Except.pure, Except.ok.injEq] at h
        subst h
        rw [shr4] at hx
        rw [and15] at hy
        simp only [local_slotAt (hf a ha hloc _ (by simp [hdual]) (fun _ => .inl rfl)) hx, local_slotAt (hf a ha hloc _ (by simp [hdual]) (fun _ => .inr rfl)) hy]

end
end Verif
