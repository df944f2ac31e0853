import Verif.Proofs.Operand
import Verif.Spec.Assemblable
/-
Every instruction of a well-formed `Bytecode` has an encoding.
-/
namespace Verif
open Spec

/-- What an encoding has to satisfy for the instruction to be built. -/
def EncOK (P : Platform) (A : Attrs) (T : Tabs) (op : Nat) : Enc → Prop
  | .plain c => ∃ a : Option Nat, c = .ofOpt a ∧ (P.hasArg op = true → a.isSome) ∧ (P.hasArg op = false → a = none) ∧
      ∀ v, a = some v → v ≤ 2147483647
  | .jump _ => P.hasJump op = true
  | .cell k => k < A.cellvars.length ∧ P.hasArg op = true
  | .free k => k < A.freevars.length ∧ P.hasArg op = true
  | .split n1 i1 n2 i2 => P.dualSingles op = some (n1, n2) ∧ i1 < T.varnames.length ∧ i2 < T.varnames.length

theorem addTo_len (l : List String) (n : String) : (addTo l n).1.length ≤ l.length + 1 := by
  unfold addTo; split <;> simp

theorem addTo_lt (l : List String) (n : String) : (addTo l n).2 < (addTo l n).1.length := by
  rw [addTo_idx]; exact List.idxOf_lt_length_of_mem (addTo_mem l n)

theorem addTo_le (l : List String) (n : String) : l.length ≤ (addTo l n).1.length := by
  unfold addTo; split <;> simp

theorem index_mem {l : List String} {n : String} (h : n ∈ l) : pyIndexOf l n = .ok (l.idxOf n) := by
  unfold pyIndexOf; rw [if_pos h]

section
variable {κ : Type} [DecidableEq κ]

theorem addConst_len (key : Arg → κ) (l : List Arg) (v : Arg) : (addConst key l v).1.length ≤ l.length + 1 := by
  unfold addConst; split <;> simp

theorem addConst_lt (key : Arg → κ) (l : List Arg) (v : Arg) : (addConst key l v).2 < (addConst key l v).1.length := by
  rw [addConst_idx]
  have := List.idxOf_lt_length_of_mem (addConst_mem key l v)
  simpa using this

theorem encOK_int {P : Platform} {A : Attrs} {T : Tabs} {op k : Nat} (h : P.hasArg op = true) (hk : k ≤ 2147483647) :
    EncOK P A T op (.plain (.int (k : Nat))) :=
  ⟨some k, rfl, by simp, by simp [h], by simp [hk]⟩

/-- The facts about an instruction the encoding needs. -/
structure Encodable (P : Platform) (A : Attrs) (i : Instr) : Prop where
  valid : ValidInstr P i
  compare : ∀ v, P.hascompare i.opcode = true → i.arg = .compare v → CompareMember P v
  intrinsic : ∀ v, (P.intrinsic1 i.opcode || P.intrinsic2 i.opcode) = true → i.arg = .intr1 v ∨ i.arg = .intr2 v → v ≤ 255
  jump : P.hasJump i.opcode = true → ∃ l, i.arg = .label l
  cell : ∀ n, P.hasconst i.opcode = false → i.arg = .cell n → n ∈ A.cellvars
  free : ∀ n, P.hasconst i.opcode = false → i.arg = .free n → n ∈ A.freevars
  dual : P.dual i.opcode = true → ∃ x y, i.arg = .tuple [.str x, .str y]

theorem Encodable.label {P : Platform} {A : Attrs} {i : Instr} (h : Encodable P A i) {l : Nat} (hl : i.arg = .label l) :
    P.hasJump i.opcode = true := by
  have ho := h.valid.arg_ok
  rw [hl] at ho
  cases hj : P.hasJump i.opcode with
  | true => rfl
  | false =>
    exfalso
    have harg := ho.present.2 (by simp)
    cases h1 : P.hasfree i.opcode with
    | true => rcases ho.free h1 with ⟨n, hn⟩ | ⟨n, hn⟩ <;> cases hn
    | false =>
    cases h2 : P.haslocal i.opcode with
    | true =>
      cases h3 : P.dual i.opcode with
      | true => obtain ⟨x, y, he, _⟩ := ho.dual h3; cases he
      | false => rcases ho.local_ h2 h3 with ⟨n, hn⟩ | ⟨_, ⟨n, hn⟩ | ⟨n, hn⟩⟩ <;> cases hn
    | false =>
    cases h3 : P.hasname i.opcode with
    | true =>
      cases h4 : P.bitflag i.opcode with
      | true => obtain ⟨_, _, he⟩ := ho.flag h4; cases he
      | false =>
        cases h5 : P.bitflag2 i.opcode with
        | true => obtain ⟨_, _, _, he⟩ := ho.flag2 h5; cases he
        | false => obtain ⟨_, he⟩ := ho.name h3 h4 h5; cases he
    | false =>
    cases h4 : P.hasconst i.opcode with
    | true => exact (ho.const h4).1 l rfl
    | false =>
    cases h5 : P.hascompare i.opcode with
    | true => obtain ⟨_, he⟩ := ho.compare h5; cases he
    | false =>
    cases h6 : P.intrinsic1 i.opcode with
    | true => obtain ⟨_, he⟩ := ho.intr1 h6; cases he
    | false =>
    cases h7 : P.intrinsic2 i.opcode with
    | true => obtain ⟨_, he⟩ := ho.intr2 h7; cases he
    | false =>
      obtain ⟨v, hv, _⟩ := ho.int (by simp [hj, h1, h2, h3, h4, h5, h6, h7]) harg
      simp [Arg.asInt] at hv

theorem encodeCompare_ok {P : Platform} {v : Nat} (h : CompareMember P v) : ∃ k, encodeCompare P v = .ok k ∧ k ≤ 2147483647 := by
  have key : ∀ v < 22, (v ≤ 5 ∨ 16 ≤ v) → ∃ m, compareMask v = some m ∧ m ≤ 12 := by decide
  have key2 : ∀ v < 22, ((v &&& 15) <<< 5) ≤ 480 ∧ (v &&& 16) ≤ 16 ∧ v <<< 4 ≤ 400 := by decide
  unfold encodeCompare
  rcases h with h | ⟨h9, h⟩ | ⟨h13, h1, h2⟩
  · obtain ⟨m, hm, hl⟩ := key v (by omega) (.inl h)
    obtain ⟨q1, q2, q3⟩ := key2 v (by omega)
    split
    · rw [hm]; exact ⟨_, rfl, by omega⟩
    · split
      · rw [hm]; exact ⟨_, rfl, by omega⟩
      · exact ⟨v, rfl, by omega⟩
  · have hm : ¬ 9 ≤ P.minor := by simpa [Platform.py39] using h9
    have h13 : P.py313 = false := by simp [Platform.py313]; omega
    have h12 : P.py312 = false := by simp [Platform.py312]; omega
    rw [h13, h12]
    exact ⟨v, rfl, by omega⟩
  · obtain ⟨m, hm, hl⟩ := key v (by omega) (.inr h1)
    obtain ⟨q1, q2, q3⟩ := key2 v (by omega)
    rw [h13, hm]
    exact ⟨_, rfl, by omega⟩

theorem encode_total {P : Platform} (hP : P.WF) (key : Arg → κ) {A : Attrs} (T : Tabs) {i : Instr} (h : Encodable P A i)
    (h1 : T.consts.length ≤ 2147483647) (h2 : 4 * T.names.length + 3 ≤ 2147483647) (h3 : T.varnames.length + 2 ≤ 2147483647) :
    ∃ T' enc, encodeOperand P key A T i = .ok (T', enc) ∧ EncOK P A T' i.opcode enc ∧
      T'.consts.length ≤ T.consts.length + 1 ∧ T'.names.length ≤ T.names.length + 1 ∧ T'.varnames.length ≤ T.varnames.length + 2 := by
  have ho := h.valid.arg_ok
  have K := kinds_excl hP i.opcode
  unfold encodeOperand
  split
  · rename_i l hl
    exact ⟨T, _, rfl, h.label hl, by omega, by omega, by omega⟩
  · rename_i arg hnl
    have harg : (P.hasconst i.opcode || P.haslocal i.opcode || P.hasname i.opcode || P.hasfree i.opcode || P.hascompare i.opcode ||
        P.hasjrel i.opcode || P.hasjabs i.opcode) = true → P.hasArg i.opcode = true :=
      hP.operand_arg i.name i.opcode h.valid.name_op h.valid.base
    by_cases hc : P.hasconst i.opcode = true
    · rw [if_pos hc]
      have e1 := addConst_lt key T.consts i.arg
      have e2 := addConst_len key T.consts i.arg
      exact ⟨{ T with consts := (addConst key T.consts i.arg).1 }, .plain (.int ((addConst key T.consts i.arg).2 : Nat)), rfl,
        encOK_int (harg (by simp [hc])) (by omega), e2, by simp, by simp⟩
    rw [if_neg hc]
    by_cases hl : P.haslocal i.opcode = true
    · rw [if_pos hl]
      have ha := harg (by simp [hl])
      cases hd : P.dualSingles i.opcode with
      | some p =>
        obtain ⟨n1, n2⟩ := p
        obtain ⟨x, y, hxy⟩ := h.dual (by simp [Platform.dual, hd])
        simp only [hxy]
        have a1 := addTo_lt T.varnames x
        have a2 := addTo_len T.varnames x
        have a3 := addTo_lt (addTo T.varnames x).1 y
        have a4 := addTo_len (addTo T.varnames x).1 y
        have a5 := addTo_le (addTo T.varnames x).1 y
        split
        · exact ⟨_, _, rfl, ⟨hd, by simp only; omega, by simp only; omega⟩, by simp, by simp, by simp only; omega⟩
        · rename_i hle
          simp only [Bool.or_eq_true, decide_eq_true_eq, not_or, Nat.not_lt] at hle
          refine ⟨_, _, rfl, encOK_int ha ?_, by simp, by simp, by simp only; omega⟩
          rw [Nat.shiftLeft_eq]; omega
      | none =>
        have hnd : P.dual i.opcode = false := by simp [Platform.dual, hd]
        rcases ho.local_ hl hnd with ⟨n, hn⟩ | ⟨h13, ⟨n, hn⟩ | ⟨n, hn⟩⟩
        · simp only [hn]
          have a1 := addTo_lt T.varnames n
          have a2 := addTo_len T.varnames n
          exact ⟨_, _, rfl, encOK_int ha (by omega), by simp, by simp, by simp only; omega⟩
        · simp only [hn, if_pos h13]
          have hm := h.cell n (by simpa using hc) hn
          rw [index_mem hm]
          exact ⟨_, _, rfl, ⟨List.idxOf_lt_length_of_mem hm, ha⟩, by omega, by omega, by omega⟩
        · simp only [hn, if_pos h13]
          have hm := h.free n (by simpa using hc) hn
          rw [index_mem hm]
          exact ⟨_, _, rfl, ⟨List.idxOf_lt_length_of_mem hm, ha⟩, by omega, by omega, by omega⟩
    rw [if_neg hl]
    by_cases hn : P.hasname i.opcode = true
    · rw [if_pos hn]
      have ha := harg (by simp [hn])
      have key2 : ∀ n, (addTo T.names n).2 ≤ T.names.length := fun n => by
        have a1 := addTo_lt T.names n
        have a2 := addTo_len T.names n
        omega
      by_cases hb : P.bitflag i.opcode = true
      · rw [if_pos hb]
        obtain ⟨f, n, he⟩ := ho.flag hb
        simp only [he]
        have a2 := addTo_len T.names n
        have := key2 n
        refine ⟨_, _, rfl, encOK_int ha ?_, by simp, by simpa using a2, by simp⟩
        rw [Nat.shiftLeft_eq]
        split <;> omega
      rw [if_neg hb]
      by_cases hb2 : P.bitflag2 i.opcode = true
      · rw [if_pos hb2]
        obtain ⟨f, g, n, he⟩ := ho.flag2 hb2
        simp only [he]
        have a2 := addTo_len T.names n
        have := key2 n
        refine ⟨_, _, rfl, encOK_int ha ?_, by simp, by simpa using a2, by simp⟩
        rw [Nat.shiftLeft_eq]
        split <;> split <;> omega
      rw [if_neg hb2]
      obtain ⟨n, he⟩ := ho.name hn (by simpa using hb) (by simpa using hb2)
      simp only [he]
      have a2 := addTo_len T.names n
      have := key2 n
      exact ⟨_, _, rfl, encOK_int ha (by omega), by simp, by simpa using a2, by simp⟩
    rw [if_neg hn]
    by_cases hf : P.hasfree i.opcode = true
    · rw [if_pos hf]
      have ha := harg (by simp [hf])
      rcases ho.free hf with ⟨n, he⟩ | ⟨n, he⟩
      · simp only [he]
        have hm := h.cell n (by simpa using hc) he
        rw [index_mem hm]
        exact ⟨_, _, rfl, ⟨List.idxOf_lt_length_of_mem hm, ha⟩, by omega, by omega, by omega⟩
      · simp only [he]
        have hm := h.free n (by simpa using hc) he
        rw [index_mem hm]
        exact ⟨_, _, rfl, ⟨List.idxOf_lt_length_of_mem hm, ha⟩, by omega, by omega, by omega⟩
    rw [if_neg hf]
    by_cases hcm : P.hascompare i.opcode = true
    · rw [if_pos hcm]
      obtain ⟨v, he⟩ := ho.compare hcm
      simp only [he]
      obtain ⟨k, hk, hkl⟩ := encodeCompare_ok (h.compare v hcm he)
      rw [hk]
      exact ⟨_, _, rfl, encOK_int (harg (by simp [hcm])) hkl, by omega, by omega, by omega⟩
    rw [if_neg hcm]
    by_cases hi : (P.intrinsic1 i.opcode || P.intrinsic2 i.opcode) = true
    · rw [if_pos hi]
      have ha := (hP.intr_plain i.opcode hi).1
      have he : (∃ v, i.arg = .intr1 v) ∨ ∃ v, i.arg = .intr2 v := by
        simp only [Bool.or_eq_true] at hi
        rcases hi with hi | hi
        · exact .inl (ho.intr1 hi)
        · exact .inr (ho.intr2 hi)
      rcases he with ⟨v, he⟩ | ⟨v, he⟩
      · have := h.intrinsic v hi (.inl he)
        simp only [he]
        exact ⟨_, _, rfl, encOK_int ha (by omega), by omega, by omega, by omega⟩
      · have := h.intrinsic v hi (.inr he)
        simp only [he]
        exact ⟨_, _, rfl, encOK_int ha (by omega), by omega, by omega, by omega⟩
    rw [if_neg hi]
    have hnj : P.hasJump i.opcode = false := by
      cases hj : P.hasJump i.opcode with
      | false => rfl
      | true => obtain ⟨l, hl⟩ := h.jump hj; exact absurd hl (hnl l)
    cases ha : P.hasArg i.opcode with
    | false =>
      have hu : i.arg = .unset := by
        refine Classical.byContradiction fun hne => ?_
        rw [ho.present.2 hne] at ha; cases ha
      rw [hu]
      exact ⟨T, _, rfl, ⟨none, rfl, by simp [ha], by simp, by simp⟩, by omega, by omega, by omega⟩
    | true =>
      obtain ⟨v, hv, hv0, hvm⟩ := ho.int (by
        simp only [Bool.not_eq_true, Bool.or_eq_false_iff] at hc hl hn hf hcm hi
        simp [hnj, hc, hl, hn, hf, hcm, hi]) ha
      have hne : i.arg ≠ .unset := ho.present.1 ha
      have he : encodeInt i.arg = .ok (.int v) := by
        unfold encodeInt
        split
        · rename_i hh; exact absurd hh hne
        · rw [hv]
      rw [he]
      refine ⟨T, _, rfl, ⟨some v.toNat, ?_, by simp, by simp [ha], ?_⟩, by omega, by omega, by omega⟩
      · simp only [CArg.ofOpt]; congr 1; omega
      · intro w hw; simp only [Option.some.injEq] at hw; omega
end
end Verif
