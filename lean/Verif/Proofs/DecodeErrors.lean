import Verif.Proofs.DecodeTotal
import Verif.Spec.Undecodable
import Verif.Proofs.Errors
import Verif.Proofs.OldRead
import Verif.Proofs.CodeProgram
/-
The exceptions of `to_bytecode`.
-/
namespace Verif
open Spec

variable {P : Platform} {c : Concrete}

theorem argIdx_err {α : Type} {l : List α} {a : Nat} {e : PyErr} : argIdx l a = .error e ↔ e = .indexError ∧ l.length ≤ a := by
  unfold argIdx
  split
  · rename_i x h
    have := (List.getElem?_eq_some_iff.1 h).1
    constructor
    · intro h; cases h
    · intro h; omega
  · rename_i h
    rw [List.getElem?_eq_none_iff] at h
    constructor
    · intro h'; cases h'; exact ⟨rfl, h⟩
    · rintro ⟨rfl, _⟩; rfl

theorem argIdx_ok' {α : Type} {l : List α} {a : Nat} {x : α} (h : argIdx l a = .ok x) : l[a]? = some x := by
  unfold argIdx at h
  split at h
  · rename_i y hy; cases h; exact hy
  · cases h

theorem py311_of_313 (h : P.py313 = true) : P.py311 = true := by
  simp [Platform.py313, Platform.py311] at *; omega

theorem cells_len : (cellsLookup P c).length = frameCells P c := by
  unfold cellsLookup frameCells
  split
  · simp
  · simp

theorem locals_len : (localsLookup P c).length = frameLocals P c := by
  unfold localsLookup frameLocals
  split
  · simp [cells_len]
  · simp

/-- Which slots are free variables. -/
theorem locals_kind (h13 : P.py313 = true) {k : Nat} {x : Atom} (h : (localsLookup P c)[k]? = some x) :
    x.isStrOrCell = decide (k < frameCells P c) := by
  unfold localsLookup at h
  rw [if_pos h13] at h
  by_cases hk : k < (cellsLookup P c).length
  · rw [List.getElem?_append_left hk] at h
    rw [cells_len] at hk
    rcases cells_atoms (List.mem_of_getElem? h) with ⟨n, rfl⟩ | ⟨n, rfl⟩ <;> simp [Atom.isStrOrCell, hk]
  · rw [List.getElem?_append_right (by omega), List.getElem?_map] at h
    rw [cells_len] at hk
    cases hx : (c.attrs.freevars.filter (fun n => !c.varnames.contains n))[k - (cellsLookup P c).length]? with
    | none => rw [hx] at h; cases h
    | some n => rw [hx] at h; cases h; simp [Atom.isStrOrCell, hk]

theorem dual_313 {op : Nat} (h : P.dual op = true) : P.py313 = true := by
  cases h13 : P.py313 with
  | true => rfl
  | false => simp [Platform.dual, Platform.dualSingles, h13] at h

theorem cmp_arg (a : Nat) : (if P.py313 = true then (a >>> 5) + (if (a &&& 16 != 0) = true then 1 <<< 4 else 0) else if P.py312 = true then a >>> 4 else a) = compareOf P a := by
  unfold compareOf
  split
  · rw [shr5, and16]
    have : (16 * (a / 16 % 2) != 0) = decide (a / 16 % 2 = 1) := by
      rcases Nat.mod_two_eq_zero_or_one (a / 16) with h | h <;> simp [h]
    rw [this]; simp
  · rw [shr4]

theorem compareEnum_err {v : Nat} {e : PyErr} (h : compareEnum P v = .error e) : e = .valueError ∧ ¬ CompareMember P v := by
  constructor
  · unfold compareEnum at h
    split at h <;> cases h; rfl
  · intro hm; rw [compareEnum_ok hm] at h; cases h

theorem compareEnum_bad {v : Nat} (h : ¬ CompareMember P v) : compareEnum P v = .error .valueError := by
  unfold compareEnum
  rw [if_neg]
  unfold CompareMember at h
  simp
  grind

/-- An exception of the decoding of an argument. -/
theorem decodeArg_says {op a : Nat} {e : PyErr} (h : decodeArg P c op a = .error e) : BadArg P c op a e := by
  unfold decodeArg at h
  split at h
  · rename_i k
    obtain ⟨rfl, hx⟩ := argIdx_err.1 h
    exact .const k hx
  split at h
  · rename_i k
    split at h
    · rename_i hd
      rcases except_bind_err h with h | ⟨x, _, h⟩
      · obtain ⟨rfl, hx⟩ := argIdx_err.1 h
        rw [locals_len, shr4] at hx
        exact .pair hd (.inl hx)
      · rcases except_bind_err h with h | ⟨y, _, h⟩
        · obtain ⟨rfl, hx⟩ := argIdx_err.1 h
          rw [locals_len, and15] at hx
          exact .pair hd (.inr hx)
        · cases h
    · rename_i hd
      rcases except_bind_err h with h | ⟨x, _, h⟩
      · obtain ⟨rfl, hx⟩ := argIdx_err.1 h
        rw [locals_len] at hx
        exact .local_ k (by simpa using hd) hx
      · cases h
  split at h
  · rename_i k
    split at h
    · rename_i hb
      rcases except_bind_err h with h | ⟨x, _, h⟩
      · obtain ⟨rfl, hx⟩ := argIdx_err.1 h
        refine .name k ?_
        unfold nameIndex; rw [if_pos hb, ← shr1]; exact hx
      · cases h
    · rename_i hb
      split at h
      · rename_i hb2
        rcases except_bind_err h with h | ⟨x, _, h⟩
        · obtain ⟨rfl, hx⟩ := argIdx_err.1 h
          refine .name k ?_
          unfold nameIndex; rw [if_neg hb, if_pos hb2, ← shr2]; exact hx
        · cases h
      · rename_i hb2
        rcases except_bind_err h with h | ⟨x, _, h⟩
        · obtain ⟨rfl, hx⟩ := argIdx_err.1 h
          refine .name k ?_
          unfold nameIndex; rw [if_neg hb, if_neg hb2]; exact hx
        · cases h
  split at h
  · rename_i k
    split at h
    · rename_i hlt
      rcases except_bind_err h with h | ⟨x, hx, h⟩
      · obtain ⟨rfl, hx⟩ := argIdx_err.1 h
        omega
      · rcases cells_atoms (List.mem_of_getElem? (argIdx_ok' hx)) with ⟨n, rfl⟩ | ⟨n, rfl⟩ <;> cases h
    · rename_i hlt
      rcases except_bind_err h with h | ⟨x, _, h⟩
      · obtain ⟨rfl, hx⟩ := argIdx_err.1 h
        refine .free k ?_
        rw [cells_len] at hlt hx
        omega
      · cases h
  split at h
  · rename_i k
    rw [cmp_arg] at h
    obtain ⟨rfl, hx⟩ := compareEnum_err h
    exact .compare k hx
  split at h
  · rename_i k
    unfold intr1Enum at h
    split at h <;> cases h
    exact .intr1 k (by omega)
  split at h
  · rename_i k
    unfold intr2Enum at h
    split at h <;> cases h
    exact .intr2 k (by omega)
  cases h

theorem locals_313 {k : Nat} {x : Atom} (h13 : P.py313 = false) (h : (localsLookup P c)[k]? = some x) : ∃ n, x = .str n := by
  unfold localsLookup at h
  rw [if_neg (by simp [h13]), List.getElem?_map] at h
  cases hx : c.varnames[k]? with
  | none => rw [hx] at h; cases h
  | some n => rw [hx] at h; cases h; exact ⟨n, rfl⟩

/-- A decoded argument is accepted, or is a pair with a free variable or a constant that is no Python value. -/
theorem decodeArg_check (hP : P.WF) {name : String} {op a : Nat} {arg : Arg} (hj : P.hasJump op = false) (hne : name ≠ "EXTENDED_ARG") (hA : P.hasArg op = true)
    (hr : a ≤ 2147483647) (h : decodeArg P c op a = .ok arg) :
    (Instr.checkArg P name op arg = .ok () ∧ ∀ e, ¬ BadArg P c op a e) ∨ ∃ e, Instr.checkArg P name op arg = .error e ∧ BadArg P c op a e := by
  have hK := kinds_excl hP op
  have hdl := hP.dual_local op
  have hib := hP.bitflag_name op
  have hib2 := hP.bitflag2_name op
  have hin := not_intr hP (op := op)
  unfold decodeArg at h
  unfold Instr.checkArg
  simp only [hne, if_false, hA, Bool.true_and, hj, Bool.false_eq_true, Bool.not_true, Bool.false_and]
  by_cases k1 : P.hasconst op = true
  · obtain ⟨_, k2, k3, k4, k5⟩ := hK.const k1
    obtain ⟨i1, i2⟩ := hin (by simp [k1])
    rw [if_pos k1] at h
    have hx := argIdx_ok' h
    have hl := (List.getElem?_eq_some_iff.1 hx).1
    have hdu : P.dual op = false := by simp [Platform.dual, not_dual hP k3]
    by_cases hu : arg = .unset ∨ (∃ l, arg = .label l) ∨ ∃ b, arg = .block b
    · right
      refine ⟨.valueError, ?_, .constValue k1 hx hu⟩
      rcases hu with rfl | ⟨l, rfl⟩ | ⟨b, rfl⟩ <;> simp [k2, k3, k4, k1]
    · have u1 : (arg == Arg.unset) = false := by simpa using fun e => hu (.inl e)
      left
      refine ⟨?_, ?_⟩
      · simp only [u1, k2, k3, k4, k1, Bool.or_self, Bool.false_eq_true, if_false, if_true]
        split
        · exact absurd (.inr (.inl ⟨_, rfl⟩)) hu
        · exact absurd (.inr (.inr ⟨_, rfl⟩)) hu
        · rfl
      · intro e hb
        cases hb <;> simp_all <;> omega
  have k1 : P.hasconst op = false := by simpa using k1
  rw [if_neg (by simp [k1])] at h
  by_cases k2 : P.haslocal op = true
  · obtain ⟨_, k3, k4, _, k5⟩ := hK.local_ k2
    obtain ⟨i1, i2⟩ := hin (by simp [k2])
    have hb : P.bitflag op = false := by
      cases h : P.bitflag op with
      | false => rfl
      | true => rw [(hP.bitflag_name _ h).1] at k4; cases k4
    have hb2 : P.bitflag2 op = false := by
      cases h : P.bitflag2 op with
      | false => rfl
      | true => rw [hP.bitflag2_name _ h] at k4; cases k4
    rw [if_pos k2] at h
    simp only [k1, k2, k3, k4, hb, hb2, Bool.true_or, if_true, Bool.false_eq_true, if_false]
    by_cases hdu : P.dual op = true
    · have h13 := dual_313 hdu
      rw [if_pos hdu] at h
      obtain ⟨x, hx, h⟩ := except_bind_ok h
      obtain ⟨y, hy, h'⟩ := except_bind_ok h
      cases h'
      have hx := argIdx_ok' hx
      have hy := argIdx_ok' hy
      rw [shr4] at hx
      rw [and15] at hy
      have lx := (List.getElem?_eq_some_iff.1 hx).1
      have ly := (List.getElem?_eq_some_iff.1 hy).1
      rw [locals_len] at lx ly
      have ex := locals_kind h13 hx
      have ey := locals_kind h13 hy
      simp only [hdu, if_true, Arg.isVarPair, ex, ey]
      by_cases hb : a / 16 < frameCells P c ∧ a % 16 < frameCells P c
      · left
        refine ⟨by simp [hb], ?_⟩
        intro e hb
        cases hb <;> simp_all <;> omega
      · right
        refine ⟨.typeError, ?_, .pairFree hdu (by omega) lx ly⟩
        have : (decide (a / 16 < frameCells P c) && decide (a % 16 < frameCells P c)) = false := by
          rw [Bool.eq_false_iff]; simp; omega
        rw [this]; simp
    · have hdu : P.dual op = false := by simpa using hdu
      rw [if_neg (by simp [hdu])] at h
      obtain ⟨x, hx, h'⟩ := except_bind_ok h
      cases h'
      have hx := argIdx_ok' hx
      have lx := (List.getElem?_eq_some_iff.1 hx).1
      rw [locals_len] at lx
      left
      refine ⟨?_, ?_⟩
      · by_cases h13 : P.py313 = true
        · rcases locals_atoms (List.mem_of_getElem? hx) with ⟨n, rfl⟩ | ⟨n, rfl⟩ | ⟨n, rfl⟩ <;>
            simp [Atom.toArg, hdu, h13, Arg.isCellOrFree, Arg.isStr]
        · have h13 : P.py313 = false := by simpa using h13
          obtain ⟨n, rfl⟩ := locals_313 h13 hx
          simp [Atom.toArg, hdu, h13, Arg.isStr]
      · intro e hb
        cases hb <;> simp_all <;> omega
  have k2 : P.haslocal op = false := by simpa using k2
  rw [if_neg (by simp [k2])] at h
  have hdu : P.dual op = false := by simp [Platform.dual, not_dual hP k2]
  by_cases k3 : P.hasname op = true
  · obtain ⟨_, k4, _, _, k5⟩ := hK.name k3
    obtain ⟨i1, i2⟩ := hin (by simp [k3])
    rw [if_pos k3] at h
    simp only [k1, k2, k3, k4, Bool.or_true, if_true, Bool.false_eq_true, if_false]
    left
    by_cases hb : P.bitflag op = true
    · rw [if_pos hb] at h
      obtain ⟨x, hx, h'⟩ := except_bind_ok h
      cases h'
      have hl := (List.getElem?_eq_some_iff.1 (argIdx_ok' hx)).1
      rw [shr1] at hl
      refine ⟨by simp [hb, Arg.isFlagName], ?_⟩
      intro e hbad
      cases hbad <;> simp_all [nameIndex] <;> omega
    · rw [if_neg hb] at h
      have hb : P.bitflag op = false := by simpa using hb
      by_cases hb2 : P.bitflag2 op = true
      · rw [if_pos hb2] at h
        obtain ⟨x, hx, h'⟩ := except_bind_ok h
        cases h'
        have hl := (List.getElem?_eq_some_iff.1 (argIdx_ok' hx)).1
        rw [shr2] at hl
        refine ⟨by simp [hb, hb2, Arg.isFlag2Name], ?_⟩
        intro e hbad
        cases hbad <;> simp_all [nameIndex] <;> omega
      · rw [if_neg hb2] at h
        have hb2 : P.bitflag2 op = false := by simpa using hb2
        obtain ⟨x, hx, h'⟩ := except_bind_ok h
        cases h'
        have hl := (List.getElem?_eq_some_iff.1 (argIdx_ok' hx)).1
        refine ⟨by simp [hb, hb2, hdu, Arg.isStr], ?_⟩
        intro e hbad
        cases hbad <;> simp_all [nameIndex] <;> omega
  have k3 : P.hasname op = false := by simpa using k3
  rw [if_neg (by simp [k3])] at h
  left
  by_cases k4 : P.hasfree op = true
  · obtain ⟨i1, i2⟩ := hin (by simp [k4])
    have k5 : P.hascompare op = false := by
      have := hP.one_kind op
      cases hc : P.hascompare op with
      | false => rfl
      | true => exfalso; cases P.hasJump op <;> simp_all [List.count_cons]
    rw [if_pos k4] at h
    simp only [k1, k2, k3, k4, if_true, Bool.false_eq_true, if_false]
    have hl : a < frameCells P c + c.attrs.freevars.length ∧ arg.isCellOrFree = true := by
      split at h
      · rename_i hlt
        rw [cells_len] at hlt
        obtain ⟨x, hx, h'⟩ := except_bind_ok h
        rcases cells_atoms (List.mem_of_getElem? (argIdx_ok' hx)) with ⟨n, rfl⟩ | ⟨n, rfl⟩
        · cases h'; exact ⟨by omega, rfl⟩
        · cases h'; exact ⟨by omega, rfl⟩
      · rename_i hlt
        obtain ⟨x, hx, h'⟩ := except_bind_ok h
        cases h'
        have := (List.getElem?_eq_some_iff.1 (argIdx_ok' hx)).1
        rw [cells_len] at hlt this
        exact ⟨by omega, rfl⟩
    refine ⟨?_, ?_⟩
    · have : (arg == Arg.unset) = false := by
        cases arg <;> simp_all [Arg.isCellOrFree]
      simp [hl.2, this]
    · intro e hbad
      cases hbad <;> simp_all <;> omega
  have k4 : P.hasfree op = false := by simpa using k4
  rw [if_neg (by simp [k4])] at h
  by_cases k5 : P.hascompare op = true
  · obtain ⟨i1, i2⟩ := hin (by simp [k5])
    rw [if_pos k5, cmp_arg] at h
    simp only [k1, k2, k3, k4, k5, if_true, Bool.false_eq_true, if_false, Bool.or_self]
    by_cases hm : CompareMember P (compareOf P a)
    · rw [compareEnum_ok hm] at h
      cases h
      refine ⟨by simp, ?_⟩
      intro e hbad
      cases hbad <;> simp_all
    · rw [compareEnum_bad hm] at h; cases h
  have k5 : P.hascompare op = false := by simpa using k5
  rw [if_neg (by simp [k5])] at h
  simp only [k1, k2, k3, k4, k5, Bool.false_eq_true, if_false, Bool.or_self]
  by_cases i1 : P.intrinsic1 op = true
  · have i2 := hP.intr_disjoint _ i1
    rw [if_pos i1] at h
    unfold intr1Enum at h
    split at h <;> cases h
    refine ⟨by simp [i1], ?_⟩
    intro e hbad
    cases hbad <;> simp_all <;> omega
  have i1 : P.intrinsic1 op = false := by simpa using i1
  rw [if_neg (by simp [i1])] at h
  by_cases i2 : P.intrinsic2 op = true
  · rw [if_pos i2] at h
    unfold intr2Enum at h
    split at h <;> cases h
    refine ⟨by simp [i1, i2], ?_⟩
    intro e hbad
    cases hbad <;> simp_all <;> omega
  have i2 : P.intrinsic2 op = false := by simpa using i2
  rw [if_neg (by simp [i2])] at h
  cases h
  refine ⟨?_, ?_⟩
  · simp [i1, i2, checkArgInt', Arg.asInt]; omega
  · intro e hbad
    cases hbad <;> simp_all


theorem lined_eq (line : Nat) (es : List CElem) : lined line es = normalizeLineno line es := by
  induction es generalizing line with
  | nil => rfl
  | cons e es ih =>
    cases e with
    | setLineno n => exact ih n
    | instr ci => simp [lined, normalizeLineno, locLine?, ih]

theorem instrLoc_iff (lineno : Nat) (ci : CInstr) :
    (∃ l, instrLoc P lineno ci = .ok l) ∧ ¬ (ci.loc = none ∧ P.py311 = false ∧ lineno = 0) ∨
      instrLoc P lineno ci = .error .valueError ∧ ci.loc = none ∧ P.py311 = false ∧ lineno = 0 := by
  unfold instrLoc
  cases hcl : ci.loc with
  | some l => exact .inl ⟨⟨l, rfl⟩, by simp⟩
  | none =>
    have := C11_location_accepts_exactly_coherent P.py311 (some (lineno : Int)) none none none
    by_cases h : P.py311 = false ∧ lineno = 0
    · right
      refine ⟨this.2 ?_, rfl, h⟩
      intro hv
      have := hv.line _ rfl
      rw [h.1, h.2] at this
      simp at this
    · left
      obtain ⟨l, hl, _⟩ := this.1 (by
        constructor <;> simp
        split <;> simp_all <;> omega)
      exact ⟨⟨l, hl⟩, by simpa using h⟩

theorem make_checked (hP : P.WF) {ci : CInstr} (hv : ValidCInstr P ci) (arg : Arg) (l : Loc) :
    (Instr.checkArg P ci.name ci.opcode arg = .ok () → ∃ i, Instr.make P (some ci.name) arg .unset (some l) = .ok i) ∧
      ∀ e, Instr.checkArg P ci.name ci.opcode arg = .error e → Instr.make P (some ci.name) arg .unset (some l) = .error e := by
  unfold Instr.make Instr.set_ lookupName
  have := hv.base
  simp only [hv.name_op]
  rw [if_neg (by omega)]
  constructor
  · intro h; simp only [h]; exact ⟨_, rfl⟩
  · intro e h; simp only [h]; rfl

/-- What is wrong with one instruction. -/
inductive BadInstr (P : Platform) (c : Concrete) (prune : Bool) (lineno : Nat) (ci : CInstr) : PyErr → Prop
  | arg {a : Nat} {e : PyErr} : ci.name ≠ "CACHE" → ci.arg = some a → BadArg P c ci.opcode a e → BadInstr P c prune lineno ci e
  | cache : prune = false → ci.name = "CACHE" → ci.arg.isSome → BadInstr P c prune lineno ci .valueError
  | line : P.py311 = false → ci.loc = none → lineno = 0 → BadInstr P c prune lineno ci .valueError

/-- Decoding an instruction succeeds exactly when nothing is wrong with it, and an exception says what is. -/
theorem decodeInstr_says (hP : P.WF) {prune : Bool} {ci : CInstr} (hv : ValidCInstr P ci) (hne : ci.name ≠ "EXTENDED_ARG") (off lineno : Nat) :
    (∃ main, decodeInstr P c prune off lineno ci = .ok main ∧ ∀ e, ¬ BadInstr P c prune lineno ci e) ∨
      ∃ e, decodeInstr P c prune off lineno ci = .error e ∧ BadInstr P c prune lineno ci e := by
  have hname : ci.name = "CACHE" ↔ P.py311 = true ∧ ci.opcode = 0 := by
    cases h11 : P.py311 with
    | true => simpa using cache_iff hP h11 hv
    | false => simpa using old_name hP h11 hv
  have h0 : ci.name ≠ "CACHE" → ci.opcode ≠ 0 := by
    cases h11 : P.py311 with
    | true => intro h; simpa using mt (cache_iff hP h11 hv).2 h
    | false => intro _; exact old_opcode hP h11 hv
  have hnone : P.hasArg ci.opcode = false → P.hasJump ci.opcode = false ∧ P.hasconst ci.opcode = false ∧ P.haslocal ci.opcode = false ∧ P.hasname ci.opcode = false ∧
      P.hasfree ci.opcode = false ∧ P.hascompare ci.opcode = false ∧ P.intrinsic1 ci.opcode = false ∧ P.intrinsic2 ci.opcode = false := by
    intro hA
    have hk : (P.hasconst ci.opcode || P.haslocal ci.opcode || P.hasname ci.opcode || P.hasfree ci.opcode || P.hascompare ci.opcode ||
        P.hasjrel ci.opcode || P.hasjabs ci.opcode) = false := by
      rw [Bool.eq_false_iff]; intro h; rw [hP.operand_arg _ _ hv.name_op hv.base h] at hA; cases hA
    have hi : (P.intrinsic1 ci.opcode || P.intrinsic2 ci.opcode) = false := by
      rw [Bool.eq_false_iff]; intro h; rw [(hP.intr_plain _ h).1] at hA; cases hA
    simp only [Bool.or_eq_false_iff] at hk hi
    simp [Platform.hasJump, *]
  have hnoj : P.hasJump ci.opcode = false → ci.getJumpTarget P off = none := by
    intro hj
    cases hx : ci.getJumpTarget P off with
    | none => rfl
    | some t => rw [target_hasJump hx] at hj; cases hj
  unfold decodeInstr
  by_cases hpc : (prune && ci.name == "CACHE") = true
  · simp only [hpc, if_true]
    simp only [Bool.and_eq_true, beq_iff_eq] at hpc
    obtain ⟨h11, hz⟩ := hname.1 hpc.2
    have hA : P.hasArg ci.opcode = false := by rw [hz]; exact hP.zero
    rw [hnoj (hnone hA).1]
    refine .inl ⟨[], by simp [pyAssert, bind, Except.bind, pure, Except.pure], ?_⟩
    intro e hb
    cases hb <;> simp_all
  simp only [hpc, Bool.false_eq_true, if_false]
  -- the operand, then the location, then the instruction
  have key : (∃ arg, decodeOperand P c ci = .ok arg ∧
      ((Instr.checkArg P ci.name ci.opcode (match ci.getJumpTarget P off with | some t => .label t.toNat | none => arg) = .ok () ∧
          ∀ e, BadInstr P c prune lineno ci e → P.py311 = false ∧ ci.loc = none ∧ lineno = 0) ∨
        ∃ e, Instr.checkArg P ci.name ci.opcode (match ci.getJumpTarget P off with | some t => .label t.toNat | none => arg) = .error e ∧
          BadInstr P c prune lineno ci e)) ∨
      ∃ e, decodeOperand P c ci = .error e ∧ BadInstr P c prune lineno ci e := by
    unfold decodeOperand
    cases ha : ci.arg with
    | none =>
      have hA : P.hasArg ci.opcode = false := by
        rw [Bool.eq_false_iff]; intro h; have := hv.arg_required h; rw [ha] at this; cases this
      obtain ⟨k0, k1, k2, k3, k4, k5, k6, k7⟩ := hnone hA
      left
      refine ⟨.unset, by simp [*], .inl ⟨?_, ?_⟩⟩
      · rw [hnoj k0]; unfold Instr.checkArg; simp [*]
      · intro e hb; cases hb <;> simp_all
    | some a =>
      simp only
      by_cases hc : ci.name = "CACHE"
      · obtain ⟨h11, hz⟩ := hname.1 hc
        have hA : P.hasArg ci.opcode = false := by rw [hz]; exact hP.zero
        obtain ⟨k0, k1, k2, k3, k4, k5, k6, k7⟩ := hnone hA
        clear hz
        left
        refine ⟨.int a, by unfold decodeArg; simp [*], .inr ⟨.valueError, ?_, .cache (by simpa [hc] using hpc) hc (by simp [ha])⟩⟩
        rw [hnoj k0]; unfold Instr.checkArg; simp [*]
      · have hA : P.hasArg ci.opcode = true := by
          cases h : P.hasArg ci.opcode with
          | true => rfl
          | false => have := hv.arg_forbidden h (h0 hc); rw [ha] at this; cases this
        by_cases hj : P.hasJump ci.opcode = true
        · obtain ⟨k1, k2, k3, k4, k5⟩ := (kinds_excl hP ci.opcode).jump hj
          obtain ⟨i1, i2⟩ := not_intr hP (op := ci.opcode) (by simp [hj])
          have hdu : P.dual ci.opcode = false := by simp [Platform.dual, not_dual hP, *]
          obtain ⟨t, ht⟩ := hasJump_target hP hv off hj
          left
          refine ⟨.int a, by unfold decodeArg; simp [*], .inl ⟨?_, ?_⟩⟩
          · rw [ht]; unfold Instr.checkArg; simp [hne, hA, hj]
          · intro e hb
            cases hb with
            | arg h1 h2 h3 => cases h3 <;> simp_all
            | cache => simp_all
            | line => simp_all
        · have hj : P.hasJump ci.opcode = false := by simpa using hj
          rw [hnoj hj]
          cases hd : decodeArg P c ci.opcode a with
          | error e => exact .inr ⟨e, rfl, .arg hc ha (decodeArg_says hd)⟩
          | ok arg =>
            left
            refine ⟨arg, rfl, ?_⟩
            rcases decodeArg_check hP hj hne hA (hv.arg_range a ha) hd with ⟨h1, h2⟩ | ⟨e, h1, h2⟩
            · refine .inl ⟨h1, ?_⟩
              intro e hb
              cases hb with
              | arg _ h5 h3 => rw [ha] at h5; cases h5; exact absurd h3 (h2 _)
              | cache => simp_all
              | line => simp_all
            · exact .inr ⟨e, h1, .arg hc ha h2⟩
  rcases key with ⟨arg, h1, h2⟩ | ⟨e, h1, h2⟩
  · rcases instrLoc_iff (P := P) lineno ci with ⟨⟨l, hl⟩, hnl⟩ | ⟨hl, hb⟩
    · rcases h2 with ⟨h2, h3⟩ | ⟨e, h2, h3⟩
      · left
        obtain ⟨i, hi⟩ := (make_checked hP hv _ l).1 h2
        refine ⟨[.instr i], ?_, ?_⟩
        · cases hx : ci.getJumpTarget P off with
          | none => rw [hx] at hi; simp only at hi; simp only [h1, hl, bind, Except.bind, hi]; rfl
          | some t => rw [hx] at hi; simp only at hi; simp only [h1, hl, bind, Except.bind, hi]; rfl
        · intro e he
          obtain ⟨a, b, d⟩ := h3 e he
          exact hnl ⟨b, a, d⟩
      · right
        have hi := (make_checked hP hv _ l).2 e h2
        refine ⟨e, ?_, h3⟩
        cases hx : ci.getJumpTarget P off with
        | none => rw [hx] at hi; simp only at hi; simp only [h1, hl, bind, Except.bind, hi]
        | some t => rw [hx] at hi; simp only at hi; simp only [h1, hl, bind, Except.bind, hi]
    · right
      exact ⟨.valueError, by simp only [h1, hl, bind, Except.bind], .line hb.2.1 hb.1 hb.2.2⟩
  · right
    exact ⟨e, by simp only [h1, bind, Except.bind], h2⟩


theorem exStart_iff (hn : (c.excTable.map (·.start)).Nodup) {off k : Nat} :
    exStart c off = some k ↔ ∃ e, c.excTable[k]? = some e ∧ e.start = (off : Int) := by
  unfold exStart
  rw [List.findIdx?_eq_some_iff_getElem]
  constructor
  · rintro ⟨h, h1, _⟩
    exact ⟨_, List.getElem?_eq_getElem h, by simpa using h1⟩
  · rintro ⟨e, he, h1⟩
    obtain ⟨hk, rfl⟩ := List.getElem?_eq_some_iff.1 he
    refine ⟨hk, by simpa using h1, ?_⟩
    intro j hj
    simp only [decide_eq_true_eq]
    intro h2
    have := List.nodup_iff_getElem?_ne_getElem?.1 hn j k hj (by simpa using hk)
    apply this
    rw [List.getElem?_map, List.getElem?_map, List.getElem?_eq_getElem hk, List.getElem?_eq_getElem (by omega)]
    simp [h1, h2]

theorem mem_openEntry (hn : (c.excTable.map (·.start)).Nodup) {conserve : Bool} {tbs : List Nat} {off k : Nat} :
    k ∈ (openEntry c conserve tbs off).2 ↔ k ∈ tbs ∨ ∃ e, c.excTable[k]? = some e ∧ e.start = (off : Int) := by
  rw [← exStart_iff hn]
  unfold openEntry
  cases hx : exStart c off with
  | none => simp
  | some j =>
    simp only
    split <;> simp <;> grind

theorem mem_closeEntries {conserve : Bool} {k : Nat} (l tbs : List Nat) : k ∈ (closeEntries c conserve tbs l).2 ↔ k ∈ tbs ∨ k ∈ l := by
  induction l generalizing tbs with
  | nil => simp [closeEntries]
  | cons x l ih =>
    unfold closeEntries
    split
    · simp only [ih]; grind
    · simp only [ih]; grind

theorem empty_target {prune : Bool} {off lineno : Nat} {ci : CInstr} {main : List BElem} (h : decodeInstr P c prune off lineno ci = .ok main) (he : main.isEmpty = true) :
    ci.getJumpTarget P off = none := by
  unfold decodeInstr at h
  simp only at h
  split at h
  · obtain ⟨u, hu, h⟩ := except_bind_ok h
    unfold pyAssert at hu
    split at hu
    · rename_i hx; simpa using hx
    · cases hu
  · obtain ⟨a, _, h⟩ := except_bind_ok h
    obtain ⟨b, _, h⟩ := except_bind_ok h
    obtain ⟨d, _, h⟩ := except_bind_ok h
    cases h; cases he

/-- The loop: it succeeds exactly when nothing is wrong with an instruction. -/
theorem loop_says (hP : P.WF) {prune conserve : Bool} {targets : List Int} (hn : (c.excTable.map (·.start)).Nodup) (es : List CElem)
    (hv : ∀ ci, .instr ci ∈ es → ValidCInstr P ci ∧ ci.name ≠ "EXTENDED_ARG") (line off : Nat) (tbs : List Nat) :
    (∃ d, decodeLoop P c prune conserve targets off tbs (normalizeLineno line es) = .ok d ∧
      (∀ l ci e, (l, ci) ∈ normalizeLineno line es → ¬ BadInstr P c prune l ci e) ∧
      (∀ t, t ∈ d.labels ↔ t ∈ starts P off es ∧ (t : Int) ∈ targets) ∧
      (∀ t, t ∈ d.jumps ↔ ∃ o ci, (o, ci) ∈ placed P off es ∧ ci.getJumpTarget P o = some t) ∧
      (∀ k, k ∈ d.tbs ↔ k ∈ tbs ∨ ∃ e, c.excTable[k]? = some e ∧ ((∃ s ∈ starts P off es, e.start = (s : Int)) ∨ ∃ s ∈ opcodeOffsets P off es, e.stop = (s : Int)))) ∨
    (∃ e l ci, decodeLoop P c prune conserve targets off tbs (normalizeLineno line es) = .error e ∧
      (l, ci) ∈ normalizeLineno line es ∧ BadInstr P c prune l ci e) := by
  induction es generalizing line off tbs with
  | nil => exact .inl ⟨⟨[], [], [], tbs⟩, rfl, by simp [normalizeLineno], by simp [starts], by simp [placed], by simp [starts, opcodeOffsets]⟩
  | cons e es ih =>
    have ih := ih (fun ci hci => hv ci (by simp [hci]))
    cases e with
    | setLineno l => exact ih l off tbs
    | instr ci =>
      obtain ⟨hvi, hne⟩ := hv ci (by simp)
      rw [normalizeLineno]
      generalize hline : (locLine? ci.loc).getD line = line' at *
      have h2 := valid_size hvi
      have hu := units_pos P ci h2
      have e1 : off + (ci.units P - P.unit) = off + ci.units P - P.unit := by omega
      have e2 : off + ci.units P - P.unit + P.unit = off + ci.units P := by omega
      have e3 : (if P.py310 = true then 1 else 2) = P.unit := by rfl
      rcases decodeInstr_says (c := c) hP (prune := prune) hvi hne off line' with ⟨main, hm, hok⟩ | ⟨e, hm, hbad⟩
      · rcases ih line' (off + ci.units P) (closeEntries c conserve (openEntry c conserve tbs off).2 (exEnd c (off + ci.units P - P.unit)).reverse).2
          with ⟨d, hd', hins, hlab, hjmp, htb⟩ | ⟨e, l, ci', hd', hmem, hbad⟩
        · left
          unfold decodeLoop
          simp only [hm, bind, Except.bind, e1, e2, hd']
          refine ⟨_, rfl, ?_, ?_, ?_, ?_⟩
          · intro l ci' e hmem
            rcases List.mem_cons.1 hmem with hx | hx
            · cases hx; exact hok e
            · exact hins l ci' e hx
          · intro t
            simp only [List.mem_append, hlab, starts, List.mem_cons, width_units]
            by_cases ht : (off : Int) ∈ targets
            · simp only [ht, decide_true, if_true, List.mem_singleton]
              constructor
              · rintro (rfl | ⟨a, b⟩)
                · exact ⟨.inl rfl, ht⟩
                · exact ⟨.inr a, b⟩
              · rintro ⟨rfl | a, b⟩
                · exact .inl rfl
                · exact .inr ⟨a, b⟩
            · simp only [ht, decide_false, Bool.false_eq_true, if_false, List.not_mem_nil, false_or]
              constructor
              · rintro ⟨a, b⟩; exact ⟨.inr a, b⟩
              · rintro ⟨rfl | a, b⟩
                · exact absurd b ht
                · exact ⟨a, b⟩
          · intro t
            simp only [List.mem_append, hjmp, placed, List.mem_cons, width_units, Prod.mk.injEq]
            have : t ∈ (if main.isEmpty = true then [] else (ci.getJumpTarget P off).toList) ↔ ci.getJumpTarget P off = some t := by
              split
              · rename_i hx; rw [empty_target hm hx]; simp
              · simp
            rw [this]
            constructor
            · rintro (a | ⟨o, ci', a, b⟩)
              · exact ⟨off, ci, .inl ⟨rfl, rfl⟩, a⟩
              · exact ⟨o, ci', .inr a, b⟩
            · rintro ⟨o, ci', ⟨rfl, rfl⟩ | a, b⟩
              · exact .inl b
              · exact .inr ⟨o, ci', a, b⟩
          · intro k
            simp only [htb, mem_closeEntries, mem_openEntry hn, List.mem_reverse, mem_exEnd, starts, opcodeOffsets, List.mem_cons, width_units, e3]
            constructor
            · rintro (((a | ⟨e, a, b⟩) | ⟨e, a, b⟩) | ⟨e, a, ⟨s, b, d⟩ | ⟨s, b, d⟩⟩)
              · exact .inl a
              · exact .inr ⟨e, a, .inl ⟨_, .inl rfl, b⟩⟩
              · exact .inr ⟨e, a, .inr ⟨_, .inl rfl, b⟩⟩
              · exact .inr ⟨e, a, .inl ⟨s, .inr b, d⟩⟩
              · exact .inr ⟨e, a, .inr ⟨s, .inr b, d⟩⟩
            · rintro (a | ⟨e, a, ⟨s, rfl | b, d⟩ | ⟨s, rfl | b, d⟩⟩)
              · exact .inl (.inl (.inl a))
              · exact .inl (.inl (.inr ⟨e, a, d⟩))
              · exact .inr ⟨e, a, .inl ⟨s, b, d⟩⟩
              · exact .inl (.inr ⟨e, a, d⟩)
              · exact .inr ⟨e, a, .inr ⟨s, b, d⟩⟩
        · right
          refine ⟨e, l, ci', ?_, List.mem_cons_of_mem _ hmem, hbad⟩
          unfold decodeLoop
          simp only [hm, bind, Except.bind, e1, e2, hd']
      · right
        refine ⟨e, line', ci, ?_, by simp, hbad⟩
        unfold decodeLoop
        simp only [hm, bind, Except.bind]

end Verif
