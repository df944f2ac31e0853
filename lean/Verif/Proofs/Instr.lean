import Verif.Spec.Operands
import Verif.Proofs.ConcreteInstr
namespace Verif
open Spec

/-- At most one of the six kinds, unpacked. -/
theorem kinds {a b c d e f : Bool} (h : [a, b, c, d, e, f].count true ≤ 1) :
    (a = true → b = false ∧ c = false ∧ d = false ∧ e = false ∧ f = false) ∧
    (b = true → a = false ∧ c = false ∧ d = false ∧ e = false ∧ f = false) ∧
    (c = true → a = false ∧ b = false ∧ d = false ∧ e = false ∧ f = false) ∧
    (d = true → a = false ∧ b = false ∧ c = false ∧ e = false ∧ f = false) ∧
    (e = true → a = false ∧ b = false ∧ c = false ∧ d = false ∧ f = false) ∧
    (f = true → a = false ∧ b = false ∧ c = false ∧ d = false ∧ e = false) := by
  cases a <;> cases b <;> cases c <;> cases d <;> cases e <;> cases f <;> simp at h ⊢

theorem isFlagName_iff (a : Arg) : a.isFlagName = true ↔ ∃ b n, a = .tuple [.bool b, .str n] := by
  unfold Arg.isFlagName
  split
  · rename_i b n; exact ⟨fun _ => ⟨b, n, rfl⟩, fun _ => rfl⟩
  · rename_i h; exact ⟨by simp, fun ⟨b, n, hh⟩ => absurd hh (h b n)⟩
theorem isFlag2Name_iff (a : Arg) : a.isFlag2Name = true ↔ ∃ b c n, a = .tuple [.bool b, .bool c, .str n] := by
  unfold Arg.isFlag2Name
  split
  · rename_i b c n; exact ⟨fun _ => ⟨b, c, n, rfl⟩, fun _ => rfl⟩
  · rename_i h; exact ⟨by simp, fun ⟨b, c, n, hh⟩ => absurd hh (h b c n)⟩
theorem isStrOrCell_iff (x : Atom) : x.isStrOrCell = true ↔ (∃ n, x = .str n) ∨ ∃ n, x = .cell n := by
  cases x <;> simp [Atom.isStrOrCell]
theorem isVarPair_iff (a : Arg) : a.isVarPair = true ↔ ∃ x y, a = .tuple [x, y] ∧ ((∃ n, x = .str n) ∨ ∃ n, x = .cell n) ∧
      ((∃ n, y = .str n) ∨ ∃ n, y = .cell n) := by
  unfold Arg.isVarPair
  split
  · rename_i x y
    simp only [Bool.and_eq_true, isStrOrCell_iff, Arg.tuple.injEq, List.cons.injEq, and_true]
    constructor
    · intro h; exact ⟨x, y, ⟨rfl, rfl⟩, h⟩
    · rintro ⟨_, _, ⟨rfl, rfl⟩, h⟩; exact h
  · rename_i h; exact ⟨by simp, fun ⟨x, y, hh, _⟩ => absurd hh (h x y)⟩
theorem isCellOrFree_iff (a : Arg) : a.isCellOrFree = true ↔ (∃ n, a = .cell n) ∨ ∃ n, a = .free n := by
  cases a <;> simp [Arg.isCellOrFree]
theorem isStr_iff (a : Arg) : a.isStr = true ↔ ∃ n, a = .str n := by
  cases a <;> simp [Arg.isStr]

set_option maxHeartbeats 2000000 in
/-- `_check_arg` accepts exactly the documented arguments. -/
theorem checkArg_iff (P : Platform) (hP : P.WF) (name : String) (op : Nat) (hn : name ≠ "EXTENDED_ARG") (arg : Arg) :
    Instr.checkArg P name op arg = .ok () ↔ ArgOK P op arg := by
  obtain ⟨k1, k2, k3, k4, k5, k6⟩ := kinds (hP.one_kind op)
  have hbf := hP.bitflag_name op
  have hbf2 := hP.bitflag2_name op
  have hdl := hP.dual_local op
  have hip := hP.intr_plain op
  have hid := hP.intr_disjoint op
  have hjmp : P.hasJump op = (P.hasjrel op || P.hasjabs op) := rfl
  unfold Instr.checkArg
  rw [if_neg hn]
  by_cases hpres : ¬ (P.hasArg op = true ↔ arg ≠ .unset)
  · -- presence is wrong
    have : (P.hasArg op && arg == .unset) = true ∨ (!P.hasArg op && arg != .unset) = true := by
      cases hA : P.hasArg op <;> simp [hA] at hpres ⊢ <;> exact hpres
    constructor
    · intro h
      rcases this with h1 | h1
      · rw [if_pos h1] at h; simp at h
      · by_cases h2 : (P.hasArg op && arg == .unset) = true
        · rw [if_pos h2] at h; simp at h
        · rw [if_neg h2, if_pos h1] at h; simp at h
    · intro h; exact absurd h.present hpres
  replace hpres := Classical.not_not.1 hpres
  have e1 : (P.hasArg op && arg == .unset) = false := by
    cases hA : P.hasArg op <;> simp [hA] at hpres ⊢; exact hpres
  have e2 : (!P.hasArg op && arg != .unset) = false := by
    cases hA : P.hasArg op <;> simp [hA] at hpres ⊢; exact hpres
  simp only [e1, e2, Bool.false_eq_true, if_false]
  by_cases hj : P.hasJump op = true
  · obtain ⟨a1, a2, a3, a4, a5⟩ := k1 hj
    have b1 : P.bitflag op = false := by cases h : P.bitflag op <;> simp_all
    have b2 : P.bitflag2 op = false := by cases h : P.bitflag2 op <;> simp_all
    have b3 : P.dual op = false := by cases h : P.dual op <;> simp_all
    have b4 : (P.intrinsic1 op || P.intrinsic2 op) = false := by cases h : (P.intrinsic1 op || P.intrinsic2 op) <;> simp_all
    simp only [Bool.or_eq_false_iff] at b4
    rw [if_pos hj]
    constructor
    · intro h
      refine ⟨hpres, fun _ => ?_, ?_, ?_, ?_, ?_, ?_, ?_, ?_, ?_, ?_, ?_, ?_⟩ <;> try simp_all
      cases arg <;> simp_all
    · intro h
      rcases h.jump hj with ⟨l, rfl⟩ | ⟨b, rfl⟩ <;> rfl
  rw [if_neg hj]
  simp only [Bool.not_eq_true] at hj
  by_cases hf : P.hasfree op = true
  · obtain ⟨a1, a2, a3, a4, a5⟩ := k2 hf
    have b1 : P.bitflag op = false := by cases h : P.bitflag op <;> simp_all
    have b2 : P.bitflag2 op = false := by cases h : P.bitflag2 op <;> simp_all
    have b3 : P.dual op = false := by cases h : P.dual op <;> simp_all
    have b4 : (P.intrinsic1 op || P.intrinsic2 op) = false := by cases h : (P.intrinsic1 op || P.intrinsic2 op) <;> simp_all
    simp only [Bool.or_eq_false_iff] at b4
    rw [if_pos hf]
    constructor
    · intro h
      refine ⟨hpres, ?_, fun _ => ?_, ?_, ?_, ?_, ?_, ?_, ?_, ?_, ?_, ?_, ?_⟩ <;> try simp_all
      cases hc : arg.isCellOrFree
      · simp [hc] at h
      · exact (isCellOrFree_iff arg).1 hc
    · intro h
      rw [if_pos ((isCellOrFree_iff arg).2 (h.free hf))]
  rw [if_neg hf]
  simp only [Bool.not_eq_true] at hf
  by_cases hln : (P.haslocal op || P.hasname op) = true
  · rw [if_pos hln]
    have b4 : (P.intrinsic1 op || P.intrinsic2 op) = false := by
      cases h : (P.intrinsic1 op || P.intrinsic2 op)
      · rfl
      · have := (hip h).2
        cases h1 : P.haslocal op <;> simp_all
    simp only [Bool.or_eq_false_iff] at b4
    have a4 : P.hasconst op = false ∧ P.hascompare op = false := by
      cases h1 : P.haslocal op
      · rw [h1] at hln; simp only [Bool.false_or] at hln
        exact ⟨(k4 hln).2.2.2.1, (k4 hln).2.2.2.2⟩
      · exact ⟨(k3 h1).2.2.2.1, (k3 h1).2.2.2.2⟩
    by_cases hb : P.bitflag op = true
    · have hnm := (hbf hb).1
      have hl : P.haslocal op = false := (k4 hnm).2.2.1
      have hb2 := (hbf hb).2
      have hd : P.dual op = false := by cases h : P.dual op <;> simp_all
      rw [if_pos hb]
      constructor
      · intro h
        have : arg.isFlagName = true := by cases hc : arg.isFlagName <;> simp_all
        refine ⟨hpres, ?_, ?_, ?_, fun _ => (isFlagName_iff arg).1 this, ?_, ?_, ?_, ?_, ?_, ?_, ?_, ?_⟩ <;> simp_all
      · intro h; rw [if_pos ((isFlagName_iff arg).2 (h.flag hb))]
    rw [if_neg hb]
    simp only [Bool.not_eq_true] at hb
    by_cases hb2 : P.bitflag2 op = true
    · have hnm := hbf2 hb2
      have hl : P.haslocal op = false := (k4 hnm).2.2.1
      have hd : P.dual op = false := by cases h : P.dual op <;> simp_all
      rw [if_pos hb2]
      constructor
      · intro h
        have : arg.isFlag2Name = true := by cases hc : arg.isFlag2Name <;> simp_all
        refine ⟨hpres, ?_, ?_, ?_, ?_, fun _ => (isFlag2Name_iff arg).1 this, ?_, ?_, ?_, ?_, ?_, ?_, ?_⟩ <;> simp_all
      · intro h; rw [if_pos ((isFlag2Name_iff arg).2 (h.flag2 hb2))]
    rw [if_neg hb2]
    simp only [Bool.not_eq_true] at hb2
    by_cases hd : P.dual op = true
    · have hl := hdl hd
      have hnm := (k3 hl).2.2.1
      rw [if_pos hd]
      constructor
      · intro h
        have : arg.isVarPair = true := by cases hc : arg.isVarPair <;> simp_all
        refine ⟨hpres, ?_, ?_, ?_, ?_, ?_, ?_, fun _ => (isVarPair_iff arg).1 this, ?_, ?_, ?_, ?_, ?_⟩ <;> simp_all
      · intro h; rw [if_pos ((isVarPair_iff arg).2 (h.dual hd))]
    rw [if_neg hd]
    simp only [Bool.not_eq_true] at hd
    by_cases hcf : (P.py313 && P.haslocal op && arg.isCellOrFree) = true
    · rw [if_pos hcf]
      simp only [Bool.and_eq_true] at hcf
      have hnm := (k3 hcf.1.2).2.2.1
      refine ⟨fun _ => ⟨hpres, ?_, ?_, ?_, ?_, ?_, fun _ _ => .inr ⟨hcf.1.1, (isCellOrFree_iff arg).1 hcf.2⟩, ?_, ?_, ?_, ?_, ?_, ?_⟩, fun _ => rfl⟩ <;> simp_all
    · rw [if_neg hcf]
      constructor
      · intro h
        have hs : ∃ n, arg = .str n := by
          rw [← isStr_iff]; cases hc : arg.isStr <;> simp_all
        refine ⟨hpres, ?_, ?_, fun _ _ _ => hs, ?_, ?_, fun _ _ => .inl hs, ?_, ?_, ?_, ?_, ?_, ?_⟩ <;> simp_all
        intro h1 h2; simp_all
      · intro h
        have hs : arg.isStr = true := by
          rw [isStr_iff]
          cases hl : P.haslocal op
          · rw [hl] at hln; simp only [Bool.false_or] at hln
            exact h.name hln hb hb2
          · rcases h.local_ hl hd with hs | ⟨h1, h2⟩
            · exact hs
            · rw [← isCellOrFree_iff] at h2
              exact absurd (by simp [h1, hl, h2]) hcf
        simp [hs]
  rw [if_neg hln]
  simp only [Bool.not_eq_true, Bool.or_eq_false_iff] at hln
  obtain ⟨hl, hnm⟩ := hln
  have b1 : P.bitflag op = false := by cases h : P.bitflag op <;> simp_all
  have b2 : P.bitflag2 op = false := by cases h : P.bitflag2 op <;> simp_all
  have b3 : P.dual op = false := by cases h : P.dual op <;> simp_all
  by_cases hc : P.hasconst op = true
  · rw [if_pos hc]
    have hcm := (k5 hc).2.2.2.2
    have b4 : (P.intrinsic1 op || P.intrinsic2 op) = false := by
      cases h : (P.intrinsic1 op || P.intrinsic2 op)
      · rfl
      · have := (hip h).2; simp_all
    simp only [Bool.or_eq_false_iff] at b4
    constructor
    · intro h
      refine ⟨hpres, ?_, ?_, ?_, ?_, ?_, ?_, ?_, fun _ => ?_, ?_, ?_, ?_, ?_⟩ <;> try simp_all
      constructor <;> (intro x hx; subst hx; simp at h)
    · intro h
      have := h.const hc
      cases arg <;> simp_all
  rw [if_neg hc]
  simp only [Bool.not_eq_true] at hc
  by_cases hcm : P.hascompare op = true
  · rw [if_pos hcm]
    have b4 : (P.intrinsic1 op || P.intrinsic2 op) = false := by
      cases h : (P.intrinsic1 op || P.intrinsic2 op)
      · rfl
      · have := (hip h).2; simp_all
    simp only [Bool.or_eq_false_iff] at b4
    constructor
    · intro h
      refine ⟨hpres, ?_, ?_, ?_, ?_, ?_, ?_, ?_, ?_, fun _ => ?_, ?_, ?_, ?_⟩ <;> try simp_all
      cases arg <;> simp_all
    · intro h
      obtain ⟨v, rfl⟩ := h.compare hcm; rfl
  rw [if_neg hcm]
  simp only [Bool.not_eq_true] at hcm
  by_cases h1 : P.intrinsic1 op = true
  · have h2 := hid h1
    rw [if_pos h1]
    constructor
    · intro h
      refine ⟨hpres, ?_, ?_, ?_, ?_, ?_, ?_, ?_, ?_, ?_, fun _ => ?_, ?_, ?_⟩ <;> try simp_all
      cases arg <;> simp_all
    · intro h
      obtain ⟨v, rfl⟩ := h.intr1 h1; rfl
  rw [if_neg h1]
  simp only [Bool.not_eq_true] at h1
  by_cases h2 : P.intrinsic2 op = true
  · rw [if_pos h2]
    constructor
    · intro h
      refine ⟨hpres, ?_, ?_, ?_, ?_, ?_, ?_, ?_, ?_, ?_, ?_, fun _ => ?_, ?_⟩ <;> try simp_all
      cases arg <;> simp_all
    · intro h
      obtain ⟨v, rfl⟩ := h.intr2 h2; rfl
  rw [if_neg h2]
  simp only [Bool.not_eq_true] at h2
  have hint : checkArgInt' arg = .ok () ↔ ∃ v : Int, arg.asInt = some v ∧ 0 ≤ v ∧ v ≤ 2147483647 := by
    unfold checkArgInt'
    cases arg.asInt with
    | none => simp
    | some v =>
      simp only [Option.some.injEq, exists_eq_left']
      split <;> simp_all
  by_cases hA : P.hasArg op = true
  · rw [if_pos hA, hint]
    refine ⟨fun h => ⟨hpres, ?_, ?_, ?_, ?_, ?_, ?_, ?_, ?_, ?_, ?_, ?_, fun _ _ => h⟩, fun h => h.int (by simp_all) hA⟩ <;> simp_all
  · rw [if_neg hA]
    refine ⟨fun _ => ⟨hpres, ?_, ?_, ?_, ?_, ?_, ?_, ?_, ?_, ?_, ?_, ?_, ?_⟩, fun _ => rfl⟩ <;> simp_all

end Verif
