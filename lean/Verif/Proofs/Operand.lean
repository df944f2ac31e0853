import Verif.Proofs.Walk
import Verif.Spec.Kept
/-
The operands of the converter's result mean what the source operands mean.
-/
namespace Verif
open Spec

structure Kinds (P : Platform) (op : Nat) : Prop where
  jump : P.hasJump op = true → P.hasfree op = false ∧ P.haslocal op = false ∧ P.hasname op = false ∧ P.hasconst op = false ∧ P.hascompare op = false
  free : P.hasfree op = true → P.hasJump op = false ∧ P.haslocal op = false ∧ P.hasname op = false ∧ P.hasconst op = false ∧ P.hascompare op = false
  local_ : P.haslocal op = true → P.hasJump op = false ∧ P.hasfree op = false ∧ P.hasname op = false ∧ P.hasconst op = false ∧ P.hascompare op = false
  name : P.hasname op = true → P.hasJump op = false ∧ P.hasfree op = false ∧ P.haslocal op = false ∧ P.hasconst op = false ∧ P.hascompare op = false
  const : P.hasconst op = true → P.hasJump op = false ∧ P.hasfree op = false ∧ P.haslocal op = false ∧ P.hasname op = false ∧ P.hascompare op = false
  compare : P.hascompare op = true → P.hasJump op = false ∧ P.hasfree op = false ∧ P.haslocal op = false ∧ P.hasname op = false ∧ P.hasconst op = false

theorem kinds_excl {P : Platform} (hP : P.WF) (op : Nat) : Kinds P op := by
  have h := hP.one_kind op
  cases h1 : P.hasJump op <;> cases h2 : P.hasfree op <;> cases h3 : P.haslocal op <;> cases h4 : P.hasname op <;>
    cases h5 : P.hasconst op <;> cases h6 : P.hascompare op <;> simp_all [List.count_cons] <;> (constructor <;> simp_all)

theorem not_dual {P : Platform} (hP : P.WF) {op : Nat} (h : P.haslocal op = false) : P.dualSingles op = none := by
  cases hd : P.dualSingles op with
  | none => rfl
  | some p => have := hP.dual_local op (by simp [Platform.dual, hd]); simp_all

theorem dual_none {P : Platform} {op : Nat} (h : P.dual op = false) : P.dualSingles op = none := by
  simpa [Platform.dual] using h

theorem not_intr {P : Platform} (hP : P.WF) {op : Nat} (h : (P.hasJump op || P.hasfree op || P.haslocal op ||
    P.hasname op || P.hasconst op || P.hascompare op) = true) : P.intrinsic1 op = false ∧ P.intrinsic2 op = false := by
  cases h1 : (P.intrinsic1 op || P.intrinsic2 op) with
  | false => simpa using h1
  | true => have := (hP.intr_plain op h1).2; simp_all

/-! ### Slots -/

theorem sharedIndexes_get (V C : List String) (u k : Nat) (n : String) (h : C[k]? = some n) :
    ∃ j, (sharedIndexes V u C)[k]? = some j ∧
      (n ∈ V ∧ j = V.idxOf n ∨ n ∉ V ∧ ∃ j', j = V.length + u + j' ∧ (C.filter (fun n => !(V.contains n)))[j']? = some n) := by
  induction C generalizing u k with
  | nil => simp at h
  | cons x C ih =>
    cases k with
    | zero =>
      simp only [List.getElem?_cons_zero, Option.some.injEq] at h
      subst h
      unfold sharedIndexes
      by_cases hx : x ∈ V
      · rw [if_pos hx]; exact ⟨_, rfl, .inl ⟨hx, rfl⟩⟩
      · rw [if_neg hx]; exact ⟨_, rfl, .inr ⟨hx, 0, rfl, by simp [hx]⟩⟩
    | succ k =>
      simp only [List.getElem?_cons_succ] at h
      unfold sharedIndexes
      by_cases hx : x ∈ V
      · rw [if_pos hx]
        obtain ⟨j, h1, h2⟩ := ih u k h
        exact ⟨j, by simpa using h1, by simpa [hx] using h2⟩
      · rw [if_neg hx]
        obtain ⟨j, h1, h2⟩ := ih (u + 1) k h
        refine ⟨j, by simpa using h1, ?_⟩
        rcases h2 with h2 | ⟨h2, j', h3, h4⟩
        · exact .inl h2
        · exact .inr ⟨h2, j' + 1, by omega, by simpa [hx] using h4⟩

theorem frameSlots_cell (V C F : List String) (k : Nat) (n : String) (h : C[k]? = some n) :
    (frameSlots V C F)[(sharedIndexes V 0 C).getD k 0]? = some (.named n) := by
  obtain ⟨j, h1, h2⟩ := sharedIndexes_get V C 0 k n h
  rw [List.getD_eq_getElem?_getD, h1, Option.getD_some]
  have key : (V ++ C.filter (fun n => !(V.contains n)))[j]? = some n := by
    rcases h2 with ⟨hn, rfl⟩ | ⟨hn, j', rfl, hj⟩
    · rw [List.getElem?_append_left (List.idxOf_lt_length_of_mem hn)]; exact get_idxOf hn
    · rw [List.getElem?_append_right (by omega)]
      simpa using hj
  unfold frameSlots
  have hlt := (List.getElem?_eq_some_iff.1 key).1
  rw [List.getElem?_append_left (by simpa using hlt), List.getElem?_map, key]
  rfl

theorem frameSlots_local (V C F : List String) (k : Nat) (n : String) (h : V[k]? = some n) :
    (frameSlots V C F)[k]? = some (.named n) := by
  have hlt := (List.getElem?_eq_some_iff.1 h).1
  unfold frameSlots
  rw [List.getElem?_append_left (by simp; omega), List.getElem?_map, List.getElem?_append_left hlt, h]
  rfl

theorem frameSlots_free (V C F : List String) (k : Nat) (n : String) (h : F[k]? = some n) :
    (frameSlots V C F)[k + (V.length + C.length - (C.filter (· ∈ V)).length)]? = some (.free n) := by
  unfold frameSlots
  have hlen : (C.filter (fun n => !(V.contains n))).length + (C.filter (· ∈ V)).length = C.length := by
    clear h
    induction C with
    | nil => rfl
    | cons x C ih => by_cases hx : x ∈ V <;> simp_all <;> omega
  have hl2 : ((V ++ C.filter (fun n => !(V.contains n))).map Slot.named).length = V.length + C.length - (C.filter (· ∈ V)).length := by
    rw [List.length_map, List.length_append]; omega
  rw [List.getElem?_append_right (by rw [hl2]; omega), hl2, Nat.add_sub_cancel, List.getElem?_map, h]
  rfl

theorem pyIndexOf_ok {l : List String} {n : String} {k : Nat} (h : pyIndexOf l n = .ok k) : l[k]? = some n := by
  unfold pyIndexOf at h
  split at h
  · simp only [Except.ok.injEq] at h; subst h; exact get_idxOf (by assumption)
  · simp at h

section
variable {κ : Type} [DecidableEq κ]
variable {P : Platform} {key : Arg → κ} {b : Bytecode} {c : Concrete} {T : Tabs} {M : List Cell}

theorem compareMember_lt {v : Nat} (h : CompareMember P v) : v < 32 := by
  unfold CompareMember at h; omega

theorem addTo_same {l l' : List String} {n : String} {k : Nat} (h : addTo l n = (l', k)) (he : l' = l) : l[k]? = some n := by
  have := addTo_get l n
  rw [h] at this
  simpa [he] using this

theorem addTo_idx' {l l' : List String} {n : String} {k : Nat} (h : addTo l n = (l', k)) : k = l'.idxOf n := by
  have := addTo_idx l n
  rw [h] at this
  simpa using this

theorem tabs_ext {T : Tabs} {x : List Arg} (h : ({ T with consts := x } : Tabs) = T) : x = T.consts := by
  cases T; cases h; rfl
theorem tabs_ext_n {T : Tabs} {x : List String} (h : ({ T with names := x } : Tabs) = T) : x = T.names := by
  cases T; cases h; rfl
theorem tabs_ext_v {T : Tabs} {x : List String} (h : ({ T with varnames := x } : Tabs) = T) : x = T.varnames := by
  cases T; cases h; rfl

theorem toOpt_nat (k : Nat) : (CArg.int (k : Int)).toOpt = some k := by simp [CArg.toOpt]

theorem Final.localSlot (h : Final P key b c T M) {k : Nat} {n : String} (hk : T.varnames[k]? = some n) :
    (slotAt (localSlots P c) k : Operand κ) = .slot (.named n) := by
  unfold slotAt localSlots
  rw [h.varnames]
  split
  · rename_i s hs
    split at hs
    · rw [frameSlots_local _ _ _ _ _ hk] at hs; cases hs; rfl
    · rw [List.getElem?_map, hk] at hs; cases hs; rfl
  · rename_i hs
    split at hs
    · rw [frameSlots_local _ _ _ _ _ hk] at hs; cases hs
    · rw [List.getElem?_map, hk] at hs; cases hs

theorem Final.cellSlot (h : Final P key b c T M) {k : Nat} {n : String} (hk : b.attrs.cellvars[k]? = some n) (l : List Slot)
    (hl : l = if P.py311 then frameSlots c.varnames c.attrs.cellvars c.attrs.freevars else c.attrs.cellvars.map .named ++ c.attrs.freevars.map .free) :
    (slotAt l (if P.py311 then (sharedIndexes T.varnames 0 b.attrs.cellvars).getD k 0 else k) : Operand κ) = .slot (.named n) := by
  unfold slotAt
  rw [hl, h.varnames, h.attrs]
  by_cases h11 : P.py311 = true
  · rw [if_pos h11, if_pos h11, frameSlots_cell _ _ _ _ _ hk]
  · have hlt := (List.getElem?_eq_some_iff.1 hk).1
    rw [if_neg h11, if_neg h11, List.getElem?_append_left (by simpa using hlt), List.getElem?_map, hk]
    rfl

theorem Final.freeSlot (h : Final P key b c T M) {k : Nat} {n : String} (hk : b.attrs.freevars[k]? = some n) (l : List Slot)
    (hl : l = if P.py311 then frameSlots c.varnames c.attrs.cellvars c.attrs.freevars else c.attrs.cellvars.map .named ++ c.attrs.freevars.map .free) :
    (slotAt l (k + freeOffset P b.attrs T.varnames) : Operand κ) = .slot (.free n) := by
  unfold slotAt freeOffset
  rw [hl, h.varnames, h.attrs]
  by_cases h11 : P.py311 = true
  · rw [if_pos h11, if_pos h11, frameSlots_free _ _ _ _ _ hk]
  · rw [if_neg h11, if_neg h11, List.getElem?_append_right (by simp)]
    simp [hk]

theorem py313_311 (h : P.py313 = true) : P.py311 = true := by
  simp only [Platform.py313, Platform.py311, decide_eq_true_eq] at *; omega
theorem py313_312 (h : P.py313 = true) : P.py312 = true := by
  simp only [Platform.py313, Platform.py312, decide_eq_true_eq] at *; omega

theorem and15 (v : Nat) : v &&& 15 = v % 16 := by
  have := Nat.and_two_pow_sub_one_eq_mod v 4
  simpa using this

theorem and16 (v : Nat) : v &&& 16 = 16 * (v / 16 % 2) := by
  have h : v &&& 16 = 2 ^ 4 * ((v / 2 ^ 4) &&& 1) := by
    apply Nat.eq_of_testBit_eq
    intro j
    rw [Nat.testBit_and, Nat.testBit_two_pow_mul, Nat.testBit_and, Nat.testBit_div_two_pow]
    by_cases hj : 4 ≤ j
    · have e1 : Nat.testBit 16 j = decide (4 = j) := by
        have := Nat.testBit_two_pow (n := 4) (m := j); simpa using this
      have e2 : Nat.testBit 1 (j - 4) = decide (0 = j - 4) := by
        have := Nat.testBit_two_pow (n := 0) (m := j - 4); simpa using this
      rw [e1, e2, Nat.sub_add_cancel hj]
      have : decide (4 = j) = decide (0 = j - 4) := by simp; omega
      simp [hj, this]
    · have e1 : Nat.testBit 16 j = decide (4 = j) := by
        have := Nat.testBit_two_pow (n := 4) (m := j); simpa using this
      rw [e1]
      have : ¬ (4 = j) := by omega
      simp [hj, this]
  rw [h, Nat.and_one_is_mod]

theorem compare_decode {P : Platform} {v k : Nat} (h : encodeCompare P v = .ok k) (hv : v < 32) : compareOf P k = v := by
  unfold encodeCompare at h
  unfold compareOf
  by_cases h13 : P.py313 = true
  · rw [if_pos h13] at h ⊢
    split at h
    · rename_i m hm
      simp only [Except.ok.injEq] at h
      rw [and15, and16, Nat.shiftLeft_eq] at h
      unfold compareMask at hm
      rw [and15] at hm
      have hm16 : m < 16 := by split at hm <;> simp at hm <;> omega
      have h1 : k / 32 = v % 16 := by omega
      have h2 : k / 16 % 2 = v / 16 % 2 := by omega
      rw [h1, h2]
      split <;> omega
    · simp at h
  · rw [if_neg h13] at h ⊢
    by_cases h12 : P.py312 = true
    · rw [if_pos h12] at h ⊢
      split at h
      · rename_i m hm
        simp only [Except.ok.injEq] at h
        unfold compareMask at hm
        have hm16 : m < 16 := by split at hm <;> simp at hm <;> omega
        rw [Nat.shiftLeft_eq] at h
        omega
      · simp at h
    · rw [if_neg h12] at h ⊢
      simpa using h.symm

/-- Decoding the operand of one instruction of the result. -/
theorem Final.operands (h : Final P key b c T M) {M1 M2 : List Cell} {d : Cell} {i : Instr} (hM : M = M1 ++ d :: M2)
    (hi : d.e = .instr i) (hok : OperandOK P c.varnames i) :
    (opsI P key c (pos P (code P M) (code P M1).length) (d.code P)).map (fun o => (o.name, o.operand)) =
      expandB P key (fun l => labelPos P l 0 b.elems) i := by
  have hd : d ∈ M := by rw [hM]; simp
  obtain ⟨hv, hn, enc0, henc, hplain, hfin, hb⟩ := h.mem hd hi
  have hA := hv.arg_ok
  have hK := kinds_excl h.wf i.opcode
  -- reduce to one instruction
  have hsingle : ∀ a, d.enc = .plain a → (∀ l, i.arg ≠ .label l) → P.dualSingles i.opcode = none → P.hasJump i.opcode = false →
      operandC P key c none (mkI P i.name a.toOpt d.loc) = operandB P key (fun l => labelPos P l 0 b.elems) i.opcode i.arg →
      (opsI P key c (pos P (code P M) (code P M1).length) (d.code P)).map (fun o => (o.name, o.operand)) =
        expandB P key (fun l => labelPos P l 0 b.elems) i := by
    intro a ha _ hdual hj hop
    have hcode : d.code P = mkI P i.name a.toOpt d.loc :: List.replicate (nCaches P i.name) (mkI P "CACHE" (some 0) d.loc) := by
      simp [Cell.code, hi, block, ha, mains, lastName]
    rw [hcode, opsI_single, List.map_map]
    unfold expandC expandB
    rw [if_neg (by simpa [mkI] using hn), if_neg hn, mkI_opcode hv.name_op, hdual]
    simp only [List.map_cons, List.map_nil, Function.comp, List.cons.injEq, and_true, Prod.mk.injEq, mkI_name, true_and]
    rw [← hop]
    unfold operandC
    rw [mkI_opcode hv.name_op, hj]
    simp
  have hX : ∀ a, operandC P key c none (mkI P i.name a d.loc) = operandC P key c none ⟨i.name, i.opcode, a, some d.loc, none, sizeFor a none⟩ := by
    intro a; unfold mkI; simp [hv.name_op]
  cases hj : P.hasJump i.opcode with
  | true =>
    rcases hA.jump hj with ⟨l, hl⟩ | ⟨bb, hl⟩
    · obtain ⟨a, k, h1, h2, h3⟩ := h.dest hM hi hl
      have hcode : d.code P = mkI P i.name (some a) d.loc :: List.replicate (nCaches P i.name) (mkI P "CACHE" (some 0) d.loc) := by
        simp [Cell.code, hi, block, h1, mains, lastName, CArg.toOpt]
      rw [hcode, opsI_single, h3, List.map_map]
      unfold expandC expandB
      rw [if_neg (by simpa [mkI] using hn), if_neg hn, mkI_opcode hv.name_op, not_dual h.wf (hK.jump hj).2.1]
      simp only [List.map_cons, List.map_nil, Function.comp, List.cons.injEq, and_true, Prod.mk.injEq, mkI_name, true_and]
      unfold operandC operandB
      rw [mkI_opcode hv.name_op, hj]
      simp [hl, h2]
    · exfalso
      obtain ⟨k1, k2, k3, k4, k5⟩ := hK.jump hj
      obtain ⟨n1, n2⟩ := not_intr h.wf (op := i.opcode) (by simp [hj])
      simp [encodeOperand, hl, k1, k2, k3, k4, k5, n1, n2, encodeInt, Arg.asInt, bind, Except.bind] at henc
  | false =>
  cases hf : P.hasfree i.opcode with
  | true =>
    obtain ⟨k1, k2, k3, k4, k5⟩ := hK.free hf
    rcases hA.free hf with ⟨n, hl⟩ | ⟨n, hl⟩
    · simp only [encodeOperand, hl, k2, k3, k4, hf, Bool.false_eq_true, if_false, if_true] at henc
      obtain ⟨k, hk, henc⟩ := except_bind_ok henc
      simp only [pure, Except.pure, Except.ok.injEq, Prod.mk.injEq, true_and] at henc
      subst henc
      have hfin : d.enc = _ := hfin
      refine hsingle _ hfin (by simp [hl]) (not_dual h.wf k2) hj ?_
      rw [hX, toOpt_nat]
      simp only [operandC, operandB, hj, hf, k2, k4, Bool.false_eq_true, if_false, if_true, Bool.or_true, hl]
      exact h.cellSlot (pyIndexOf_ok hk) _ rfl
    · simp only [encodeOperand, hl, k2, k3, k4, hf, Bool.false_eq_true, if_false, if_true] at henc
      obtain ⟨k, hk, henc⟩ := except_bind_ok henc
      simp only [pure, Except.pure, Except.ok.injEq, Prod.mk.injEq, true_and] at henc
      subst henc
      have hfin : d.enc = _ := hfin
      refine hsingle _ hfin (by simp [hl]) (not_dual h.wf k2) hj ?_
      rw [hX, toOpt_nat]
      simp only [operandC, operandB, hj, hf, k2, k4, Bool.false_eq_true, if_false, if_true, Bool.or_true, hl]
      exact h.freeSlot (pyIndexOf_ok hk) _ rfl
  | false =>
  cases hl : P.haslocal i.opcode with
  | true =>
    obtain ⟨k1, k2, k3, k4, k5⟩ := hK.local_ hl
    cases hdd : P.dualSingles i.opcode with
    | some p =>
      obtain ⟨n1, n2⟩ := p
      obtain ⟨x, y, hxy, hx, hy⟩ := hA.dual (by simp [Platform.dual, hdd])
      rcases hx with ⟨x', rfl⟩ | ⟨x', rfl⟩
      · rcases hy with ⟨y', rfl⟩ | ⟨y', rfl⟩
        · simp only [encodeOperand, hxy, k4, hl, hdd, Bool.false_eq_true, if_false, if_true] at henc
          have hTle : addTo T.varnames x' = (T.varnames, T.varnames.idxOf x') ∧ addTo T.varnames y' = (T.varnames, T.varnames.idxOf y') := by
            have hT : (addTo (addTo T.varnames x').1 y').1 = T.varnames := by
              split at henc <;> (simp only [Except.ok.injEq, Prod.mk.injEq] at henc; exact tabs_ext_v henc.1)
            have hp1 := addTo_prefix T.varnames x'
            have hp2 := addTo_prefix (addTo T.varnames x').1 y'
            have hlen := hp1.length_le
            have hlen2 := hp2.length_le
            rw [hT] at hlen2
            have e1 : (addTo T.varnames x').1 = T.varnames := (hp1.eq_of_length (by omega)).symm
            rw [e1] at hT
            have i1 := addTo_idx T.varnames x'
            have i2 := addTo_idx T.varnames y'
            rw [e1] at i1
            rw [hT] at i2
            exact ⟨Prod.ext e1 i1, Prod.ext hT i2⟩
          obtain ⟨t1, t2⟩ := hTle
          rw [t1] at henc
          simp only [t2] at henc
          have g1 := addTo_same t1 rfl
          have g2 := addTo_same t2 rfl
          have hne := hok.dual (by simp [Platform.dual, hdd]) x' y' hxy
          rw [h.varnames] at hne
          generalize T.varnames.idxOf x' = i1 at *
          generalize T.varnames.idxOf y' = i2 at *
          split at henc
          · simp only [Except.ok.injEq, Prod.mk.injEq] at henc
            obtain ⟨_, rfl⟩ := henc
            have hfin : d.enc = _ := hfin
            have hcode : d.code P = mkI P n1 (some i1) d.loc :: mkI P n2 (some i2) d.loc ::
                List.replicate (nCaches P n2) (mkI P "CACHE" (some 0) d.loc) := by
              simp [Cell.code, hi, block, hfin, mains, lastName]
            obtain ⟨o1, p1, l1, q1⟩ := h.wf.dual_single _ _ _ hdd n1 (.inl rfl)
            obtain ⟨o2, p2, l2, q2⟩ := h.wf.dual_single _ _ _ hdd n2 (.inr rfl)
            obtain ⟨r1, r2⟩ := split_names hdd
            have hK1 := kinds_excl h.wf o1
            have hK2 := kinds_excl h.wf o2
            obtain ⟨a1, a2, a3, a4, a5⟩ := hK1.local_ l1
            obtain ⟨b1, b2, b3, b4, b5⟩ := hK2.local_ l2
            have hone : ∀ n o j s dest, P.opmap n = some o → n ≠ "CACHE" → P.dual o = false → P.hasJump o = false → P.hasconst o = false → P.haslocal o = true →
                T.varnames[j]? = some s → expandC P key c dest (mkI P n (some j) d.loc) = [(n, .slot (.named s))] := by
              intro n o j s dest w1 w2 w3 w4 w5 w6 w7
              unfold expandC
              rw [if_neg (by simpa [mkI] using w2), mkI_opcode w1, dual_none w3]
              simp only [List.cons.injEq, and_true, mkI_name, Prod.mk.injEq, true_and]
              unfold operandC
              rw [mkI_opcode w1, mkI_arg]
              simp only [w4, w5, w6, Bool.false_eq_true, if_false, if_true]
              exact h.localSlot w7
            rw [hcode, opsI, opsI_single, List.map_append, List.map_map, List.map_map,
              hone n1 o1 i1 x' _ p1 r1 q1 a1 a4 l1 g1, hone n2 o2 i2 y' _ p2 r2 q2 b1 b4 l2 g2]
            unfold expandB
            rw [if_neg hn, hdd, hxy]
            simp [slotOf]
          · rename_i hle
            simp only [Bool.or_eq_true, decide_eq_true_eq, not_or, Nat.not_lt] at hle
            simp only [Except.ok.injEq, Prod.mk.injEq] at henc
            obtain ⟨_, rfl⟩ := henc
            have hfin : d.enc = _ := hfin
            have hcode : d.code P = mkI P i.name (some ((i1 <<< 4) + i2)) d.loc :: List.replicate (nCaches P i.name) (mkI P "CACHE" (some 0) d.loc) := by
              rw [Cell.code, hi]
              simp only [block, hfin, mains, lastName, toOpt_nat, List.singleton_append]
            rw [hcode, opsI_single, List.map_map]
            unfold expandC expandB
            rw [if_neg (by simpa [mkI] using hn), if_neg hn, mkI_opcode hv.name_op, hdd, hxy]
            simp only [mkI_arg, List.map_cons, List.map_nil, Function.comp, List.cons.injEq, and_true, Prod.mk.injEq, true_and, slotOf]
            rw [Nat.shiftLeft_eq]
            have e1 : (i1 * 2 ^ 4 + i2) / 16 = i1 := by omega
            have e2 : (i1 * 2 ^ 4 + i2) % 16 = i2 := by omega
            rw [e1, e2]
            exact ⟨h.localSlot g1, h.localSlot g2⟩
        · exfalso
          simp [encodeOperand, hxy, k4, hl, hdd] at henc
      · exfalso
        simp [encodeOperand, hxy, k4, hl, hdd] at henc
    | none =>
      have hd0 : P.dual i.opcode = false := by simp [Platform.dual, hdd]
      rcases hA.local_ hl hd0 with ⟨n, hl2⟩ | ⟨h13, ⟨n, hl2⟩ | ⟨n, hl2⟩⟩
      · simp only [encodeOperand, hl2, k4, hl, hdd, Bool.false_eq_true, if_false, if_true, Except.ok.injEq, Prod.mk.injEq] at henc
        obtain ⟨hT, rfl⟩ := henc
        have hT := tabs_ext_v hT
        have hfin : d.enc = _ := hfin
        refine hsingle _ hfin (by simp [hl2]) hdd hj ?_
        rw [hX, toOpt_nat]
        simp only [operandC, operandB, hj, hl, k4, Bool.false_eq_true, if_false, if_true, Bool.true_or, hl2]
        exact h.localSlot (addTo_same (l' := (addTo T.varnames n).1) rfl hT)
      · simp only [encodeOperand, hl2, k4, hl, hdd, h13, Bool.false_eq_true, if_false, if_true] at henc
        obtain ⟨k, hk, henc⟩ := except_bind_ok henc
        simp only [pure, Except.pure, Except.ok.injEq, Prod.mk.injEq, true_and] at henc
        subst henc
        have hfin : d.enc = _ := hfin
        refine hsingle _ hfin (by simp [hl2]) hdd hj ?_
        rw [hX, toOpt_nat]
        simp only [operandC, operandB, hj, hl, k4, Bool.false_eq_true, if_false, if_true, Bool.true_or, hl2]
        exact h.cellSlot (pyIndexOf_ok hk) _ (by simp [localSlots, h13, py313_311 h13])
      · simp only [encodeOperand, hl2, k4, hl, hdd, h13, Bool.false_eq_true, if_false, if_true] at henc
        obtain ⟨k, hk, henc⟩ := except_bind_ok henc
        simp only [pure, Except.pure, Except.ok.injEq, Prod.mk.injEq, true_and] at henc
        subst henc
        have hfin : d.enc = _ := hfin
        refine hsingle _ hfin (by simp [hl2]) hdd hj ?_
        rw [hX, toOpt_nat]
        simp only [operandC, operandB, hj, hl, k4, Bool.false_eq_true, if_false, if_true, Bool.true_or, hl2]
        exact h.freeSlot (pyIndexOf_ok hk) _ (by simp [localSlots, h13, py313_311 h13])
  | false =>
  have hdd := not_dual h.wf hl
  have hf1 : P.hasname i.opcode = false → P.bitflag i.opcode = false := by
    intro hx; cases hb : P.bitflag i.opcode with
    | false => rfl
    | true => have := (h.wf.bitflag_name _ hb).1; simp_all
  have hf2 : P.hasname i.opcode = false → P.bitflag2 i.opcode = false := by
    intro hx; cases hb : P.bitflag2 i.opcode with
    | false => rfl
    | true => have := h.wf.bitflag2_name _ hb; simp_all
  have hname : ∀ (k : Nat) (n : String) (f : String → Operand κ), T.names[k]? = some n → nameAt c.names k f = f n := by
    intro k n f hk; simp [nameAt, h.names, hk]
  cases hnm : P.hasname i.opcode with
  | true =>
    obtain ⟨k1, k2, k3, k4, k5⟩ := hK.name hnm
    cases hb1 : P.bitflag i.opcode with
    | true =>
      obtain ⟨f, n, ha⟩ := hA.flag hb1
      simp only [encodeOperand, ha, k4, hl, hnm, hb1, Bool.false_eq_true, if_false, if_true, Except.ok.injEq, Prod.mk.injEq] at henc
      obtain ⟨hT, rfl⟩ := henc
      have hT := tabs_ext_n hT
      have hfin : d.enc = _ := hfin
      refine hsingle _ hfin (by simp [ha]) hdd hj ?_
      rw [hX, toOpt_nat, Nat.shiftLeft_eq]
      simp only [operandC, operandB, hj, hl, hf, k4, hnm, hb1, Bool.false_eq_true, if_false, if_true, Bool.or_self, ha]
      have g := addTo_same (l' := (addTo T.names n).1) (k := (addTo T.names n).2) rfl hT
      generalize (addTo T.names n).2 = k at *
      have e1 : ((if f = true then 1 else 0) + k * 2 ^ 1) / 2 = k := by cases f <;> simp <;> omega
      have e2 : (((if f = true then 1 else 0) + k * 2 ^ 1) % 2 == 1) = f := by cases f <;> simp <;> omega
      rw [e1, e2]
      exact hname _ _ _ g
    | false =>
      cases hb2 : P.bitflag2 i.opcode with
      | true =>
        obtain ⟨f, g', n, ha⟩ := hA.flag2 hb2
        simp only [encodeOperand, ha, k4, hl, hnm, hb1, hb2, Bool.false_eq_true, if_false, if_true, Except.ok.injEq, Prod.mk.injEq] at henc
        obtain ⟨hT, rfl⟩ := henc
        have hT := tabs_ext_n hT
        have hfin : d.enc = _ := hfin
        refine hsingle _ hfin (by simp [ha]) hdd hj ?_
        rw [hX, toOpt_nat, Nat.shiftLeft_eq]
        simp only [operandC, operandB, hj, hl, hf, k4, hnm, hb1, hb2, Bool.false_eq_true, if_false, if_true, Bool.or_self, ha]
        have g := addTo_same (l' := (addTo T.names n).1) (k := (addTo T.names n).2) rfl hT
        generalize (addTo T.names n).2 = k at *
        have e1 : ((if f = true then 1 else 0) + 2 * (if g' = true then 1 else 0) + k * 2 ^ 2) / 4 = k := by cases f <;> cases g' <;> simp <;> omega
        have e2 : (((if f = true then 1 else 0) + 2 * (if g' = true then 1 else 0) + k * 2 ^ 2) % 2 == 1) = f := by cases f <;> cases g' <;> simp <;> omega
        have e3 : (((if f = true then 1 else 0) + 2 * (if g' = true then 1 else 0) + k * 2 ^ 2) / 2 % 2 == 1) = g' := by cases f <;> cases g' <;> simp <;> omega
        rw [e1, e2, e3]
        exact hname _ _ _ g
      | false =>
        obtain ⟨n, ha⟩ := hA.name hnm hb1 hb2
        simp only [encodeOperand, ha, k4, hl, hnm, hb1, hb2, Bool.false_eq_true, if_false, if_true, Except.ok.injEq, Prod.mk.injEq] at henc
        obtain ⟨hT, rfl⟩ := henc
        have hT := tabs_ext_n hT
        have hfin : d.enc = _ := hfin
        refine hsingle _ hfin (by simp [ha]) hdd hj ?_
        rw [hX, toOpt_nat]
        simp only [operandC, operandB, hj, hl, hf, k4, hnm, hb1, hb2, Bool.false_eq_true, if_false, if_true, Bool.or_self, ha]
        exact hname _ _ _ (addTo_same (l' := (addTo T.names n).1) rfl hT)
  | false =>
  cases hcn : P.hasconst i.opcode with
  | true =>
    have hnl := (hA.const hcn).1
    have hgen : ∃ k : Nat, enc0 = .plain (.int k) ∧ ({ T with consts := (addConst key T.consts i.arg).1 } : Tabs) = T ∧ k = (addConst key T.consts i.arg).2 := by
      unfold encodeOperand at henc
      split at henc
      · rename_i l hl'; exact absurd hl' (hnl l)
      · simp only [hcn, if_true, Except.ok.injEq, Prod.mk.injEq] at henc
        exact ⟨_, henc.2.symm, henc.1, rfl⟩
    obtain ⟨k, rfl, hT, hk⟩ := hgen
    have hT := tabs_ext hT
    have hfin : d.enc = _ := hfin
    refine hsingle _ hfin hnl hdd hj ?_
    rw [hX, toOpt_nat]
    simp only [operandC, operandB, hj, hcn, Bool.false_eq_true, if_false, if_true]
    obtain ⟨w, hw, hkey⟩ := addConst_get key T.consts i.arg
    rw [hT, ← hk] at hw
    rw [h.consts, hw]
    simp [hkey]
  | false =>
  cases hcm : P.hascompare i.opcode with
  | true =>
    obtain ⟨v, ha⟩ := hA.compare hcm
    simp only [encodeOperand, ha, hcn, hl, hnm, hf, hcm, Bool.false_eq_true, if_false, if_true] at henc
    obtain ⟨k, hk, henc⟩ := except_bind_ok henc
    simp only [pure, Except.pure, Except.ok.injEq, Prod.mk.injEq, true_and] at henc
    subst henc
    have hfin : d.enc = _ := hfin
    refine hsingle _ hfin (by simp [ha]) hdd hj ?_
    rw [hX, toOpt_nat]
    simp only [operandC, operandB, hj, hl, hf, hnm, hcn, hcm, Bool.false_eq_true, if_false, if_true, Bool.or_self, ha]
    rw [compare_decode hk (compareMember_lt (hok.compare hcm v ha))]
  | false =>
  cases hin : (P.intrinsic1 i.opcode || P.intrinsic2 i.opcode) with
  | true =>
    have harg : ∃ v : Nat, (i.arg = .intr1 v ∨ i.arg = .intr2 v) := by
      rw [Bool.or_eq_true] at hin
      rcases hin with h1 | h1
      · obtain ⟨v, hv⟩ := hA.intr1 h1; exact ⟨v, .inl hv⟩
      · obtain ⟨v, hv⟩ := hA.intr2 h1; exact ⟨v, .inr hv⟩
    obtain ⟨v, ha⟩ := harg
    have he : enc0 = .plain (.int v) := by
      rcases ha with ha | ha <;>
      · simp only [encodeOperand, ha, hcn, hl, hnm, hf, hcm, hin, Bool.false_eq_true, if_false, if_true, Except.ok.injEq, Prod.mk.injEq, true_and] at henc
        exact henc.symm
    subst he
    have hfin : d.enc = _ := hfin
    refine hsingle _ hfin (by rcases ha with ha | ha <;> simp [ha]) hdd hj ?_
    rw [hX, toOpt_nat]
    rcases ha with ha | ha <;>
      simp only [operandC, operandB, hj, hl, hf, hnm, hcn, hcm, hin, Bool.false_eq_true, if_false, if_true, Bool.or_self, ha]
  | false =>
    have hnl : ∀ l, i.arg ≠ .label l := by
      intro l hx; have := valid_label hv hx; simp_all
    have hgen : ∃ a, enc0 = .plain a ∧ encodeInt i.arg = .ok a := by
      unfold encodeOperand at henc
      split at henc
      · rename_i l hl'; exact absurd hl' (hnl l)
      · simp only [hcn, hl, hnm, hf, hcm, hin, Bool.false_eq_true, if_false] at henc
        obtain ⟨a, ha, henc⟩ := except_bind_ok henc
        simp only [pure, Except.pure, Except.ok.injEq, Prod.mk.injEq, true_and] at henc
        exact ⟨a, henc.symm, ha⟩
    obtain ⟨a, rfl, ha⟩ := hgen
    have hfin : d.enc = _ := hfin
    have hpl := hplain a rfl
    refine hsingle _ hfin hnl hdd hj ?_
    rw [hX]
    simp only [operandC, operandB, hj, hl, hf, hnm, hcn, hcm, hin, Bool.false_eq_true, if_false, Bool.or_self]
    unfold encodeInt at ha
    split at ha
    · rename_i hu
      simp only [Except.ok.injEq] at ha
      subst ha
      simp [CArg.toOpt, hu]
    · rename_i hu
      split at ha
      · rename_i v hv'
        simp only [Except.ok.injEq] at ha
        subst ha
        simp only [CArg.toOpt, CArg.ofOpt, CArg.int.injEq] at hpl
        simp only [CArg.toOpt]
        rw [← hpl]
        split
        · rename_i h'; rw [hv'] at h'; cases h'; rfl
        · rename_i h'; rw [hv'] at h'; cases h'
      · simp at ha
end
end Verif
