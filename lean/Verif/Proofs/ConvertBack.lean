import Verif.Props.DecodeErrors
import Verif.Props.RoundTripExact
import Verif.Proofs.Passes
import Verif.Proofs.DecodeTotal
import Verif.Spec.ConvertBack
/-
For C80: what the result of `to_concrete_bytecode` is for `to_bytecode`.
-/
namespace Verif
open Spec
section
variable {κ : Type} [DecidableEq κ] {P : Platform} {key : Arg → κ} {b : Bytecode} {c : Concrete} {T : Tabs} {M : List Cell}

/-! ### The operands -/

theorem opsI_mem {l : List CInstr} {ci : CInstr} (h : ci ∈ l) (cur : Nat) :
    ∃ dest, ∀ p ∈ expandC P key c dest ci, p ∈ (opsI P key c cur l).map (fun o => (o.name, o.operand)) := by
  induction l generalizing cur with
  | nil => cases h
  | cons x l ih =>
    rcases List.mem_cons.1 h with rfl | h
    · refine ⟨(ci.getJumpTarget P cur).bind (fun t => opAt P t 0 0 c.elems), ?_⟩
      intro p hp
      rw [opsI, List.map_append, List.map_map]
      refine List.mem_append_left _ (List.mem_map.2 ⟨p, hp, rfl⟩)
    · obtain ⟨dest, hd⟩ := ih h (cur + width P x)
      refine ⟨dest, fun p hp => ?_⟩
      rw [opsI, List.map_append]
      exact List.mem_append_right _ (hd p hp)

/-- Each instruction of the result stands for one of the operations of an instruction. -/
theorem Final.expand (h : Final P key b c T M) (hok : ∀ i, .instr i ∈ b.elems → OperandOK P c.varnames i) {ci : CInstr} (hci : ci ∈ code P M)
    (hc : ci.name ≠ "CACHE") : ∃ i dest, .instr i ∈ b.elems ∧ ValidInstr P i ∧ i.name ≠ "CACHE" ∧
      (∀ p ∈ expandC P key c dest ci, p ∈ expandB P key (fun l => labelPos P l 0 b.elems) i) ∧
      ((ci.name = i.name ∧ ci.opcode = i.opcode) ∨ P.dual ci.opcode = false) := by
  simp only [code, List.mem_flatMap] at hci
  obtain ⟨d, hd, hci⟩ := hci
  cases hi : d.e with
  | instr i =>
    obtain ⟨M1, M2, hM⟩ := List.append_of_mem hd
    obtain ⟨hv, hn, _⟩ := h.mem hd hi
    have hib : .instr i ∈ b.elems := by
      rw [← h.lay.elems, ← hi]; exact List.mem_map_of_mem hd
    have hops := h.operands hM hi (hok i hib)
    obtain ⟨dest, hdest⟩ := opsI_mem (P := P) (key := key) (c := c) hci (pos P (code P M) (code P M1).length)
    refine ⟨i, dest, hib, hv, hn, fun p hp => by rw [← hops]; exact hdest p hp, ?_⟩
    rcases h.shape hd hi with ⟨a, _, hcode⟩ | ⟨n1, i1, n2, i2, _, hs, hcode⟩
    · rw [hcode] at hci
      rcases List.mem_cons.1 hci with rfl | hci
      · exact .inl ⟨rfl, mkI_opcode hv.name_op _ _⟩
      · rw [(List.mem_replicate.1 hci).2] at hc; exact absurd rfl hc
    · rw [hcode] at hci
      right
      obtain ⟨o1, p1, _, q1⟩ := h.wf.dual_single _ _ _ hs n1 (.inl rfl)
      obtain ⟨o2, p2, _, q2⟩ := h.wf.dual_single _ _ _ hs n2 (.inr rfl)
      rcases List.mem_cons.1 hci with rfl | hci
      · rw [mkI_opcode p1]; simpa using q1
      rcases List.mem_cons.1 hci with rfl | hci
      · rw [mkI_opcode p2]; simpa using q2
      · rw [(List.mem_replicate.1 hci).2] at hc; exact absurd rfl hc
  | _ => simp [Cell.code, hi] at hci

theorem expand_invalid {ci : CInstr} {dest : Option Nat} (h : ∃ p ∈ expandC P (id : Arg → Arg) c (some 0) ci, p.2 = .invalid) :
    ∃ p ∈ expandC P key c dest ci, p.2 = .invalid := by
  obtain ⟨p, hp, hi⟩ := h
  unfold expandC at hp ⊢
  split at hp
  · cases hp
  · rename_i hc
    rw [if_neg hc]
    cases hd : P.dualSingles ci.opcode with
    | some q =>
      obtain ⟨n1, n2⟩ := q
      rw [hd] at hp
      simp only at hp ⊢
      cases ha : ci.arg with
      | none => exact ⟨_, List.mem_cons_self .., rfl⟩
      | some a =>
        rw [ha] at hp
        simp only [List.mem_cons, List.not_mem_nil, or_false] at hp ⊢
        have hs : ∀ k, (slotAt (localSlots P c) k : Operand Arg) = .invalid → (slotAt (localSlots P c) k : Operand κ) = .invalid := by
          intro k hk; unfold slotAt at hk ⊢; cases hx : (localSlots P c)[k]? with
          | none => rfl
          | some s => rw [hx] at hk; cases hk
        rcases hp with rfl | rfl
        · exact ⟨_, .inl rfl, hs _ hi⟩
        · exact ⟨_, .inr rfl, hs _ hi⟩
    | none =>
      rw [hd] at hp
      simp only [List.mem_singleton] at hp
      subst hp
      refine ⟨_, List.mem_singleton.2 rfl, ?_⟩
      simp only at hi ⊢
      unfold operandC at hi ⊢
      by_cases hj : P.hasJump ci.opcode = true
      · rw [if_pos hj] at hi; cases hi
      · rw [if_neg hj] at hi ⊢
        cases ha : ci.arg with
        | none => rw [ha] at hi; cases hi
        | some a =>
          rw [ha] at hi
          simp only at hi ⊢
          unfold slotAt nameAt at *
          repeat' split at hi
          all_goals first
            | (cases hi; done)
            | simp_all

/-- The instructions of the result denote something. -/
theorem Final.decodable (h : Final P key b c T M) (hok : ∀ i, .instr i ∈ b.elems → OperandOK P c.varnames i)
    (hint : ∀ i, .instr i ∈ b.elems → IntrinsicOK i) (hkey : ∀ x y, key x = key y → IsValue y → IsValue x) {ci : CInstr} (hci : ci ∈ code P M)
    (hc : ci.name ≠ "CACHE") : Decodable P c ci := by
  obtain ⟨i, dest, hi, hv, hn, hexp, hnm⟩ := h.expand hok hci hc
  have hvc := (h.instrs_valid ci hci).1
  have hA := hv.arg_ok
  have hK := kinds_excl h.wf ci.opcode
  have hone : P.dual ci.opcode = false → (ci.name, operandC P key c dest ci) ∈ expandB P key (fun l => labelPos P l 0 b.elems) i := by
    intro hd
    apply hexp
    unfold expandC
    rw [if_neg hc, dual_none hd]
    exact List.mem_singleton.2 rfl
  have hnd : P.haslocal ci.opcode = false → P.dual ci.opcode = false := fun hl => by simp [Platform.dual, not_dual h.wf hl]
  -- a single operation that is not about a variable
  have hsame : ∀ o : Operand κ, (ci.name, o) ∈ expandB P key (fun l => labelPos P l 0 b.elems) i → (∀ x, o ≠ slotOf x) → o ≠ .invalid →
      ci.opcode = i.opcode ∧ P.dual i.opcode = false ∧ o = operandB P key (fun l => labelPos P l 0 b.elems) i.opcode i.arg := by
    intro o ho hs hinv
    unfold expandB at ho
    rw [if_neg hn] at ho
    cases hd : P.dualSingles i.opcode with
    | some q =>
      obtain ⟨n1, n2⟩ := q
      rw [hd] at ho
      simp only at ho
      exfalso
      split at ho
      · simp only [List.mem_cons, Prod.mk.injEq, List.not_mem_nil, or_false] at ho
        rcases ho with ⟨_, e⟩ | ⟨_, e⟩
        · exact hs _ e
        · exact hs _ e
      · simp only [List.mem_cons, Prod.mk.injEq, List.not_mem_nil, or_false] at ho
        rcases ho with ⟨_, e⟩ | ⟨_, e⟩ <;> exact hinv e
    | none =>
      rw [hd] at ho
      simp only [List.mem_singleton, Prod.mk.injEq] at ho
      have := hv.name_op
      rw [← ho.1, hvc.name_op] at this
      exact ⟨by simpa using this, by simp [Platform.dual, hd], ho.2⟩
  refine ⟨?_, ?_, ?_, ?_, ?_, ?_⟩
  · intro p hp hinv
    obtain ⟨q, hq, hqi⟩ := expand_invalid (key := key) (dest := dest) ⟨p, hp, hinv⟩
    exact h.operand_valid i hi q (hexp q hq) hqi
  · intro hcmp a ha
    obtain ⟨k0, k1, k2, k3, k4⟩ := hK.compare hcmp
    have h1 := hone (hnd (by grind))
    have hj : P.hasJump ci.opcode = false := by grind
    have e : operandC P key c dest ci = .compare (compareOf P a) := by
      unfold operandC
      rw [ha]
      simp only
      rw [if_neg (by grind), if_neg (by grind), if_neg (by grind), if_neg (by grind), if_neg (by grind), if_pos hcmp]
    rw [e] at h1
    obtain ⟨e1, _, e2⟩ := hsame _ h1 (by intro x; cases x <;> simp [slotOf]) (by simp)
    obtain ⟨v, hva⟩ := hA.compare (by rw [← e1]; exact hcmp)
    have := (hok i hi).compare (by rw [← e1]; exact hcmp) v hva
    rw [← e1, hva] at e2
    unfold operandB at e2
    rw [if_neg (by grind), if_neg (by grind), if_neg (by grind), if_neg (by grind), if_pos hcmp] at e2
    simp only [Operand.compare.injEq] at e2
    rw [e2]; exact this
  · intro hin a ha
    have hpl := (h.wf.intr_plain _ (show (P.intrinsic1 ci.opcode || P.intrinsic2 ci.opcode) = true by simp [hin])).2
    simp only [Bool.or_eq_false_iff] at hpl
    have h1 := hone (hnd (by grind))
    have e : operandC P key c dest ci = .intrinsic a := by
      unfold operandC
      rw [ha]
      simp [hin, hpl]
    rw [e] at h1
    obtain ⟨e1, _, e2⟩ := hsame _ h1 (by intro x; cases x <;> simp [slotOf]) (by simp)
    obtain ⟨v, hva⟩ := hA.intr1 (by rw [← e1]; exact hin)
    have := (hint i hi).one v hva
    rw [← e1, hva] at e2
    unfold operandB at e2
    have : a = v := by
      simp only [hin] at e2
      grind
    omega
  · intro hin a ha
    have hpl := (h.wf.intr_plain _ (show (P.intrinsic1 ci.opcode || P.intrinsic2 ci.opcode) = true by simp [hin])).2
    simp only [Bool.or_eq_false_iff] at hpl
    have h1 := hone (hnd (by grind))
    have e : operandC P key c dest ci = .intrinsic a := by
      unfold operandC
      rw [ha]
      simp [hin, hpl]
    rw [e] at h1
    obtain ⟨e1, _, e2⟩ := hsame _ h1 (by intro x; cases x <;> simp [slotOf]) (by simp)
    obtain ⟨v, hva⟩ := hA.intr2 (by rw [← e1]; exact hin)
    have := (hint i hi).two v hva
    rw [← e1, hva] at e2
    unfold operandB at e2
    have : a = v := by
      simp only [hin] at e2
      grind
    omega
  · intro hdu a ha k hk
    rcases hnm with ⟨_, ho⟩ | hno
    · obtain ⟨⟨n1, n2⟩, hds⟩ := Option.isSome_iff_exists.1 hdu
      obtain ⟨x, y, hxy, hx, hy⟩ := hA.dual (by rw [← ho]; exact hdu)
      have hxs : ∃ n, (slotOf x : Operand κ) = .slot (.named n) := by rcases hx with ⟨n, rfl⟩ | ⟨n, rfl⟩ <;> exact ⟨n, rfl⟩
      have hys : ∃ n, (slotOf y : Operand κ) = .slot (.named n) := by rcases hy with ⟨n, rfl⟩ | ⟨n, rfl⟩ <;> exact ⟨n, rfl⟩
      have hmem : ∃ nm, (nm, (slotAt (localSlots P c) k : Operand κ)) ∈ expandC P key c dest ci := by
        unfold expandC
        rw [if_neg hc, hds, ha]
        simp only [List.mem_cons, List.not_mem_nil, or_false] at hk ⊢
        rcases hk with rfl | rfl
        · exact ⟨n1, .inl rfl⟩
        · exact ⟨n2, .inr rfl⟩
      obtain ⟨nm, hmem⟩ := hmem
      have := hexp _ hmem
      unfold expandB at this
      rw [if_neg hn, ← ho, hds, hxy] at this
      simp only [List.mem_cons, Prod.mk.injEq, List.not_mem_nil, or_false] at this
      have hfin : ∃ n, (slotAt (localSlots P c) k : Operand κ) = .slot (.named n) := by
        rcases this with ⟨_, e⟩ | ⟨_, e⟩
        · rw [e]; exact hxs
        · rw [e]; exact hys
      obtain ⟨n, hn'⟩ := hfin
      unfold slotAt at hn'
      cases hx : (localSlots P c)[k]? with
      | none => rw [hx] at hn'; cases hn'
      | some s => rw [hx] at hn'; simp only [Operand.slot.injEq] at hn'; exact ⟨n, by rw [hn']⟩
    · rw [hdu] at hno; cases hno
  · intro hco a ha v hvv
    obtain ⟨k0, k1, k2, k3, k4⟩ := hK.const hco
    have h1 := hone (hnd (by grind))
    have e : operandC P key c dest ci = .const (key v) := by
      unfold operandC
      rw [ha]
      simp only
      rw [if_neg (by grind), if_pos hco, hvv]
    rw [e] at h1
    obtain ⟨e1, _, e2⟩ := hsame _ h1 (by intro x; cases x <;> simp [slotOf]) (by simp)
    have hco' : P.hasconst i.opcode = true := by rw [← e1]; exact hco
    rw [← e1] at e2
    unfold operandB at e2
    rw [if_neg (by grind), if_pos hco] at e2
    simp only [Operand.const.injEq] at e2
    have hpres : i.arg ≠ .unset := hA.present.1 (h.wf.operand_arg _ _ hv.name_op hv.base (by rw [hco']; rfl))
    exact hkey v i.arg e2 ⟨hpres, (hA.const hco').1, (hA.const hco').2⟩

/-! ### The offsets -/

theorem placed_map {l : List CInstr} {cur o : Nat} {ci : CInstr} :
    (o, ci) ∈ placed P cur (l.map .instr) ↔ ∃ k : Nat, l[k]? = some ci ∧ o = cur + pos P l k := by
  induction l generalizing cur with
  | nil => simp [placed]
  | cons x l ih =>
    rw [List.map_cons, placed, List.mem_cons, ih]
    constructor
    · rintro (h | ⟨k, h1, h2⟩)
      · simp only [Prod.mk.injEq] at h
        exact ⟨0, by simp [h.2], by rw [h.1, pos_zero]; rfl⟩
      · refine ⟨k + 1, by simpa using h1, ?_⟩
        rw [pos_cons, h2, width_units]; omega
    · rintro ⟨k, h1, h2⟩
      cases k with
      | zero =>
        left
        simp only [List.getElem?_cons_zero, Option.some.injEq] at h1
        rw [h2, pos_zero, h1]; rfl
      | succ k =>
        right
        refine ⟨k, by simpa using h1, ?_⟩
        rw [h2, pos_cons, width_units]; omega

/-- An instruction starts at every position but the end. -/
theorem Final.start_iff (h : Final P key b c T M) {t : Nat} (ht : t ≤ (code P M).length) :
    (∃ k ∈ starts P 0 c.elems, (k : Int) = (pos P (code P M) t : Nat)) ↔ t < (code P M).length := by
  constructor
  · rintro ⟨k, hk, he⟩
    obtain ⟨ci, hci⟩ := placed_starts.1 hk
    rw [h.elems] at hci
    obtain ⟨j, h1, h2⟩ := placed_map.1 hci
    obtain ⟨hj, _⟩ := List.getElem?_eq_some_iff.1 h1
    have : pos P (code P M) j = pos P (code P M) t := by omega
    by_contra hlt
    have hx := pos_lt_pos P (code P M) code_size (show j < t by omega) ht
    have hu : 0 < P.unit := by unfold Platform.unit; split <;> omega
    omega
  · intro hlt
    refine ⟨pos P (code P M) t, ?_, rfl⟩
    rw [placed_starts, h.elems]
    exact ⟨(code P M)[t], placed_map.2 ⟨t, List.getElem?_eq_getElem hlt, by omega⟩⟩

theorem label_last {lab t : Nat} (M : List Cell) (m : Nat) (ls : List (Nat × Nat)) (h : lookupLabel (labelsOf P m ls M) lab = .ok t) :
    (lookupLabel ls lab = .ok t ∧ ∀ d ∈ M, d.e ≠ .label lab) ∨
    (∃ M1 d M2, M = M1 ++ d :: M2 ∧ d.e = .label lab ∧ (∀ x ∈ M2, x.e ≠ .label lab) ∧ t = m + (code P M1).length) := by
  induction M generalizing m ls with
  | nil => exact .inl ⟨h, by simp⟩
  | cons d M ih =>
    unfold labelsOf at h
    cases hd : d.e with
    | label l =>
      rw [hd] at h
      simp only at h
      have hc0 : d.code P = [] := by simp [Cell.code, hd]
      rcases ih _ _ h with ⟨h1, h2⟩ | ⟨M1, x, M2, h1, h2, h3, h4⟩
      · by_cases hl : l = lab
        · subst hl
          simp only [lookupLabel, List.find?_cons, beq_self_eq_true, Except.ok.injEq] at h1
          exact .inr ⟨[], d, M, rfl, hd, h2, by simp [code, h1]⟩
        · refine .inl ⟨?_, ?_⟩
          · simpa only [lookupLabel, List.find?_cons, beq_eq_false_iff_ne.2 hl] using h1
          · intro y hy
            rcases List.mem_cons.1 hy with rfl | hy
            · rw [hd]; simpa using hl
            · exact h2 y hy
      · exact .inr ⟨d :: M1, x, M2, by simp [h1], h2, h3, by rw [code_cons, hc0]; simpa using h4⟩
    | _ =>
      rw [hd] at h
      simp only at h
      rcases ih _ _ h with ⟨h1, h2⟩ | ⟨M1, x, M2, h1, h2, h3, h4⟩
      · refine .inl ⟨h1, ?_⟩
        intro y hy
        rcases List.mem_cons.1 hy with rfl | hy
        · rw [hd]; simp
        · exact h2 y hy
      · exact .inr ⟨d :: M1, x, M2, by simp [h1], h2, h3, by rw [code_cons, List.length_append]; omega⟩

/-- A label is at the end of the code exactly when no instruction comes after it. -/
theorem Final.atEnd_iff (h : Final P key b c T M) {lab t : Nat} (hl : lookupLabel (labelsOf P 0 [] M) lab = .ok t) :
    t ≤ (code P M).length ∧ (t < (code P M).length ↔ ¬ AtEnd b.elems lab) := by
  refine ⟨(h.label hl).1, ?_⟩
  rcases label_last M 0 [] hl with ⟨h1, _⟩ | ⟨M1, d, M2, h1, h2, h3, h4⟩
  · simp [lookupLabel] at h1
  have hd : d.code P = [] := by simp [Cell.code, h2]
  have hcode : code P M = code P M1 ++ code P M2 := by rw [h1, code_append, code_cons, hd]; rfl
  have hel : b.elems = M1.map (·.e) ++ .label lab :: M2.map (·.e) := by
    rw [← h.lay.elems, h1]; simp [h2]
  have h5 : t < (code P M).length ↔ ∃ i, .instr i ∈ M2.map (·.e) := by
    rw [hcode, List.length_append, h4]
    constructor
    · intro hlt
      have : 0 < (code P M2).length := by omega
      obtain ⟨ci, hci⟩ := List.exists_mem_of_length_pos this
      simp only [code, List.mem_flatMap] at hci
      obtain ⟨x, hx, hci⟩ := hci
      cases hi : x.e with
      | instr i => exact ⟨i, by rw [← hi]; exact List.mem_map_of_mem hx⟩
      | _ => simp [Cell.code, hi] at hci
    · rintro ⟨i, hi⟩
      obtain ⟨x, hx, he⟩ := List.mem_map.1 hi
      have := h.code_pos x (by rw [h1]; simp [hx]) i he
      obtain ⟨y, hy⟩ := List.exists_mem_of_length_pos this
      have : y ∈ code P M2 := by simp only [code, List.mem_flatMap]; exact ⟨x, hx, hy⟩
      have := List.length_pos_of_mem this
      omega
  rw [h5]
  constructor
  · rintro ⟨i, hi⟩ ⟨pre, post, e1, e2⟩
    rw [hel] at e1
    rcases List.append_eq_append_iff.1 e1 with ⟨a', h6, h7⟩ | ⟨c', h6, h7⟩
    · cases a' with
      | nil =>
        simp only [List.nil_append, List.cons.injEq, true_and] at h7
        rw [h7] at hi; exact e2 i hi
      | cons x a' =>
        simp only [List.cons_append, List.cons.injEq] at h7
        have : BElem.label lab ∈ M2.map (·.e) := by rw [h7.2]; simp
        obtain ⟨y, hy, he⟩ := List.mem_map.1 this
        exact h3 y hy he
    · cases c' with
      | nil =>
        simp only [List.nil_append, List.cons.injEq, true_and] at h7
        rw [← h7] at hi; exact e2 i hi
      | cons x c' =>
        simp only [List.cons_append, List.cons.injEq] at h7
        apply e2 i
        rw [h7.2]; simp [hi]
  · intro hn
    by_contra hno
    exact hn ⟨_, _, hel, fun i hi => hno ⟨i, hi⟩⟩

/-! ### The jumps -/

theorem jumpsE_cell {M : List Cell} {n k l : Nat} (h : (k, l) ∈ jumpsE P n M) : ∃ d ∈ M, d.jump? = some l := by
  induction M generalizing n with
  | nil => simp [jumpsE] at h
  | cons d M ih =>
    rw [jumpsE, List.mem_append] at h
    rcases h with h | h
    · simp only [List.mem_map, Option.mem_toList, Prod.mk.injEq, Option.mem_def] at h
      obtain ⟨x, hx, _, rfl⟩ := h
      exact ⟨d, by simp, hx⟩
    · obtain ⟨x, h1, h2⟩ := ih h
      exact ⟨x, by simp [h1], h2⟩

theorem cell_jumpsE {M : List Cell} {l : Nat} {d : Cell} (hd : d ∈ M) (hj : d.jump? = some l) (n : Nat) : ∃ k, (k, l) ∈ jumpsE P n M := by
  induction M generalizing n with
  | nil => cases hd
  | cons x M ih =>
    rcases List.mem_cons.1 hd with rfl | hd
    · exact ⟨n, by simp [jumpsE, hj]⟩
    · obtain ⟨k, hk⟩ := ih hd (n + (x.code P).length)
      exact ⟨k, by rw [jumpsE, List.mem_append]; exact .inr hk⟩

/-- The jumps that go nowhere. -/
theorem Final.jumps_back (h : Final P key b c T M) :
    (∃ off ci t, (off, ci) ∈ placed P 0 c.elems ∧ ci.getJumpTarget P off = some t ∧ ∀ k ∈ starts P 0 c.elems, (k : Int) ≠ t) ↔
      ∃ i l, .instr i ∈ b.elems ∧ i.arg = .label l ∧ AtEnd b.elems l := by
  constructor
  · rintro ⟨off, ci, t, h1, h2, h3⟩
    rw [h.elems] at h1
    obtain ⟨k, hk, rfl⟩ := placed_map.1 h1
    obtain ⟨lab, hlab⟩ := h.jump_at hk (target_hasJump h2)
    obtain ⟨ci', t', a, c1, c2, c3, _, _, _, c7⟩ := h.cons _ _ hlab
    rw [hk] at c1
    cases c1
    rw [Nat.zero_add, c7] at h2
    cases h2
    obtain ⟨hle, hend⟩ := h.atEnd_iff c2
    obtain ⟨d, hd, hj⟩ := jumpsE_cell hlab
    unfold Cell.jump? at hj
    cases hi : d.e with
    | instr i =>
      rw [hi] at hj
      simp only at hj
      refine ⟨i, lab, by rw [← h.lay.elems, ← hi]; exact List.mem_map_of_mem hd, ?_, ?_⟩
      · split at hj
        · rename_i l' hl'; cases hj; exact hl'
        · cases hj
      · by_contra hne
        obtain ⟨k', g1, g2⟩ := (h.start_iff hle).2 (hend.2 hne)
        exact h3 k' g1 g2
    | _ => rw [hi] at hj; cases hj
  · rintro ⟨i, l, h1, h2, h3⟩
    rw [← h.lay.elems] at h1
    obtain ⟨d, hd, hi⟩ := List.mem_map.1 h1
    obtain ⟨k, hk⟩ := cell_jumpsE (P := P) hd (show d.jump? = some l by simp [Cell.jump?, hi, h2]) 0
    obtain ⟨ci, t, a, c1, c2, c3, _, _, _, c7⟩ := h.cons _ _ hk
    obtain ⟨hle, hend⟩ := h.atEnd_iff c2
    refine ⟨pos P (code P M) k, ci, _, by rw [h.elems]; exact placed_map.2 ⟨k, c1, by omega⟩, c7, ?_⟩
    intro k' hk' he
    exact hend.1 ((h.start_iff hle).1 ⟨k', hk', he⟩) h3

/-! ### The handlers -/

/-- The TryBegin and the positions of the instructions after them. -/
def begs (P : Platform) (n : Nat) : List Cell → List (TryB × Nat)
  | [] => []
  | d :: M =>
    match d.e with
    | .tryBegin t => (t, n) :: begs P n M
    | _ => begs P (n + (d.code P).length) M

theorem regs_begs (M : List Cell) (n : Nat) (cur : Option (Nat × TryB)) (seen : List Nat) (any : Bool)
    (hw : WellTried (cur.map (·.2.id)) seen any (M.map (·.e))) :
    (regs P n cur M).map (fun p => (p.1, p.2.start)) = (cur.toList.map (fun q => (q.2, (q.1 : Int)))) ++ (begs P n M).map (fun q => (q.1, (q.2 : Int))) := by
  induction M generalizing n cur seen any with
  | nil =>
    cases cur with
    | none => rfl
    | some q => simp [WellTried] at hw
  | cons d M ih =>
    unfold regs begs
    cases hd : d.e with
    | tryBegin t =>
      simp only [List.map_cons, hd, WellTried] at hw
      obtain ⟨h1, h2, h3⟩ := hw
      cases cur with
      | some q => simp at h1
      | none => simp only; rw [ih n (some (n, t)) _ _ h3]; simp
    | tryEnd id =>
      simp only [List.map_cons, hd, WellTried] at hw
      obtain ⟨h1, h2, h3⟩ := hw
      have hc0 : d.code P = [] := by simp [Cell.code, hd]
      cases cur with
      | none => simp at h1
      | some q =>
        obtain ⟨s, t⟩ := q
        simp only [List.map_cons, hc0, List.length_nil, Nat.add_zero]
        rw [ih n none _ _ h3]; simp
    | instr i => simp only [List.map_cons, hd, WellTried] at hw; exact ih _ cur _ _ hw
    | label i => simp only [List.map_cons, hd, WellTried] at hw; exact ih _ cur _ _ hw
    | setLineno i => simp only [List.map_cons, hd, WellTried] at hw; exact ih _ cur _ _ hw

theorem begs_mem {M : List Cell} {t : TryB} (n : Nat) : (∃ k, (t, k) ∈ begs P n M) ↔ .tryBegin t ∈ M.map (·.e) := by
  induction M generalizing n with
  | nil => simp [begs]
  | cons d M ih =>
    unfold begs
    cases hd : d.e with
    | tryBegin t' =>
      simp only [List.mem_cons, Prod.mk.injEq, List.map_cons, hd, BElem.tryBegin.injEq, ← ih n]
      constructor
      · rintro ⟨k, ⟨rfl, _⟩ | h⟩
        · exact .inl rfl
        · exact .inr ⟨k, h⟩
      · rintro (rfl | ⟨k, h⟩)
        · exact ⟨n, .inl ⟨rfl, rfl⟩⟩
        · exact ⟨k, .inr h⟩
    | _ => simp only [List.map_cons, hd, List.mem_cons, reduceCtorEq, false_or, ← ih (n + (d.code P).length)]

theorem begs_ge {M : List Cell} {n : Nat} {q : TryB × Nat} (h : q ∈ begs P n M) : n ≤ q.2 := by
  induction M generalizing n with
  | nil => simp [begs] at h
  | cons d M ih =>
    unfold begs at h
    cases hd : d.e with
    | tryBegin t' =>
      rw [hd] at h
      rcases List.mem_cons.1 h with rfl | h
      · exact Nat.le_refl _
      · exact ih h
    | _ => rw [hd] at h; have := ih h; omega

/-- The position is that of the head when no instruction comes before. -/
theorem begs_head {M0 : List Cell} (hM0 : ∀ d ∈ M0, ∀ i, d.e = .instr i → 0 < (d.code P).length) (M : List Cell) (hsub : ∀ d ∈ M, d ∈ M0) (n : Nat) :
    n ∈ (begs P n M).map (·.2) ↔ ∃ A t B, M.map (·.e) = A ++ .tryBegin t :: B ∧ ∀ i, .instr i ∉ A := by
  induction M generalizing n with
  | nil => simp [begs]
  | cons d M ih =>
    have ih := ih (fun x hx => hsub x (by simp [hx]))
    have skip : (∀ i, d.e ≠ .instr i) → (∀ t, d.e ≠ .tryBegin t) →
        ((∃ A t B, M.map (·.e) = A ++ .tryBegin t :: B ∧ ∀ i, .instr i ∉ A) ↔ ∃ A t B, (d :: M).map (·.e) = A ++ .tryBegin t :: B ∧ ∀ i, .instr i ∉ A) := by
      intro g1 g2
      constructor
      · rintro ⟨A, t, B, e1, e2⟩
        refine ⟨d.e :: A, t, B, by rw [List.map_cons, e1]; rfl, ?_⟩
        intro i hi
        rcases List.mem_cons.1 hi with hi | hi
        · exact g1 i hi.symm
        · exact e2 i hi
      · rintro ⟨A, t, B, e1, e2⟩
        cases A with
        | nil => simp only [List.map_cons, List.nil_append, List.cons.injEq] at e1; exact absurd e1.1 (g2 t)
        | cons x A =>
          simp only [List.map_cons, List.cons_append, List.cons.injEq] at e1
          exact ⟨A, t, B, e1.2, fun i hi => e2 i (by simp [hi])⟩
    unfold begs
    cases hd : d.e with
    | tryBegin t =>
      simp only [List.map_cons, List.mem_cons, true_or, true_iff]
      exact ⟨[], t, M.map (·.e), by simp [hd], by simp⟩
    | instr i =>
      have hlen := hM0 d (hsub d (by simp)) i hd
      constructor
      · intro h
        obtain ⟨q, hq, he⟩ := List.mem_map.1 h
        have := begs_ge hq
        omega
      · rintro ⟨A, t, B, e1, e2⟩
        cases A with
        | nil => simp [hd] at e1
        | cons x A =>
          simp only [List.map_cons, List.cons_append, List.cons.injEq, hd] at e1
          exact absurd (by rw [← e1.1]; simp) (e2 i)
    | label i => rw [← skip (by simp [hd]) (by simp [hd]), show (d.code P).length = 0 by simp [Cell.code, hd]]; exact ih n
    | setLineno i => rw [← skip (by simp [hd]) (by simp [hd]), show (d.code P).length = 0 by simp [Cell.code, hd]]; exact ih n
    | tryEnd i => rw [← skip (by simp [hd]) (by simp [hd]), show (d.code P).length = 0 by simp [Cell.code, hd]]; exact ih n

theorem sameStart_cons (e : BElem) (es : List BElem) :
    SameStart (e :: es) ↔ ((∃ t, e = .tryBegin t) ∧ ∃ A t B, es = A ++ .tryBegin t :: B ∧ ∀ i, .instr i ∉ A) ∨ SameStart es := by
  constructor
  · rintro ⟨pre, t, mid, t', post, h1, h2⟩
    cases pre with
    | nil =>
      simp only [List.nil_append, List.cons.injEq] at h1
      exact .inl ⟨⟨t, h1.1⟩, mid, t', post, h1.2, h2⟩
    | cons x pre =>
      simp only [List.cons_append, List.cons.injEq] at h1
      exact .inr ⟨pre, t, mid, t', post, h1.2, h2⟩
  · rintro (⟨⟨t, rfl⟩, A, t', B, h1, h2⟩ | ⟨pre, t, mid, t', post, h1, h2⟩)
    · exact ⟨[], t, A, t', B, by simp [h1], h2⟩
    · exact ⟨e :: pre, t, mid, t', post, by simp [h1], h2⟩

theorem begs_nodup {M0 : List Cell} (hM0 : ∀ d ∈ M0, ∀ i, d.e = .instr i → 0 < (d.code P).length) (M : List Cell) (hsub : ∀ d ∈ M, d ∈ M0) (n : Nat) :
    ((begs P n M).map (·.2)).Nodup ↔ ¬ SameStart (M.map (·.e)) := by
  induction M generalizing n with
  | nil => simp [begs, SameStart]
  | cons d M ih =>
    have hsub' : ∀ x ∈ M, x ∈ M0 := fun x hx => hsub x (by simp [hx])
    have ih := ih hsub'
    rw [List.map_cons, sameStart_cons]
    unfold begs
    cases hd : d.e with
    | tryBegin t =>
      simp only [List.map_cons, List.nodup_cons, ih n, begs_head hM0 M hsub' n]
      grind
    | _ => simp only [reduceCtorEq, exists_false, false_and, false_or]; exact ih _

/-- What an entry of the table comes from. -/
theorem Final.entry_of (h : Final P key b c T M) (hw : WellTried none [] false b.elems) :
    (regs P 0 none M).mapM (resolveEntry P (labelsOf P 0 [] M) (code P M)) = .ok c.excTable ∧
    ∀ p e, resolveEntry P (labelsOf P 0 [] M) (code P M) p = .ok e → ∃ t : Nat, lookupLabel (labelsOf P 0 [] M) p.1.target = .ok t ∧
      e.target = (pos P (code P M) t : Nat) := by
  refine ⟨(h.entriesAny hw).1, ?_⟩
  intro p e hpe
  unfold resolveEntry at hpe
  obtain ⟨s, hs, hpe⟩ := except_bind_ok hpe
  obtain ⟨t, ht, hpe⟩ := except_bind_ok hpe
  obtain ⟨ti, hti, hpe⟩ := except_bind_ok hpe
  obtain ⟨htl, _⟩ := h.label hti
  rw [labelOffsets_get P _ code_size, if_pos (by omega)] at hpe
  simp only [pure, Except.pure, Except.ok.injEq, Nat.zero_add] at hpe
  subst hpe
  exact ⟨ti, hti, rfl⟩

theorem mapM_from {α β : Type} {f : α → Py β} : ∀ (l : List α) (r : List β), l.mapM f = .ok r → ∀ x ∈ l, ∃ y ∈ r, f x = .ok y := by
  intro l
  induction l with
  | nil => simp
  | cons x l ih =>
    intro r h
    rw [List.mapM_cons] at h
    obtain ⟨y, hy, h⟩ := except_bind_ok h
    obtain ⟨ys, hys, h⟩ := except_bind_ok h
    simp only [pure, Except.pure, Except.ok.injEq] at h
    subst h
    intro z hz
    rcases List.mem_cons.1 hz with rfl | hz
    · exact ⟨y, by simp, hy⟩
    · obtain ⟨w, h1, h2⟩ := ih _ hys z hz
      exact ⟨w, by simp [h1], h2⟩

/-- The handlers that are nowhere. -/
theorem Final.handlers_back (h : Final P key b c T M) (hw : WellTried none [] false b.elems) :
    (∃ e ∈ c.excTable, ((∃ k ∈ starts P 0 c.elems, e.start = (k : Int)) ∨ ∃ k ∈ opcodeOffsets P 0 c.elems, e.stop = (k : Int)) ∧
      ∀ k ∈ starts P 0 c.elems, (k : Int) ≠ e.target) ↔ ∃ t, .tryBegin t ∈ b.elems ∧ AtEnd b.elems t.target := by
  obtain ⟨htab, hent⟩ := h.entry_of hw
  have hw' : WellTried none [] false (M.map (·.e)) := by rw [h.lay.elems]; exact hw
  have hb := regs_begs (P := P) M 0 none [] false hw'
  simp only [Option.toList_none, List.map_nil, List.nil_append] at hb
  constructor
  · rintro ⟨e, he, _, h2⟩
    obtain ⟨p, hp, hpe⟩ := mapM_mem _ _ htab e he
    obtain ⟨t, h3, h4⟩ := hent p e hpe
    obtain ⟨hle, hend⟩ := h.atEnd_iff h3
    refine ⟨p.1, ?_, ?_⟩
    · have : (p.1, p.2.start) ∈ (regs P 0 none M).map (fun p => (p.1, p.2.start)) := List.mem_map.2 ⟨p, hp, rfl⟩
      rw [hb] at this
      obtain ⟨q, hq, hqe⟩ := List.mem_map.1 this
      simp only [Prod.mk.injEq] at hqe
      rw [← h.lay.elems, ← hqe.1]
      exact (begs_mem 0).1 ⟨_, hq⟩
    · by_contra hne
      obtain ⟨k', g1, g2⟩ := (h.start_iff hle).2 (hend.2 hne)
      exact h2 k' g1 (by rw [h4]; exact g2)
  · rintro ⟨t, h1, h2⟩
    rw [← h.lay.elems] at h1
    obtain ⟨k, hk⟩ := (begs_mem (P := P) 0).2 h1
    have : (t, (k : Int)) ∈ (begs P 0 M).map (fun q => (q.1, (q.2 : Int))) := List.mem_map.2 ⟨_, hk, rfl⟩
    rw [← hb] at this
    obtain ⟨p, hp, hpe⟩ := List.mem_map.1 this
    simp only [Prod.mk.injEq] at hpe
    obtain ⟨e, he, hre⟩ := mapM_from _ _ htab p hp
    obtain ⟨ti, h3, h4⟩ := hent p e hre
    rw [hpe.1] at h3
    obtain ⟨hle, hend⟩ := h.atEnd_iff h3
    refine ⟨e, he, .inr ?_, ?_⟩
    · obtain ⟨_, _, s, st, _, e2, _, e4, _⟩ := (h.entriesAny hw).2 p hp e hre
      refine ⟨st, ?_, e2⟩
      rw [h.elems, opcodeOffsets_code _ code_size]
      exact List.mem_of_getElem? e4
    · intro k' hk' hx
      exact hend.1 ((h.start_iff hle).1 ⟨k', hk', by rw [hx, h4]⟩) h2

/-- The regions that start at the same instruction. -/
theorem Final.starts_back (h : Final P key b c T M) (hw : WellTried none [] false b.elems) :
    (c.excTable.map (·.start)).Nodup ↔ ¬ SameStart b.elems := by
  obtain ⟨htab, hres⟩ := h.entriesAny hw
  have hw' : WellTried none [] false (M.map (·.e)) := by rw [h.lay.elems]; exact hw
  have hb := regs_begs (P := P) M 0 none [] false hw'
  simp only [Option.toList_none, List.map_nil, List.nil_append] at hb
  rw [← h.lay.elems, ← begs_nodup h.code_pos M (fun _ hd => hd) 0]
  have hb2 : (regs P 0 none M).map (·.2.start) = (begs P 0 M).map (fun q => (q.2 : Int)) := by
    have := congrArg (List.map (·.2)) hb
    rw [List.map_map, List.map_map] at this
    exact this
  have e1 : ((begs P 0 M).map (·.2)).Nodup ↔ ((begs P 0 M).map (fun q => (q.2 : Int))).Nodup := by
    rw [List.nodup_iff_pairwise_ne, List.nodup_iff_pairwise_ne, List.pairwise_map, List.pairwise_map]
    constructor <;> intro hh <;> exact hh.imp (by intro a b hab; omega)
  rw [e1, ← hb2]
  -- offsets are injective
  have main : ∀ (l : List (TryB × ExcEntry)) (r : List ExcEntry), (∀ p ∈ l, p ∈ regs P 0 none M) →
      l.mapM (resolveEntry P (labelsOf P 0 [] M) (code P M)) = .ok r → ((r.map (·.start)).Nodup ↔ (l.map (·.2.start)).Nodup) := by
    intro l
    induction l with
    | nil => intro r _ hr; simp only [List.mapM_nil, pure, Except.pure, Except.ok.injEq] at hr; subst hr; simp
    | cons p l ih =>
      intro r hs hr
      rw [List.mapM_cons] at hr
      obtain ⟨y, hy, hr⟩ := except_bind_ok hr
      obtain ⟨ys, hys, hr⟩ := except_bind_ok hr
      simp only [pure, Except.pure, Except.ok.injEq] at hr
      subst hr
      have inj : ∀ q ∈ regs P 0 none M, ∀ z, resolveEntry P (labelsOf P 0 [] M) (code P M) q = .ok z → (z.start = y.start ↔ q.2.start = p.2.start) := by
        intro q hq z hz
        obtain ⟨r1, _, s, _, f1, _, f3, _⟩ := hres p (hs p (by simp)) y hy
        obtain ⟨r1', _, s', _, f1', _, f3', _⟩ := hres q hq z hz
        have m1 := offset_mono code_size f3 f3'
        have m2 := offset_mono code_size f3' f3
        rw [f1, f1']
        constructor
        · intro hx
          have : s' = s := by omega
          have a1 := m1.1 (by omega)
          have a2 := m2.1 (by omega)
          omega
        · intro hx
          have a1 := m1.2 (by omega)
          have a2 := m2.2 (by omega)
          omega
      simp only [List.map_cons, List.nodup_cons, ih ys (fun q hq => hs q (by simp [hq])) hys]
      have : y.start ∈ ys.map (·.start) ↔ p.2.start ∈ l.map (·.2.start) := by
        constructor
        · intro hx
          obtain ⟨z, hz, he⟩ := List.mem_map.1 hx
          obtain ⟨q, hq, hqz⟩ := mapM_mem _ _ hys z hz
          exact List.mem_map.2 ⟨q, hq, (inj q (hs q (by simp [hq])) z hqz).1 he⟩
        · intro hx
          obtain ⟨q, hq, he⟩ := List.mem_map.1 hx
          obtain ⟨z, hz, hqz⟩ := mapM_from _ _ hys q hq
          exact List.mem_map.2 ⟨z, hz, (inj q (hs q (by simp [hq])) z hqz).2 he⟩
      rw [this]
  exact main _ _ (fun p hp => hp) htab

end
end Verif
