import Verif.Props.ToBytecode
import Verif.Props.ToBytecodeEx
import Verif.Spec.ReadSlots
/-
C22 (exact): when `to_bytecode` keeps every operand, on 3.13 with free variables that are also local ones.
-/
namespace Verif
open Spec

section
variable {κ : Type} [DecidableEq κ] {P : Platform} {key : Arg → κ} {b : Bytecode} {c : Concrete} {es : List CElem} {prune conserve : Bool}

theorem slotAt_slot {l : List Slot} {k : Nat} {s : Slot} (h : slotAt l k = (.slot s : Operand κ)) : l[k]? = some s := by
  unfold slotAt at h
  split at h
  · rename_i x hx; simp only [Operand.slot.injEq] at h; rw [hx, h]
  · simp at h

/-- Equal operations: the slots are those read. -/
theorem expand_slots (hP : P.WF) {ci : CInstr} (hc : ci.name ≠ "CACHE") {arg : Arg} {i : Instr} {off : Int}
    (h : decodeOperand P c ci = .ok arg) (hn : i.name = ci.name) (ho : i.opcode = ci.opcode)
    (hi : i.arg = match ci.getJumpTarget P off with | some t => .label t.toNat | none => arg)
    (tgt : Nat → Option Nat) (dest : Option Nat) (heq : expandB P key tgt i = expandC P key c dest ci) : SlotsRead P c ci := by
  intro a ha hloc k hk1 hk2
  have hK := (kinds_excl hP ci.opcode).local_ hloc
  have htn : ci.getJumpTarget P off = none := by
    cases hx : ci.getJumpTarget P off with
    | none => rfl
    | some t => rw [target_hasJump hx] at hK; simp at hK
  rw [htn] at hi
  simp only at hi
  unfold expandB expandC at heq
  rw [hn, ho, if_neg hc, if_neg hc, hi] at heq
  unfold decodeOperand at h
  rw [ha] at h
  simp only at h
  unfold decodeArg at h
  rw [if_neg (by simp [hK]), if_pos hloc] at h
  have get : ∀ {k : Nat} {x : Atom}, argIdx (localsLookup P c) k = .ok x → slotAt (localSlots P c) k = (slotOf x : Operand κ) →
      (localSlots P c)[k]? = ((localsLookup P c).map atomSlot)[k]? := by
    intro k x hx hs
    have hx' := argIdx_ok hx
    rw [slotOf_atom (List.mem_of_getElem? hx')] at hs
    rw [slotAt_slot hs, List.getElem?_map, hx']; rfl
  cases hd : P.dualSingles ci.opcode with
  | none =>
    have hdual : P.dual ci.opcode = false := by simp [Platform.dual, hd]
    rw [if_neg (by simp [hdual])] at h
    obtain ⟨x, hx, h⟩ := except_bind_ok h
    simp only [pure, Except.pure, Except.ok.injEq] at h
    subst h
    rw [hk1 hdual]
    refine get hx ?_
    rw [hd] at heq
    simp only [List.cons.injEq, Prod.mk.injEq, true_and, and_true] at heq
    unfold operandB operandC at heq
    rw [if_neg (by simp [hK]), if_neg (by simp [hK]), if_pos (by simp [hloc]), if_neg (by simp [hK]), ha] at heq
    simp only at heq
    rw [if_neg (by simp [hK]), if_pos hloc] at heq
    rw [← heq]
    rcases locals_atoms (List.mem_of_getElem? (argIdx_ok hx)) with ⟨n, rfl⟩ | ⟨n, rfl⟩ | ⟨n, rfl⟩ <;> rfl
  | some p =>
    obtain ⟨n1, n2⟩ := p
    have hdual : P.dual ci.opcode = true := by simp [Platform.dual, hd]
    rw [if_pos hdual] at h
    obtain ⟨x, hx, h⟩ := except_bind_ok h
    obtain ⟨y, hy, h⟩ := except_bind_ok h
    simp only [pure, Except.pure, Except.ok.injEq] at h
    subst h
    rw [shr4] at hx
    rw [and15] at hy
    rw [hd, ha] at heq
    simp only [List.cons.injEq, Prod.mk.injEq, true_and, and_true] at heq
    rcases hk2 hdual with rfl | rfl
    · exact get hx heq.1.symm
    · exact get hy heq.2.symm

theorem expand_lengths {i : Instr} {ci : CInstr} (hn : i.name = ci.name) (ho : i.opcode = ci.opcode) (tgt : Nat → Option Nat) (dest : Option Nat) :
    (expandB P key tgt i).length = (expandC P key c dest ci).length := by
  unfold expandB expandC
  rw [hn, ho]
  split
  · rfl
  · cases P.dualSingles ci.opcode with
    | none => rfl
    | some p =>
      obtain ⟨n1, n2⟩ := p
      simp only
      split <;> split <;> rfl

/-- The converse of `loop_ops`: if operations are kept, the slots used are those read. -/
theorem loop_conv (hP : P.WF) (c' : Concrete) (hc' : ∀ (dest : Option Nat) ci, expandC P key c' dest ci = expandC P key c dest ci)
    {targets : List Int} (es : List CElem) (hv : ∀ ci, .instr ci ∈ es → ValidCInstr P ci) (line off : Nat) (tbs : List Nat) (d : Dec)
    (h : decodeLoop P c prune conserve targets off tbs (normalizeLineno line es) = .ok d)
    (tgt : Nat → Option Nat) (loc : Loc) (tr : Option TryB)
    (heq : (opsB P key tgt loc tr d.elems).map plainOp = (opsC P key c' line off es).map plainOp) :
    ∀ ci, .instr ci ∈ es → ci.name ≠ "CACHE" → SlotsRead P c ci := by
  induction es generalizing line off tbs d loc tr with
  | nil => simp
  | cons e es ih =>
    cases e with
    | setLineno l =>
      rw [normalizeLineno] at h
      intro ci hci
      exact ih (fun ci hci => hv ci (by simp [hci])) l off tbs d h loc tr heq ci (by simpa using hci)
    | instr ci =>
      rw [normalizeLineno] at h
      have hci := hv ci (by simp)
      obtain ⟨main, d', h1, h2, h3, _, h5, _⟩ := loop_cons h (valid_size hci)
      rw [h3] at heq
      have hlab : ∀ r, (opsB P key tgt loc tr ((if (off : Int) ∈ targets then [BElem.label off] else []) ++ r)).map plainOp
          = (opsB P key tgt loc tr r).map plainOp := by
        intro r; split <;> rfl
      rw [hlab, opsB_marker _ _ _ (open_marker _ _)] at heq
      simp only [opsC] at heq
      rw [List.map_append, List.map_map] at heq
      have ih' := fun loc tr => ih (fun ci hci => hv ci (by simp [hci])) _ _ _ d' h2 loc tr
      rcases decodeInstr_ok hP hci h1 with ⟨hn, _, rfl⟩ | ⟨i, rfl, hvi, hn, ho, hl, arg, ha, hia⟩
      · rw [List.nil_append, opsB_marker _ _ _ (close_marker _ _)] at heq
        simp only [expandC, hn, if_true, List.map_nil, List.nil_append] at heq
        rw [width_units] at heq
        intro cj hcj hne
        simp only [List.mem_cons, CElem.instr.injEq] at hcj
        rcases hcj with rfl | hcj
        · exact absurd hn hne
        · exact ih' _ _ heq cj hcj hne
      · rw [List.singleton_append, opsB, List.map_append, opsB_marker _ _ _ (close_marker _ _), List.map_map] at heq
        have hsplit := List.append_inj heq (by
          simp only [List.length_map]; rw [hc']; exact expand_lengths hn ho _ _)
        intro cj hcj hne
        simp only [List.mem_cons, CElem.instr.injEq] at hcj
        rcases hcj with rfl | hcj
        · have h6 := hsplit.1
          have h7 : expandB P key tgt i = expandC P key c' ((cj.getJumpTarget P off).bind (fun t => opAt P t 0 0 c'.elems)) cj := by
            have := congrArg (List.map (fun x : String × Operand κ × Loc => (x.1, x.2.1))) h6
            simpa [Function.comp_def, plainOp] using this
          rw [hc'] at h7
          exact expand_slots hP hne ha hn ho hia _ _ h7
        · have h6 := hsplit.2
          rw [width_units] at h6
          exact ih' _ _ h6 cj hcj hne

/-! ### The slots -/

theorem filter_takeWhile {α : Type} (p : α → Bool) (l : List α) (j : Nat) (h : j < (l.takeWhile p).length) : (l.filter p)[j]? = l[j]? := by
  induction l generalizing j with
  | nil => simp at h
  | cons a l ih =>
    rw [List.takeWhile_cons] at h
    split at h
    · rename_i hp
      rw [List.filter_cons_of_pos hp]
      cases j with
      | zero => rfl
      | succ j => simpa using ih j (by simpa using h)
    · simp at h

theorem filter_shift {α : Type} (p : α → Bool) (l : List α) (hn : l.Nodup) (j : Nat) (h : (l.takeWhile p).length ≤ j) (x : α) (hx : l[j]? = some x) :
    (l.filter p)[j]? ≠ some x := by
  induction l generalizing j with
  | nil => simp at hx
  | cons a l ih =>
    rw [List.takeWhile_cons] at h
    rw [List.nodup_cons] at hn
    split at h
    · rename_i hp
      rw [List.filter_cons_of_pos hp]
      cases j with
      | zero => simp at h
      | succ j => simpa using ih hn.2 j (by simpa using h) (by simpa using hx)
    · rename_i hp
      rw [List.filter_cons_of_neg hp]
      intro hf
      -- an element at position `j` of a sublist of the tail is at a later position of the list
      have hsub : (l.filter p).Sublist l := List.filter_sublist
      have key : ∀ (s l : List α), s.Sublist l → l.Nodup → ∀ j i : Nat, s[j]? = some x → l[i]? = some x → j ≤ i := by
        intro s l hs
        induction hs with
        | slnil => intro _ j i h; simp at h
        | cons a hs ih =>
          intro hn j i h1 h2
          rw [List.nodup_cons] at hn
          cases i with
          | zero =>
            simp at h2; subst h2
            exact absurd (hs.subset (List.mem_of_getElem? h1)) hn.1
          | succ i => have := ih hn.2 j i h1 (by simpa using h2); omega
        | cons_cons a hs ih =>
          intro hn j i h1 h2
          rw [List.nodup_cons] at hn
          cases j with
          | zero => omega
          | succ j =>
            cases i with
            | zero =>
              simp at h2; subst h2
              exact absurd (hs.subset (List.mem_of_getElem? (by simpa using h1))) hn.1
            | succ i => have := ih hn.2 j i (by simpa using h1) (by simpa using h2); omega
      cases j with
      | zero =>
        simp at hx; subst hx
        exact hn.1 (hsub.subset (List.mem_of_getElem? hf))
      | succ j =>
        have := key _ _ hsub hn.2 (j + 1) j hf (by simpa using hx)
        omega

/-- On 3.13 an index is read right iff it comes before the first free variable that is also a local one. -/
theorem slots_iff (h13 : P.py313 = true) (hnd : c.attrs.freevars.Nodup) {k : Nat} (hk : (localSlots P c)[k]? ≠ none) :
    (localSlots P c)[k]? = ((localsLookup P c).map atomSlot)[k]? ↔ k < slotsBefore c := by
  have hL : localSlots P c = (cellsLookup P c).map atomSlot ++ c.attrs.freevars.map .free := by
    unfold localSlots; rw [if_pos h13, cells_slots _ (py313_311 h13)]
  have hR : (localsLookup P c).map atomSlot = (cellsLookup P c).map atomSlot ++ (c.attrs.freevars.filter (fun n => !c.varnames.contains n)).map .free := by
    unfold localsLookup; rw [if_pos h13]; simp [atomSlot, Function.comp_def]
  have hlen : slotsBefore c = ((cellsLookup P c).map atomSlot).length + (c.attrs.freevars.takeWhile (fun n => !c.varnames.contains n)).length := by
    unfold slotsBefore cellsLookup; rw [if_pos (py313_311 h13)]; simp
  rw [hL] at hk ⊢
  rw [hR, hlen]
  generalize (cellsLookup P c).map atomSlot = A at *
  by_cases hlt : k < A.length
  · rw [List.getElem?_append_left hlt, List.getElem?_append_left hlt]
    simp; omega
  · rw [List.getElem?_append_right (by omega)] at hk
    rw [List.getElem?_append_right (by omega), List.getElem?_append_right (by omega)]
    by_cases hj : k - A.length < (c.attrs.freevars.takeWhile (fun n => !c.varnames.contains n)).length
    · rw [List.getElem?_map, List.getElem?_map, filter_takeWhile _ _ _ hj]
      simp only [true_iff]; omega
    · constructor
      · intro he
        rw [List.getElem?_map] at hk
        obtain ⟨x, hx⟩ : ∃ x, c.attrs.freevars[k - A.length]? = some x := by
          cases hx : c.attrs.freevars[k - A.length]? with
          | none => rw [hx] at hk; simp at hk
          | some x => exact ⟨x, rfl⟩
        rw [List.getElem?_map, List.getElem?_map, hx] at he
        exfalso
        refine filter_shift (fun n => !c.varnames.contains n) _ hnd _ (by omega) x hx ?_
        cases hy : (c.attrs.freevars.filter (fun n => !c.varnames.contains n))[k - A.length]? with
        | none => rw [hy] at he; simp at he
        | some y => rw [hy] at he; simp at he; rw [he]
      · intro h; omega

theorem slotsRead_old (h : P.py313 = false) (ci : CInstr) : SlotsRead P c ci :=
  slotsRead_apart (fun h' => by rw [h] at h'; simp at h') ci

theorem slotsRead_iff (h13 : P.py313 = true) (hnd : c.attrs.freevars.Nodup) {ci : CInstr} (hc : ci.name ≠ "CACHE")
    (hk : ∀ k ∈ localIndexes P ci, (localSlots P c)[k]? ≠ none) :
    SlotsRead P c ci ↔ ∀ k ∈ localIndexes P ci, k < slotsBefore c := by
  have hmem : ∀ k, k ∈ localIndexes P ci ↔ ∃ a, ci.arg = some a ∧ P.haslocal ci.opcode = true ∧ (P.dual ci.opcode = false → k = a) ∧
      (P.dual ci.opcode = true → k = a / 16 ∨ k = a % 16) := by
    intro k
    unfold localIndexes
    cases hl : P.haslocal ci.opcode with
    | false => simp
    | true =>
      rw [if_neg (by simp [hc])]
      cases ci.arg with
      | none => simp
      | some a => cases P.dual ci.opcode <;> simp
  constructor
  · intro h k hkm
    obtain ⟨a, h1, h2, h3, h4⟩ := (hmem k).1 hkm
    exact (slots_iff h13 hnd (hk k hkm)).1 (h a h1 h2 k h3 h4)
  · intro h a h1 h2 k h3 h4
    have hkm := (hmem k).2 ⟨a, h1, h2, h3, h4⟩
    exact (slots_iff h13 hnd (hk k hkm)).2 (h k hkm)

/-- The operands of a list of operations without invalid ones address existing slots. -/
theorem valid_slots (hP : P.WF) (c : Concrete) (es : List CElem) (line cur : Nat) (hok : ∀ o ∈ opsC P key c line cur es, o.operand ≠ .invalid)
    (ci : CInstr) (hci : .instr ci ∈ es) (k : Nat) (hk : k ∈ localIndexes P ci) : (localSlots P c)[k]? ≠ none := by
  induction es generalizing line cur with
  | nil => simp at hci
  | cons e es ih =>
    cases e with
    | setLineno l => exact ih _ _ hok (by simpa using hci)
    | instr cj =>
      simp only [opsC] at hok
      simp only [List.mem_cons, CElem.instr.injEq] at hci
      rcases hci with rfl | hci
      · unfold localIndexes at hk
        split at hk
        · simp at hk
        · rename_i hn
          simp only [not_or, Bool.not_eq_false] at hn
          cases ha : ci.arg with
          | none => rw [ha] at hk; simp at hk
          | some a =>
            rw [ha] at hk
            simp only at hk
            have hno : ∀ p ∈ expandC P key c ((ci.getJumpTarget P cur).bind (fun t => opAt P t 0 0 c.elems)) ci, p.2 ≠ .invalid := by
              intro p hp
              exact hok _ (List.mem_append_left _ (List.mem_map.2 ⟨p, hp, rfl⟩))
            unfold expandC at hno
            rw [if_neg hn.1] at hno
            have slot : ∀ k, (slotAt (localSlots P c) k : Operand κ) ≠ .invalid → (localSlots P c)[k]? ≠ none := by
              intro k h hx; apply h; simp [slotAt, hx]
            cases hd : P.dualSingles ci.opcode with
            | none =>
              rw [if_neg (by simp [Platform.dual, hd])] at hk
              rw [hd] at hno
              simp only [List.mem_cons, List.not_mem_nil, or_false] at hk hno
              subst hk
              have := hno _ rfl
              have hK := (kinds_excl hP ci.opcode).local_ hn.2
              unfold operandC at this
              rw [if_neg (by simp [hK]), ha] at this
              simp only at this
              rw [if_neg (by simp [hK]), if_pos hn.2] at this
              exact slot _ this
            | some p =>
              obtain ⟨n1, n2⟩ := p
              rw [if_pos (by simp [Platform.dual, hd])] at hk
              rw [hd, ha] at hno
              simp only [List.mem_cons, List.not_mem_nil, or_false] at hk hno
              rcases hk with rfl | rfl
              · exact slot _ (hno _ (.inl rfl))
              · exact slot _ (hno _ (.inr rfl))
      · exact ih _ _ (fun o ho => hok o (List.mem_append_right _ ho)) hci

/-- **C22 (exact).** If `to_bytecode` succeeds, the operations, operands, jump targets and locations of the result are
those of the concrete code `es` (its EXTENDED_ARG folded) iff, on 3.13, no instruction on local variables addresses the
slot of a free variable that is also a local variable, or a slot after it. Assumed: the concrete code denotes a program,
and no free variable is listed twice. -/
theorem C22_exact (hP : P.WF) (hv : ∀ ci, .instr ci ∈ c.elems → ValidCInstr P ci)
    (h : toBytecode P prune conserve c = .ok b) (hes : removeExtendedArgs P 0 none c.elems = .ok es)
    (hok : ∀ o ∈ programC P key { c with elems := es }, o.operand ≠ .invalid) (hnd : c.attrs.freevars.Nodup) :
    (programB P key b).map (fun o => (o.name, o.operand, o.loc)) =
      (programC P key { c with elems := es }).map (fun o => (o.name, o.operand, o.loc)) ↔
    (P.py313 = true → ∀ ci, .instr ci ∈ es → ∀ k ∈ localIndexes P ci, k < slotsBefore c) := by
  obtain ⟨es', d, h1, h2, h3, h4, h5⟩ := toBytecode_ok h
  rw [hes] at h1; cases h1
  have hve := removeExtendedArgs_valid P _ hv _ _ _ hes
  have hslots : ∀ ci, .instr ci ∈ es → ∀ k ∈ localIndexes P ci, (localSlots P c)[k]? ≠ none :=
    fun ci hci k hk => valid_slots hP { c with elems := es } es _ _ hok ci hci k hk
  have hiff : (∀ ci, .instr ci ∈ es → ci.name ≠ "CACHE" → SlotsRead P c ci) ↔
      (P.py313 = true → ∀ ci, .instr ci ∈ es → ∀ k ∈ localIndexes P ci, k < slotsBefore c) := by
    constructor
    · intro hr h13 ci hci k hk
      have hc : ci.name ≠ "CACHE" := by
        intro hc; simp [localIndexes, hc] at hk
      exact (slotsRead_iff h13 hnd hc (hslots ci hci)).1 (hr ci hci hc) k hk
    · intro hr ci hci hc
      cases h13 : P.py313 with
      | false => exact slotsRead_old h13 ci
      | true => exact (slotsRead_iff h13 hnd hc (hslots ci hci)).2 (hr h13 ci hci)
  rw [← hiff]
  unfold programB programC
  rw [h5]
  constructor
  · intro heq
    exact loop_conv hP { c with elems := es } (fun dest ci => expandC_elems c es dest ci) es hve _ _ _ d h2 _ _ _ heq
  · intro hf
    refine loop_ops hP { c with elems := es } (fun dest ci => expandC_elems c es dest ci) es hf hve _ _ _ d h2 _ ?_ hok _ _
    intro t ht k hk
    obtain ⟨n, hn, rfl⟩ := h3 t ht
    obtain ⟨_, m, g1, g2⟩ := (loop_labels hP es hve _ _ _ d h2 0 n).1 hn
    rw [g2 k hk]
    simpa using g1

end
end Verif
