import Verif.Proofs.Convert
import Verif.Spec.Table
/-
The result of the converter, as an input of `to_bytecode`.
-/
namespace Verif
open Spec

section
variable {κ : Type} [DecidableEq κ]
variable {P : Platform} {key : Arg → κ} {b : Bytecode} {c : Concrete} {T : Tabs} {M : List Cell}

theorem FLay.coherent {A : Attrs} {loc : Loc} {es : List BElem} {M : List Cell} (h : FLay P key A T loc es M)
    (hl : Coherent loc) (hv : ∀ i, .instr i ∈ es → ValidInstr P i) : ∀ d ∈ M, Coherent d.loc := by
  induction es generalizing loc M with
  | nil => cases M with
    | nil => simp
    | cons d M => simp [FLay] at h
  | cons e es ih =>
    cases M with
    | nil => simp [FLay] at h
    | cons d M =>
      simp only [FLay] at h
      obtain ⟨h1, h2, h3, h4⟩ := h
      have hn : Coherent (nextLoc loc e) := by
        cases e with
        | instr i =>
          simp only [nextLoc]
          cases hi : i.loc with
          | none => exact hl
          | some l => exact (hv i (by simp)).loc_ok l hi
        | setLineno n => exact coherent_line _
        | _ => exact hl
      intro x hx
      rcases List.mem_cons.1 hx with rfl | hx
      · rw [h2]; exact hn
      · exact ih h4 hn (fun i hi => hv i (by simp [hi])) x hx

theorem Built.valid {ci : CInstr} (h : Built P ci) (hl : ∀ l, ci.loc = some l → Coherent l) : ValidCInstr P ci :=
  ⟨h.name_op, h.base, h.has, h.hasnt, h.range, by rw [h.size, h.ext], hl⟩

theorem cache_valid (hP : P.WF) (h11 : P.py311 = true) {loc : Loc} (hl : Coherent loc) : ValidCInstr P (mkI P "CACHE" (some 0) loc) := by
  obtain ⟨h1, h2⟩ := hP.cache h11
  have hop : (mkI P "CACHE" (some 0) loc).opcode = 0 := by simp [mkI, h1]
  refine ⟨by rw [hop]; exact h1, by rw [hop]; exact h2, ?_, ?_, ?_, rfl, ?_⟩
  · rw [hop, hP.zero]; simp
  · rw [hop]; simp
  · intro a ha; simp only [mkI, Option.some.injEq] at ha; omega
  · intro l h; simp only [mkI, Option.some.injEq] at h; rw [← h]; exact hl

theorem split_names_ext {op : Nat} {n1 n2 : String} (h : P.dualSingles op = some (n1, n2)) : n1 ≠ "EXTENDED_ARG" ∧ n2 ≠ "EXTENDED_ARG" := by
  unfold Platform.dualSingles at h
  repeat' split at h
  all_goals first
    | (simp only [Option.some.injEq, Prod.mk.injEq] at h; obtain ⟨rfl, rfl⟩ := h; decide)
    | simp at h

theorem Final.instrs_valid (h : Final P key b c T M) : ∀ ci ∈ code P M, ValidCInstr P ci ∧ ci.name ≠ "EXTENDED_ARG" := by
  intro ci hci
  simp only [code, List.mem_flatMap] at hci
  obtain ⟨d, hd, hci⟩ := hci
  have hloc := h.lay.coherent (coherent_line _) h.valid d hd
  have hcl : ∀ l, ci.loc = some l → Coherent l := by
    intro l hl
    rw [cell_loc d ci hci] at hl
    simp only [Option.some.injEq] at hl
    rw [← hl]; exact hloc
  cases hi : d.e with
  | instr i =>
    obtain ⟨hv, hn, enc0, _, _, _, hb⟩ := h.mem hd hi
    have hcache : ∀ n, ci ∈ List.replicate (nCaches P n) (mkI P "CACHE" (some 0) d.loc) → ValidCInstr P ci ∧ ci.name ≠ "EXTENDED_ARG" := by
      intro n hmem
      obtain ⟨h0, rfl⟩ := List.mem_replicate.1 hmem
      have h11 : P.py311 = true := by
        unfold nCaches at h0
        by_cases hx : P.py311 = true
        · exact hx
        · simp [hx] at h0
      exact ⟨cache_valid h.wf h11 hloc, by simp [mkI]⟩
    rcases h.shape hd hi with ⟨a, ha, hc⟩ | ⟨n1, i1, n2, i2, ha, hs, hc⟩
    · rw [hc, List.mem_cons] at hci
      rcases hci with rfl | hci
      · exact ⟨(hb _ (by rw [ha]; simp [mains])).valid hcl, hv.not_ext⟩
      · exact hcache _ hci
    · obtain ⟨e1, e2⟩ := split_names_ext hs
      rw [hc, List.mem_cons, List.mem_cons] at hci
      rcases hci with rfl | rfl | hci
      · exact ⟨(hb _ (by rw [ha]; simp [mains])).valid hcl, e1⟩
      · exact ⟨(hb _ (by rw [ha]; simp [mains])).valid hcl, e2⟩
      · exact hcache _ hci
  | _ => simp [Cell.code, hi] at hci

theorem remove_noext (P : Platform) (l : List CInstr) (h : ∀ ci ∈ l, ci.name ≠ "EXTENDED_ARG") (nb : Nat) :
    removeExtendedArgs P nb none (l.map .instr) = .ok (l.map .instr) := by
  induction l generalizing nb with
  | nil => simp [removeExtendedArgs]
  | cons i l ih =>
    rw [List.map_cons]
    unfold removeExtendedArgs
    rw [if_neg (h i (by simp))]
    simp only
    rw [ih (fun x hx => h x (by simp [hx])) nb]
    rfl

/-! ### Operands -/

theorem opsB_mem (tgt : Nat → Option Nat) (l : List BElem) (loc : Loc) (tr : Option TryB) (o : Op κ) (ho : o ∈ opsB P key tgt loc tr l) :
    ∃ i, .instr i ∈ l ∧ (o.name, o.operand) ∈ expandB P key tgt i := by
  induction l generalizing loc tr with
  | nil => simp [opsB] at ho
  | cons e l ih =>
    cases e with
    | instr i =>
      simp only [opsB, List.mem_append, List.mem_map] at ho
      rcases ho with ⟨p, hp, rfl⟩ | ho
      · exact ⟨i, by simp, hp⟩
      · obtain ⟨j, h1, h2⟩ := ih _ _ ho
        exact ⟨j, by simp [h1], h2⟩
    | label _ => obtain ⟨j, h1, h2⟩ := ih _ _ ho; exact ⟨j, by simp [h1], h2⟩
    | setLineno _ => obtain ⟨j, h1, h2⟩ := ih _ _ ho; exact ⟨j, by simp [h1], h2⟩
    | tryBegin _ => obtain ⟨j, h1, h2⟩ := ih _ _ ho; exact ⟨j, by simp [h1], h2⟩
    | tryEnd _ => obtain ⟨j, h1, h2⟩ := ih _ _ ho; exact ⟨j, by simp [h1], h2⟩

/-- The operands of a converted `Bytecode` are all valid. -/
theorem Final.operand_valid (h : Final P key b c T M) (i : Instr) (hi : .instr i ∈ b.elems) :
    ∀ p ∈ expandB P key (fun l => labelPos P l 0 b.elems) i, p.2 ≠ .invalid := by
  have hel := h.lay.elems
  rw [← hel] at hi
  obtain ⟨d, hd, hde⟩ := List.mem_map.1 hi
  obtain ⟨hv, hn, enc0, henc, _, _, _⟩ := h.mem hd hde
  have hA := hv.arg_ok
  have hK := kinds_excl h.wf i.opcode
  intro p hp
  unfold expandB at hp
  rw [if_neg hn] at hp
  cases hds : P.dualSingles i.opcode with
  | some q =>
    obtain ⟨n1, n2⟩ := q
    rw [hds] at hp
    have hdual : P.dual i.opcode = true := by simp [Platform.dual, hds]
    obtain ⟨x, y, hxy, hx, hy⟩ := hA.dual hdual
    rw [hxy] at hp
    simp only [List.mem_cons, List.not_mem_nil, or_false] at hp
    rcases hx with ⟨n, rfl⟩ | ⟨n, rfl⟩ <;> rcases hy with ⟨m, rfl⟩ | ⟨m, rfl⟩ <;> rcases hp with rfl | rfl <;> simp [slotOf]
  | none =>
    rw [hds] at hp
    simp only [List.mem_singleton] at hp
    subst hp
    simp only
    have hdual : P.dual i.opcode = false := by simp [Platform.dual, hds]
    unfold operandB
    cases hj : P.hasJump i.opcode with
    | true =>
      rw [if_pos rfl]
      rcases hA.jump hj with ⟨l, hl⟩ | ⟨bb, hl⟩
      · obtain ⟨M1, M2, hM⟩ := List.append_of_mem hd
        obtain ⟨a, k, _, h2, _⟩ := h.dest hM hde hl
        rw [hl]; simp [h2, jumpOr]
      · exfalso
        have := hK.jump hj
        unfold encodeOperand at henc
        rw [hl] at henc
        have hin := not_intr h.wf (op := i.opcode) (by rw [hj]; rfl)
        simp only [this, hin, Bool.false_eq_true, if_false, Bool.or_self] at henc
        simp [encodeInt, Arg.asInt, bind, Except.bind] at henc
    | false =>
      rw [if_neg (by simp)]
      cases hc : P.hasconst i.opcode with
      | true => simp
      | false =>
        rw [if_neg (by simp)]
        cases hlo : P.haslocal i.opcode with
        | true =>
          rcases hA.local_ hlo hdual with ⟨n, ha⟩ | ⟨_, ⟨n, ha⟩ | ⟨n, ha⟩⟩ <;> rw [ha] <;> simp
        | false =>
          cases hfr : P.hasfree i.opcode with
          | true => rcases hA.free hfr with ⟨n, ha⟩ | ⟨n, ha⟩ <;> rw [ha] <;> simp
          | false =>
            rw [if_neg (by simp)]
            cases hna : P.hasname i.opcode with
            | true =>
              rw [if_pos rfl]
              cases hf1 : P.bitflag i.opcode with
              | true => obtain ⟨f, n, ha⟩ := hA.flag hf1; rw [ha]; simp
              | false =>
                cases hf2 : P.bitflag2 i.opcode with
                | true => obtain ⟨f, g, n, ha⟩ := hA.flag2 hf2; rw [ha]; simp
                | false => obtain ⟨n, ha⟩ := hA.name hna hf1 hf2; rw [ha]; simp
            | false =>
              rw [if_neg (by simp)]
              cases hcm : P.hascompare i.opcode with
              | true => obtain ⟨v, ha⟩ := hA.compare hcm; rw [ha]; simp
              | false =>
                rw [if_neg (by simp)]
                cases h1 : P.intrinsic1 i.opcode with
                | true => obtain ⟨v, ha⟩ := hA.intr1 h1; rw [ha]; simp
                | false =>
                  cases h2 : P.intrinsic2 i.opcode with
                  | true => obtain ⟨v, ha⟩ := hA.intr2 h2; rw [ha]; simp
                  | false =>
                    rw [if_neg (by simp)]
                    cases hh : P.hasArg i.opcode with
                    | false =>
                      have : i.arg = .unset := by
                        by_cases hu : i.arg = .unset
                        · exact hu
                        · have := hA.present.2 hu; rw [hh] at this; simp at this
                      rw [this]; simp
                    | true =>
                      obtain ⟨v, ha, _⟩ := hA.int (by simp [*]) hh
                      split
                      · simp
                      · rw [ha]; simp

theorem Final.program_valid (h : Final P key b c T M) (hok : ∀ i, .instr i ∈ b.elems → OperandOK P c.varnames i) :
    ∀ o ∈ programC P key c, o.operand ≠ .invalid := by
  intro o ho
  have hm : (o.name, o.operand) ∈ (programC P key c).map (fun o => (o.name, o.operand)) := List.mem_map.2 ⟨o, ho, rfl⟩
  rw [h.view_operand hok] at hm
  obtain ⟨o', ho', he⟩ := List.mem_map.1 hm
  obtain ⟨i, hi, hx⟩ := opsB_mem _ _ _ _ _ ho'
  rw [he] at hx
  exact h.operand_valid i hi _ hx

/-! ### The exception table -/

theorem opcodeOffsets_code (l : List CInstr) (h2 : ∀ i ∈ l, 2 ≤ i.size) (cur : Nat) :
    opcodeOffsets P cur (l.map .instr) = instrOffsets P cur l := by
  induction l generalizing cur with
  | nil => rfl
  | cons i l ih =>
    have hu := units_pos P i (h2 i (by simp))
    have hw : width P i = i.units P := rfl
    have hun : P.unit = (if P.py310 then 1 else 2) := rfl
    rw [List.map_cons, opcodeOffsets, instrOffsets, ih (fun x hx => h2 x (by simp [hx])), hw, ← hun]
    rw [show cur + i.units P - P.unit = cur + (i.units P - P.unit) by omega, show cur + (i.units P - P.unit) + P.unit = cur + i.units P by omega]

theorem regs_disjoint (M : List Cell) (n : Nat) (cur : Option (Nat × TryB)) (seen : List Nat) (any : Bool)
    (hc : ∀ p, cur = some p → p.1 ≤ n) (hw : WellTried (cur.map (·.2.id)) seen any (M.map (·.e))) :
    (regs P n cur M).Pairwise (fun p q => p.2.stop < q.2.start) := by
  induction M generalizing n cur seen any with
  | nil => simp [regs]
  | cons d M ih =>
    unfold regs
    cases hd : d.e with
    | tryBegin t =>
      simp only [List.map_cons, hd, WellTried] at hw
      exact ih n (some (n, t)) _ _ (by rintro p ⟨rfl⟩; exact Nat.le_refl _) hw.2.2
    | tryEnd id =>
      simp only [List.map_cons, hd, WellTried] at hw
      obtain ⟨h1, h2, h3⟩ := hw
      cases cur with
      | none => simp at h1
      | some p =>
        obtain ⟨s, t⟩ := p
        simp only
        refine List.pairwise_cons.2 ⟨?_, ih n none _ _ (by simp) h3⟩
        have := regs_bounds (P := P) M n none _ _ (by simp) h3
        simp only at this
        intro q hq
        have := this q hq
        simp only; omega
    | instr i => simp only [List.map_cons, hd, WellTried] at hw; exact ih _ cur _ _ (fun p hp => by have := hc p hp; omega) hw
    | label i => simp only [List.map_cons, hd, WellTried] at hw; exact ih _ cur _ _ (fun p hp => by have := hc p hp; omega) hw
    | setLineno i => simp only [List.map_cons, hd, WellTried] at hw; exact ih _ cur _ _ (fun p hp => by have := hc p hp; omega) hw

theorem regs_nonempty {M0 : List Cell} (hM0 : ∀ d ∈ M0, ∀ i, d.e = .instr i → 0 < (d.code P).length) (M : List Cell) (hsub : ∀ d ∈ M, d ∈ M0) (n : Nat)
    (cur : Option (Nat × TryB)) (e : Bool) (hc : ∀ p, cur = some p → p.1 ≤ n ∧ (e = false → p.1 < n)) (hw : NoEmptyTry e (M.map (·.e))) :
    ∀ p ∈ regs P n cur M, p.2.start ≤ p.2.stop := by
  induction M generalizing n cur e with
  | nil => simp [regs]
  | cons d M ih =>
    have ih := ih (fun x hx => hsub x (by simp [hx]))
    unfold regs
    cases hd : d.e with
    | tryBegin t =>
      simp only [List.map_cons, hd, NoEmptyTry] at hw
      exact ih n (some (n, t)) true (by rintro p ⟨rfl⟩; simp) hw
    | tryEnd id =>
      simp only [List.map_cons, hd, NoEmptyTry] at hw
      cases cur with
      | none => exact ih n none false (by simp) hw.2
      | some p =>
        obtain ⟨s, t⟩ := p
        intro q hq
        rcases List.mem_cons.1 hq with rfl | hq
        · have := (hc _ rfl).2 hw.1
          simp only at this ⊢; omega
        · exact ih n none false (by simp) hw.2 q hq
    | instr i =>
      simp only [List.map_cons, hd, NoEmptyTry] at hw
      have := hM0 d (hsub d (by simp)) i hd
      exact ih _ cur false (fun p hp => by have := hc p hp; omega) hw
    | label i =>
      simp only [List.map_cons, hd, NoEmptyTry] at hw
      exact ih _ cur e (fun p hp => by have := hc p hp; exact ⟨by omega, fun h => by have := this.2 h; omega⟩) hw
    | setLineno i =>
      simp only [List.map_cons, hd, NoEmptyTry] at hw
      exact ih _ cur e (fun p hp => by have := hc p hp; exact ⟨by omega, fun h => by have := this.2 h; omega⟩) hw

theorem mapM_mem {α β : Type} {f : α → Py β} : ∀ (l : List α) (r : List β), l.mapM f = .ok r → ∀ y ∈ r, ∃ x ∈ l, f x = .ok y := by
  intro l
  induction l with
  | nil => intro r h; simp only [List.mapM_nil, pure, Except.pure, Except.ok.injEq] at h; subst h; simp
  | cons x l ih =>
    intro r h
    rw [List.mapM_cons] at h
    obtain ⟨y, hy, h⟩ := except_bind_ok h
    obtain ⟨ys, hys, h⟩ := except_bind_ok h
    simp only [pure, Except.pure, Except.ok.injEq] at h
    subst h
    intro z hz
    rcases List.mem_cons.1 hz with rfl | hz
    · exact ⟨x, by simp, hy⟩
    · obtain ⟨w, h1, h2⟩ := ih _ hys z hz
      exact ⟨w, by simp [h1], h2⟩

theorem mapM_pairwise {α β : Type} {f : α → Py β} {R : α → α → Prop} {S : β → β → Prop} : ∀ (l : List α) (r : List β), l.mapM f = .ok r →
    l.Pairwise R → (∀ x ∈ l, ∀ y ∈ l, ∀ x' y', R x y → f x = .ok x' → f y = .ok y' → S x' y') → r.Pairwise S := by
  intro l
  induction l with
  | nil => intro r h; simp only [List.mapM_nil, pure, Except.pure, Except.ok.injEq] at h; subst h; simp
  | cons x l ih =>
    intro r h hp hS
    rw [List.mapM_cons] at h
    obtain ⟨y, hy, h⟩ := except_bind_ok h
    obtain ⟨ys, hys, h⟩ := except_bind_ok h
    simp only [pure, Except.pure, Except.ok.injEq] at h
    subst h
    obtain ⟨p1, p2⟩ := List.pairwise_cons.1 hp
    refine List.pairwise_cons.2 ⟨?_, ih _ hys p2 (fun a ha b hb => hS a (by simp [ha]) b (by simp [hb]))⟩
    intro z hz
    obtain ⟨w, h1, h2⟩ := mapM_mem _ _ hys z hz
    exact hS x (by simp) w (by simp [h1]) y z (p1 w h1) hy h2

/-- The table of the result delimits regions, if no region was empty and each starts with an instruction without
EXTENDED_ARG. -/
theorem Final.tableOK (h : Final P key b c T M) (hw : WellTried none [] false b.elems) (he : NoEmptyTry false b.elems)
    (hs : ∀ e ∈ c.excTable, ∃ k ∈ starts P 0 c.elems, e.start = k) : TableOK P c := by
  have hw' : WellTried none [] false (M.map (·.e)) := by rw [h.lay.elems]; exact hw
  have hbl := (blocks_regs (P := P) M 0 [] false [] (by simp)).1 hw'
  rw [List.nil_append] at hbl
  have htab := h.table
  rw [hbl] at htab
  have hrange := regs_range h.code_pos M (fun d hd => hd) 0 none [] false (by simp) (by simp) hw'
  have hne := regs_nonempty h.code_pos M (fun d hd => hd) 0 none false (by simp) (by rw [h.lay.elems]; exact he)
  have hdis := regs_disjoint (P := P) M 0 none [] false (by simp) hw'
  have hres : ∀ p ∈ regs P 0 none M, ∀ e, resolveEntry P (labelsOf P 0 [] M) (code P M) p = .ok e →
      ∃ s t : Nat, e.start = s ∧ e.stop = t ∧ (instrOffsets P 0 (code P M))[p.2.start.toNat]? = some s ∧
        (instrOffsets P 0 (code P M))[p.2.stop.toNat]? = some t ∧ (opAt P e.target 0 0 c.elems).isSome = true := by
    intro p hp e hpe
    obtain ⟨r1, r2, r3, r4, r5⟩ := hrange p hp
    unfold resolveEntry at hpe
    obtain ⟨s, hs, hpe⟩ := except_bind_ok hpe
    obtain ⟨t, ht, hpe⟩ := except_bind_ok hpe
    obtain ⟨ti, hti, hpe⟩ := except_bind_ok hpe
    obtain ⟨htl, k', hk1, hk2⟩ := h.label hti
    rw [labelOffsets_get P _ code_size, if_pos (by omega)] at hpe
    simp only [pure, Except.pure, Except.ok.injEq, Nat.zero_add] at hpe
    subst hpe
    exact ⟨s, t, rfl, rfl, pyGet_ok hs r1, pyGet_ok ht r2, by simp only; rw [hk2]; rfl⟩
  refine ⟨?_, hs, ?_, ?_, ?_⟩
  · intro e he
    obtain ⟨p, hp, hpe⟩ := mapM_mem _ _ htab e he
    obtain ⟨s, t, e1, e2, e3, e4, _⟩ := hres p hp e hpe
    obtain ⟨r1, r2, _⟩ := hrange p hp
    have := (offset_mono code_size e3 e4).2 (by have := hne p hp; omega)
    rw [e1, e2]; omega
  · intro e he
    obtain ⟨p, hp, hpe⟩ := mapM_mem _ _ htab e he
    obtain ⟨s, t, e1, e2, e3, e4, _⟩ := hres p hp e hpe
    refine ⟨t, ?_, e2⟩
    rw [h.elems, opcodeOffsets_code _ code_size]
    exact List.mem_of_getElem? e4
  · refine mapM_pairwise _ _ htab hdis ?_
    intro p hp q hq e f hpq hpe hqf
    obtain ⟨s, t, e1, e2, e3, e4, _⟩ := hres p hp e hpe
    obtain ⟨s', t', f1, f2, f3, f4, _⟩ := hres q hq f hqf
    obtain ⟨r1, r2, _⟩ := hrange p hp
    obtain ⟨r1', r2', _⟩ := hrange q hq
    left
    have := (offset_mono code_size f3 e4)
    have hn : ¬ s' ≤ t := by rw [this]; omega
    rw [e2, f1]; omega
  · intro e he
    obtain ⟨p, hp, hpe⟩ := mapM_mem _ _ htab e he
    obtain ⟨s, t, _, _, _, _, h6⟩ := hres p hp e hpe
    exact h6

end
end Verif
