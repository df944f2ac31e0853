import Verif.Props.ConvertEx
import Verif.Spec.LeadingTry
/-
C16, exact version: any regions, also empty ones before the first instruction.
-/
namespace Verif
open Spec

theorem wellTried_open (es : List BElem) (o : Nat) (seen : List Nat) (h : WellTried (some o) seen true es) (he : endsNow es = false) :
    WellTried (some o) seen false es := by
  induction es with
  | nil => simp [WellTried] at h
  | cons e es ih =>
    cases e with
    | tryBegin t => simp [WellTried] at h
    | tryEnd id => simp [endsNow] at he
    | instr i => simpa [WellTried] using h
    | label l => simp only [WellTried, endsNow] at h he ⊢; exact ih h he
    | setLineno l => simp only [WellTried, endsNow] at h he ⊢; exact ih h he

theorem wellTried_strict (es : List BElem) (seen : List Nat) (h : WellTried none seen true es) (he : leadingEmpty es = none) :
    WellTried none seen false es := by
  induction es with
  | nil => simp [WellTried]
  | cons e es ih =>
    cases e with
    | tryBegin t =>
      simp only [WellTried, leadingEmpty] at h he ⊢
      refine ⟨h.1, h.2.1, wellTried_open es _ _ h.2.2 ?_⟩
      cases hx : endsNow es with
      | false => rfl
      | true => rw [hx] at he; simp at he
    | tryEnd id => simp [WellTried] at h
    | instr i => simpa [WellTried] using h
    | label l => simp only [WellTried, leadingEmpty] at h he ⊢; exact ih h he
    | setLineno l => simp only [WellTried, leadingEmpty] at h he ⊢; exact ih h he

theorem regs_ends {P : Platform} (M : List Cell) (n s : Nat) (t : TryB) (h : endsNow (M.map (·.e)) = true) :
    ∃ r, regs P n (some (s, t)) M = (t, ⟨s, (n : Int) - 1, 0, t.depth.getD 0, t.lasti⟩) :: r := by
  induction M with
  | nil => simp [endsNow] at h
  | cons d M ih =>
    rw [List.map_cons] at h
    unfold regs
    cases hd : d.e with
    | tryEnd id => exact ⟨_, rfl⟩
    | label l =>
      rw [hd] at h
      simp only [endsNow] at h
      simp only [show (d.code P).length = 0 by simp [Cell.code, hd], Nat.add_zero]
      exact ih h
    | setLineno l =>
      rw [hd] at h
      simp only [endsNow] at h
      simp only [show (d.code P).length = 0 by simp [Cell.code, hd], Nat.add_zero]
      exact ih h
    | tryBegin t => rw [hd] at h; simp [endsNow] at h
    | instr i => rw [hd] at h; simp [endsNow] at h

theorem regs_leading {P : Platform} (M : List Cell) (n : Nat) (t : TryB) (h : leadingEmpty (M.map (·.e)) = some t) :
    (∃ r, regs P n none M = (t, ⟨n, (n : Int) - 1, 0, t.depth.getD 0, t.lasti⟩) :: r) ∧ .tryBegin t ∈ M.map (·.e) := by
  induction M with
  | nil => simp [leadingEmpty] at h
  | cons d M ih =>
    rw [List.map_cons] at h
    unfold regs
    cases hd : d.e with
    | tryBegin t' =>
      rw [hd] at h
      simp only [leadingEmpty] at h
      split at h
      · simp only [Option.some.injEq] at h
        subst h
        exact ⟨regs_ends M n n t' (by assumption), by simp [hd]⟩
      · simp at h
    | label l =>
      rw [hd] at h
      simp only [leadingEmpty] at h
      simp only [show (d.code P).length = 0 by simp [Cell.code, hd], Nat.add_zero]
      exact ⟨(ih h).1, by rw [List.map_cons]; exact List.mem_cons_of_mem _ (ih h).2⟩
    | setLineno l =>
      rw [hd] at h
      simp only [leadingEmpty] at h
      simp only [show (d.code P).length = 0 by simp [Cell.code, hd], Nat.add_zero]
      exact ⟨(ih h).1, by rw [List.map_cons]; exact List.mem_cons_of_mem _ (ih h).2⟩
    | tryEnd t => rw [hd] at h; simp [leadingEmpty] at h
    | instr i => rw [hd] at h; simp [leadingEmpty] at h

section
variable {κ : Type} [DecidableEq κ]
variable {P : Platform} {key : Arg → κ} {b : Bytecode} {c : Concrete} {T : Tabs} {M : List Cell}

theorem opsI_handler (l : List CInstr) (hl : ∀ i ∈ l, 2 ≤ i.size) (cur : Nat) :
    ∀ o ∈ opsI P key c cur l, ∃ k off : Nat, (instrOffsets P cur l)[k]? = some off ∧ o.handler = handlerAt P c off := by
  induction l generalizing cur with
  | nil => intro o ho; simp [opsI] at ho
  | cons ci l ih =>
    intro o ho
    have hu := units_pos P ci (hl ci (by simp))
    rw [opsI, List.mem_append] at ho
    rcases ho with ho | ho
    · obtain ⟨p, _, rfl⟩ := List.mem_map.1 ho
      refine ⟨0, _, rfl, ?_⟩
      rw [width_units, Nat.add_sub_assoc hu]
    · obtain ⟨k, off, h1, h2⟩ := ih (fun x hx => hl x (by simp [hx])) _ o ho
      refine ⟨k + 1, off, ?_, h2⟩
      rw [instrOffsets, List.getElem?_cons_succ, show cur + (ci.units P - P.unit) + P.unit = cur + ci.units P by omega]
      exact h1

theorem Final.leading (h : Final P key b c T M) (hw : Regions b.elems) (hdep : ∀ t, .tryBegin t ∈ b.elems → t.depth.isSome = true)
    {t : TryB} (ht : leadingEmpty b.elems = some t) :
    ∀ o ∈ programC P key c, o.handler = handlerB (fun l => labelPos P l 0 b.elems) t := by
  intro o ho
  unfold programC at ho
  rw [h.elems, opsC_opsI _ (code_loc M)] at ho
  obtain ⟨k, off, hk, ho⟩ := opsI_handler _ code_size _ o ho
  rw [ho]
  have hw' : WellTried none [] true (M.map (·.e)) := by rw [h.lay.elems]; exact hw
  have hbl := (blocks_regs (P := P) M 0 [] true [] (by simp)).1 hw'
  obtain ⟨⟨r, hr⟩, hmem⟩ := regs_leading (P := P) M 0 t (by rw [h.lay.elems]; exact ht)
  have htab := h.table
  rw [hbl, List.nil_append, hr, List.mapM_cons] at htab
  obtain ⟨e, he, htab⟩ := except_bind_ok htab
  obtain ⟨es, _, htab⟩ := except_bind_ok htab
  simp only [pure, Except.pure, Except.ok.injEq] at htab
  unfold resolveEntry at he
  obtain ⟨s, hs, he⟩ := except_bind_ok he
  obtain ⟨p, hp, he⟩ := except_bind_ok he
  obtain ⟨ti, hti, he⟩ := except_bind_ok he
  obtain ⟨htl, k', hk1, hk2⟩ := h.label hti
  rw [labelOffsets_get P _ code_size, if_pos (by omega)] at he
  simp only [pure, Except.pure, Except.ok.injEq, Nat.zero_add] at he
  have hlen : k < (instrOffsets P 0 (code P M)).length := (List.getElem?_eq_some_iff.1 hk).1
  have hs' := pyGet_ok hs (by simp)
  simp only [Int.toNat_natCast] at hs'
  have hp' : (instrOffsets P 0 (code P M))[(instrOffsets P 0 (code P M)).length - 1]? = some p := by
    unfold pyGet at hp
    simp only at hp
    rw [if_pos (by omega : ((0 : Nat) : Int) - 1 < 0), if_neg (by omega)] at hp
    split at hp
    · rename_i x hx
      simp only [Except.ok.injEq] at hp
      subst hp
      rw [← hx]
      congr 1
      omega
    · simp at hp
  have m1 := (offset_mono code_size hs' hk).2 (by omega)
  have m2 := (offset_mono code_size hk hp').2 (by omega)
  unfold handlerAt
  rw [← htab, List.find?_cons_of_pos (by rw [← he]; simp; omega)]
  simp only
  rw [← he]
  simp only
  rw [hk2]
  obtain ⟨dp, hdp⟩ := Option.isSome_iff_exists.1 (hdep t (by rw [← h.lay.elems]; exact hmem))
  simp only [handlerB, hk1, hdp]
  simp

/-- **C16 (exact).** The handlers are those of the regions, unless the first region ends before the first instruction:
then the handler of this empty region protects the whole code. -/
theorem C16_exact {passes : Nat} (hP : P.WF) (hcache : ∀ e ∈ b.elems, e.isCache = false)
    (hv : ∀ i, .instr i ∈ b.elems → ValidInstr P i) (h : toConcrete P key passes b = .ok c) (hw : Regions b.elems) :
    (programC P key c).map (fun o => o.handler) =
      match leadingEmpty b.elems with
      | none => (programB P key b).map (fun o => o.handler)
      | some t => (programB P key b).map (fun _ => handlerB (fun l => labelPos P l 0 b.elems) t) := by
  obtain ⟨T, M, hF⟩ := toConcrete_Final hP hcache hv h
  cases ht : leadingEmpty b.elems with
  | none => exact hF.view_handler (wellTried_strict _ _ hw ht) (toConcrete_depths h)
  | some t =>
    simp only
    have h1 := hF.leading hw (toConcrete_depths h) ht
    have h2 : (programC P key c).length = (programB P key b).length := by
      have := congrArg List.length hF.view_loc
      simpa using this
    rw [List.map_const', ← h2]
    exact List.eq_replicate_iff.2 ⟨by simp, by
      intro x hx
      obtain ⟨o, ho, rfl⟩ := List.mem_map.1 hx
      exact h1 o ho⟩

/-- **C16 (count, any regions).** -/
theorem C16_count {passes : Nat} (hP : P.WF) (hcache : ∀ e ∈ b.elems, e.isCache = false)
    (hv : ∀ i, .instr i ∈ b.elems → ValidInstr P i) (h : toConcrete P key passes b = .ok c) (hw : Regions b.elems) :
    c.excTable.length = b.elems.countP (fun e => match e with | .tryBegin _ => true | _ => false) := by
  obtain ⟨T, M, hF⟩ := toConcrete_Final hP hcache hv h
  rw [mapM_length _ _ _ hF.table]
  have hw' : WellTried none [] true b.elems := hw
  rw [← hF.lay.elems] at hw'
  rw [(blocks_regs M 0 [] true [] (by simp)).1 hw', List.nil_append, regs_length M 0 none [] true hw', hF.lay.elems]
  rfl
end

/-! ### Examples -/

/-- A leading empty region, then a non-empty one. -/
def leadEx : Bytecode := ⟨Attrs.default, [], [.setLineno 3, .tryBegin ⟨0, 1, true, some 2⟩, .label 5, .tryEnd 0,
  .tryBegin ⟨1, 1, false, some 0⟩, ins Py311.platform "NOP", .tryEnd 1, .label 1, ins Py311.platform "LOAD_CONST" (.int 0), ins Py311.platform "RETURN_VALUE"]⟩

example : Regions leadEx.elems ∧ leadingEmpty leadEx.elems = some ⟨0, 1, true, some 2⟩ ∧ ∃ c, toConcrete Py311.platform (id : Arg → Arg) 10 leadEx = .ok c ∧
    (programC Py311.platform (id : Arg → Arg) c).map (fun o => o.handler) = [some ⟨1, true, 2⟩, some ⟨1, true, 2⟩, some ⟨1, true, 2⟩] := by
  refine ⟨by decide +kernel, by decide +kernel, ?_⟩
  have hok : (toConcrete Py311.platform (id : Arg → Arg) 10 leadEx).isOk = true := by decide +kernel
  cases h : toConcrete Py311.platform (id : Arg → Arg) 10 leadEx with
  | error e => rw [h] at hok; simp [Except.isOk, Except.toBool] at hok
  | ok c =>
    refine ⟨c, rfl, ?_⟩
    rw [C16_exact Py311.wf (noCache_spec (by decide +kernel)) (made_valid Py311.wf (by decide +kernel)) h (by decide +kernel)]
    decide +kernel

end Verif
