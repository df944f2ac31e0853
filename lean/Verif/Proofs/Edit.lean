import Verif.Spec.Edit
/-
The program of an edited list.
-/
namespace Verif
open Spec
section
variable {κ : Type} {P : Platform} {key : Arg → κ}

theorem opNumber_nil : opNumber P [] = 0 := rfl

theorem opNumber_cons (e : BElem) (es : List BElem) :
    opNumber P (e :: es) = (match e with | .instr i => opCount P i.name i.opcode | _ => 0) + opNumber P es := by
  cases e <;> simp [opNumber]

theorem opNumber_append (a b : List BElem) : opNumber P (a ++ b) = opNumber P a + opNumber P b := by simp [opNumber]

theorem labelPos_shift (l d : Nat) (es : List BElem) : ∀ n, labelPos P l (n + d) es = (labelPos P l n es).map (· + d) := by
  induction es with
  | nil => intro n; rfl
  | cons e es ih =>
    intro n
    cases e with
    | label x =>
      simp only [labelPos, ih]
      cases labelPos P l n es with
      | some y => rfl
      | none => simp only [Option.map_none]; split <;> rfl
    | instr i => simp only [labelPos]; rw [← ih, Nat.add_right_comm]
    | _ => simp only [labelPos, ih]

theorem labelPos_append (l : Nat) (a b : List BElem) : ∀ n, labelPos P l n (a ++ b) =
    ((labelPos P l (n + opNumber P a) b).or (labelPos P l n a)) := by
  induction a with
  | nil => intro n; simp [labelPos, opNumber]
  | cons e a ih =>
    intro n
    cases e with
    | label x =>
      simp only [List.cons_append, labelPos, ih, opNumber_cons, Nat.zero_add]
      cases labelPos P l (n + opNumber P a) b <;> simp
    | instr i => simp only [List.cons_append, labelPos, ih, opNumber_cons, Nat.add_assoc]
    | _ => simp only [List.cons_append, labelPos, ih, opNumber_cons, Nat.zero_add]

theorem labelPos_le (l : Nat) (a : List BElem) : ∀ n x, labelPos P l n a = some x → ∃ p q, a = p ++ .label l :: q ∧ x = n + opNumber P p ∧ labelPos P l 0 q = none := by
  induction a with
  | nil => intro n x h; cases h
  | cons e a ih =>
    intro n x h
    cases e with
    | label y =>
      simp only [labelPos] at h
      cases hx : labelPos P l n a with
      | some z =>
        rw [hx] at h
        cases h
        obtain ⟨p, q, h1, h2, h3⟩ := ih n _ hx
        exact ⟨.label y :: p, q, by rw [h1]; rfl, by rw [opNumber_cons, h2]; simp, h3⟩
      | none =>
        rw [hx] at h
        simp only at h
        split at h
        · rename_i hy
          cases h
          subst hy
          refine ⟨[], a, rfl, by simp [opNumber_nil], ?_⟩
          have := labelPos_shift (P := P) y n a 0
          rw [Nat.zero_add, hx] at this
          cases hz : labelPos P y 0 a with
          | none => rfl
          | some w => rw [hz] at this; cases this
        · cases h
    | instr i =>
      simp only [labelPos] at h
      obtain ⟨p, q, h1, h2, h3⟩ := ih _ _ h
      exact ⟨.instr i :: p, q, by rw [h1]; rfl, by rw [opNumber_cons, h2]; simp [Nat.add_assoc], h3⟩
    | setLineno y =>
      simp only [labelPos] at h
      obtain ⟨p, q, h1, h2, h3⟩ := ih _ _ h
      exact ⟨_ :: p, q, by rw [h1]; rfl, by rw [opNumber_cons, h2]; simp, h3⟩
    | tryBegin y =>
      simp only [labelPos] at h
      obtain ⟨p, q, h1, h2, h3⟩ := ih _ _ h
      exact ⟨_ :: p, q, by rw [h1]; rfl, by rw [opNumber_cons, h2]; simp, h3⟩
    | tryEnd y =>
      simp only [labelPos] at h
      obtain ⟨p, q, h1, h2, h3⟩ := ih _ _ h
      exact ⟨_ :: p, q, by rw [h1]; rfl, by rw [opNumber_cons, h2]; simp, h3⟩

theorem labelPos_instrs {l : Nat} {mid : List BElem} (h : Instrs mid) (n : Nat) : labelPos P l n mid = none := by
  cases hx : labelPos P l n mid with
  | none => rfl
  | some x =>
    obtain ⟨p, q, h1, _⟩ := labelPos_le l mid n x hx
    obtain ⟨i, hi⟩ := h (.label l) (by rw [h1]; simp)
    cases hi

/-- Labels move as announced. -/
theorem labelPos_edit {pre mid mid' post : List BElem} {keep : Bool} (hm : Instrs mid) (hm' : Instrs mid') (hc : Clear P pre mid post keep) (l : Nat) :
    labelPos P l 0 (pre ++ mid' ++ post) = (labelPos P l 0 (pre ++ mid ++ post)).map (moved (opNumber P pre) (opNumber P mid) (opNumber P mid') keep) := by
  simp only [labelPos_append, labelPos_instrs hm, labelPos_instrs hm', opNumber_append, Nat.zero_add, Option.none_or]
  have e1 := labelPos_shift (P := P) l (opNumber P pre + opNumber P mid') post 0
  have e2 := labelPos_shift (P := P) l (opNumber P pre + opNumber P mid) post 0
  rw [Nat.zero_add] at e1 e2
  rw [e1, e2]
  cases hx : labelPos P l 0 post with
  | some x =>
    simp only [Option.map_some, Option.some_or, Option.some.injEq, moved]
    obtain ⟨p, q, h1, h2, _⟩ := labelPos_le l post 0 x hx
    rw [if_neg]
    · omega
    · rintro (h | ⟨h, hk⟩)
      · omega
      · rw [hk] at hc
        simp only [Clear, if_true] at hc
        rcases hc with hc | hc
        · omega
        · have := hc l p q h1; omega
  | none =>
    simp only [Option.map_none, Option.none_or]
    cases hy : labelPos P l 0 pre with
    | none => rfl
    | some y =>
      obtain ⟨p, q, h1, h2, _⟩ := labelPos_le l pre 0 y hy
      have hn : opNumber P pre = opNumber P p + opNumber P q := by rw [h1, opNumber_append, opNumber_cons]; simp
      simp only [Option.map_some, Option.some.injEq, moved]
      cases keep with
      | true => rw [if_pos (by simp; omega)]
      | false =>
        simp only [Clear, Bool.false_eq_true, if_false] at hc
        have := hc l p q h1
        rw [if_pos (.inl (by omega))]

theorem operandB_retarget (tgt : Nat → Option Nat) (ψ : Nat → Nat) (op : Nat) (arg : Arg) :
    operandB P key (fun l => (tgt l).map ψ) op arg = (operandB P key tgt op arg).retarget ψ := by
  unfold operandB
  by_cases hj : P.hasJump op = true
  · rw [if_pos hj, if_pos hj]
    cases arg <;> first | rfl | skip
    rename_i l
    simp only
    cases tgt l <;> rfl
  · rw [if_neg hj, if_neg hj]
    repeat' split
    all_goals first | rfl | (rename_i h; simp at h; done) | skip
    all_goals grind

theorem expandB_retarget (tgt : Nat → Option Nat) (ψ : Nat → Nat) (i : Instr) : expandB P key (fun l => (tgt l).map ψ) i =
    (expandB P key tgt i).map (fun p => (p.1, p.2.retarget ψ)) := by
  unfold expandB
  split
  · rfl
  · split
    · split
      · simp only [List.map_cons, List.map_nil]
        rename_i x y _
        cases x <;> cases y <;> rfl
      · rfl
    · simp only [List.map_cons, List.map_nil, operandB_retarget]

theorem opsB_retarget (tgt : Nat → Option Nat) (ψ : Nat → Nat) (es : List BElem) : ∀ loc tr, opsB P key (fun l => (tgt l).map ψ) loc tr es =
    (opsB P key tgt loc tr es).map (Op.retarget ψ) := by
  induction es with
  | nil => intro loc tr; rfl
  | cons e es ih =>
    intro loc tr
    cases e with
    | instr i =>
      simp only [opsB, List.map_append, List.map_map, ih]
      congr 1
      rw [expandB_retarget, List.map_map]
      apply List.map_congr_left
      intro p _
      simp only [Function.comp, Op.retarget, Op.mk.injEq, true_and]
      cases tr with
      | none => rfl
      | some t =>
        simp only [Option.bind_some, handlerB]
        cases tgt t.target <;> cases t.depth <;> rfl
    | _ => simp only [opsB, ih]

theorem opsB_append (tgt : Nat → Option Nat) (a b : List BElem) : ∀ loc tr, opsB P key tgt loc tr (a ++ b) =
    opsB P key tgt loc tr a ++ opsB P key tgt (locAfter loc a) (tryAfter tr a) b := by
  induction a with
  | nil => intro loc tr; rfl
  | cons e a ih =>
    intro loc tr
    cases e <;> simp [opsB, locAfter, tryAfter, ih]

theorem tryAfter_append (a b : List BElem) : ∀ tr, tryAfter tr (a ++ b) = tryAfter (tryAfter tr a) b := by
  induction a with
  | nil => intro tr; rfl
  | cons e a ih => intro tr; cases e <;> exact ih _

theorem locAfter_append (a b : List BElem) : ∀ loc, locAfter loc (a ++ b) = locAfter (locAfter loc a) b := by
  induction a with
  | nil => intro tr; rfl
  | cons e a ih => intro tr; cases e <;> exact ih _

theorem tryAfter_instrs {mid : List BElem} (h : Instrs mid) : ∀ tr, tryAfter tr mid = tr := by
  induction mid with
  | nil => intro tr; rfl
  | cons e mid ih =>
    intro tr
    obtain ⟨i, rfl⟩ := h e (by simp)
    exact ih (fun e he => h e (by simp [he])) tr

theorem opsB_length (tgt : Nat → Option Nat) (es : List BElem) : ∀ loc tr, (opsB P key tgt loc tr es).length = opNumber P es := by
  induction es with
  | nil => intro loc tr; rfl
  | cons e es ih =>
    intro loc tr
    cases e with
    | instr i =>
      simp only [opsB, List.length_append, List.length_map, ih, opNumber_cons, Nat.add_right_cancel_iff]
      unfold expandB opCount Platform.dual
      split
      · rfl
      · cases P.dualSingles i.opcode with
        | none => rfl
        | some p => simp only; split <;> rfl
    | _ => simp only [opsB, ih, opNumber_cons, Nat.zero_add]

theorem locAfter_none {mid : List BElem} (hm : Instrs mid) (h : ∀ i, .instr i ∈ mid → i.loc = none) : ∀ loc, locAfter loc mid = loc := by
  induction mid with
  | nil => intro loc; rfl
  | cons e mid ih =>
    intro loc
    obtain ⟨i, rfl⟩ := hm e (by simp)
    simp only [locAfter, h i (by simp), Option.getD_none]
    exact ih (fun e he => hm e (by simp [he])) (fun i hi => h i (by simp [hi])) loc

theorem opsB_any_loc (tgt : Nat → Option Nat) (es : List BElem) (h : ∀ p i q, es = p ++ .instr i :: q → i.loc = none →
    ∃ e ∈ p, (∃ n, e = .setLineno n) ∨ ∃ j, e = .instr j ∧ j.loc ≠ none) : ∀ loc loc' tr, opsB P key tgt loc tr es = opsB P key tgt loc' tr es := by
  induction es with
  | nil => intro _ _ _; rfl
  | cons e es ih =>
    intro loc loc' tr
    have step : (¬ ((∃ n, e = .setLineno n) ∨ ∃ j, e = .instr j ∧ j.loc ≠ none)) → ∀ loc loc' tr, opsB P key tgt loc tr es = opsB P key tgt loc' tr es := by
      intro hne
      refine ih (fun p i q hq hi => ?_)
      obtain ⟨x, hx, hh⟩ := h (e :: p) i q (by rw [hq]; rfl) hi
      rcases List.mem_cons.1 hx with rfl | hx
      · exact absurd hh hne
      · exact ⟨x, hx, hh⟩
    cases e with
    | instr i =>
      cases hl : i.loc with
      | some l => simp only [opsB, hl, Option.getD_some]
      | none =>
        obtain ⟨x, hx, _⟩ := h [] i es rfl hl
        cases hx
    | setLineno n => rfl
    | label l => simp only [opsB]; exact step (by simp) _ _ _
    | tryBegin t => simp only [opsB]; exact step (by simp) _ _ _
    | tryEnd t => simp only [opsB]; exact step (by simp) _ _ _

end
end Verif
