import Verif.Proofs.StackSize
import Mathlib.Data.List.Perm.Subperm
/-
Termination of the stack size analysis: the nesting is bounded by the number of blocks.
-/
namespace Verif
open Spec

/-- Not out of fuel, and a property of the result. -/
def FGood {α : Type} (Q : α → Prop) : Py α → Prop
  | .ok a => Q a
  | .error e => e ≠ .outOfFuel

theorem FGood.bind {α β : Type} {Q : α → Prop} {Q' : β → Prop} {x : Py α} {f : α → Py β} (hx : FGood Q x)
    (hf : ∀ a, Q a → FGood Q' (f a)) : FGood Q' (x >>= f) := by
  cases x with
  | ok a => exact hf a hx
  | error e => exact hx

def FuelOK (rec : Visit) (S : List Nat) : Prop :=
  ∀ X s mx mn h p st, st.seen = S → FGood (fun r => r.2.seen = S) (rec X s mx mn h p st)

theorem update_fgood (s : SizeLoc) (e : Int × Int) : FGood (fun _ => True) (s.update e) := by
  unfold SizeLoc.update
  split
  · intro h; cases h
  · trivial

theorem handlerUsage_fgood {env : SizeEnv} {rec : Visit} {S : List Nat} (hrec : FuelOK rec S) (s : SizeLoc) (t : Nat) (l : Bool)
    (st : SizeSt) (hs : st.seen = S) : FGood (fun st' => st'.seen = S) (handlerUsage env rec s t l st) := by
  unfold handlerUsage
  split
  · split
    · refine FGood.bind (hrec _ _ _ _ _ _ st hs) ?_
      rintro ⟨m, st'⟩ h
      exact h
    · exact hs
  · intro h; cases h

theorem leaveBlock_fgood {b : Nat} {S : List Nat} {s : SizeLoc} {st : SizeSt} (hs : st.seen = b :: S) :
    FGood (fun r => r.2.seen = S) (leaveBlock b s st) := by
  simp [leaveBlock, FGood, hs]

theorem finalTryEnd_fgood {env : SizeEnv} {rec : Visit} {S : List Nat} (hrec : FuelOK rec S) (s : SizeLoc) (r : List BElem)
    (st : SizeSt) (hs : st.seen = S) : FGood (fun st' => st'.seen = S) (finalTryEnd env rec s r st) := by
  unfold finalTryEnd
  split
  · exact hs
  · split
    · exact handlerUsage_fgood hrec _ _ _ st hs
    · intro h; cases h

theorem uncondTryEnd_fgood {env : SizeEnv} {rec : Visit} {S : List Nat} (hrec : FuelOK rec S) (s : SizeLoc) (r : List BElem)
    (st : SizeSt) (hs : st.seen = S) : FGood (fun st' => st'.seen = S) (uncondTryEnd env rec s r st) := by
  unfold uncondTryEnd
  split
  · split
    · exact handlerUsage_fgood hrec _ _ _ st hs
    · exact hs
  · exact hs

theorem runElems_fgood {env : SizeEnv} (heff : ∀ i j, env.eff i j ≠ .error .outOfFuel) {rec : Visit} {b : Nat} {S : List Nat}
    (hrec : FuelOK rec (b :: S)) : ∀ (es : List BElem) (s : SizeLoc) (st : SizeSt), st.seen = b :: S →
    FGood (fun r => r.2.seen = S) (runElems env rec b es s st) := by
  have heff' : ∀ i j, FGood (fun _ => True) (env.eff i j) := by
    intro i j
    cases h : env.eff i j with
    | ok e => trivial
    | error e => intro he; subst he; exact heff i j h
  intro es
  induction es with
  | nil =>
    intro s st hs
    unfold runElems runEnd
    split
    · exact leaveBlock_fgood hs
    · split
      · exact leaveBlock_fgood hs
      · refine FGood.bind (hrec _ _ _ _ _ _ st hs) ?_
        rintro ⟨m, st'⟩ h
        exact leaveBlock_fgood h
  | cons x r ih =>
    intro s st hs
    have hfall : ∀ (i : Instr) (s1 : SizeLoc) (st1 : SizeSt), st1.seen = b :: S →
        FGood (fun r => r.2.seen = S) (do
            let e ← env.eff i false
            let s ← s1.update e
            if isFinal i.name then do
              let st ← finalTryEnd env rec s r st1
              leaveBlock b s st
            else runElems env rec b r s st1) := by
      intro i s1 st1 h1
      refine FGood.bind (heff' i false) fun e _ => ?_
      refine FGood.bind (update_fgood s1 e) fun s2 _ => ?_
      split
      · refine FGood.bind (finalTryEnd_fgood hrec s2 r st1 h1) fun st2 h2 => ?_
        exact leaveBlock_fgood h2
      · exact ih s2 st1 h1
    unfold runElems
    have hck : FGood (fun _ => True) (blkCheck env.P x r) := by
      unfold blkCheck
      repeat' split
      all_goals first | trivial | (intro h; cases h)
    refine FGood.bind hck fun _ _ => ?_
    cases x with
    | label l => intro h; cases h
    | setLineno n => exact ih s st hs
    | tryBegin t =>
      have : FGood (fun _ => True) (pyAssert s.cur.isNone) := by
        unfold pyAssert
        split
        · trivial
        · intro h; cases h
      refine FGood.bind this fun _ _ => ?_
      exact ih _ _ hs
    | tryEnd id =>
      simp only
      split
      · exact ih s st hs
      · split
        · refine FGood.bind (handlerUsage_fgood hrec _ _ _ st hs) fun st1 h1 => ?_
          exact ih _ st1 h1
        · exact ih s st hs
    | instr i =>
      simp only
      split
      · have hjt : FGood (fun p => p.2.seen = b :: S) (jumpTaken env rec i r s st) := by
          unfold jumpTaken
          refine FGood.bind (heff' i true) fun e _ => ?_
          refine FGood.bind (update_fgood s e) fun s1 _ => ?_
          split
          · intro h; cases h
          · refine FGood.bind (hrec _ _ _ _ _ _ st hs) ?_
            rintro ⟨m, st'⟩ h
            exact h
        refine FGood.bind hjt ?_
        rintro ⟨s1, st1⟩ h1
        simp only
        split
        · refine FGood.bind (uncondTryEnd_fgood hrec s1 r st1 h1) fun st2 h2 => ?_
          exact leaveBlock_fgood h2
        · exact hfall i s1 st1 h1
      · exact hfall i s st hs

theorem enterHandler_fgood (h : Option Bool) (s : SizeLoc) : FGood (fun _ => True) (enterHandler h s) := by
  unfold enterHandler
  split
  · trivial
  · exact update_fgood _ _

theorem visit_fgood {env : SizeEnv} (heff : ∀ i j, env.eff i j ≠ .error .outOfFuel) : ∀ (fuel : Nat) (S : List Nat),
    S.Nodup → (∀ b ∈ S, b ∈ env.c.blocks) → env.c.blocks.length < fuel + S.length → FuelOK (visit env fuel) S := by
  intro fuel
  induction fuel with
  | zero =>
    intro S hn hsub hlt
    have := (List.Nodup.subperm hn hsub).length_le
    omega
  | succ fuel ih =>
    intro S hn hsub hlt X s mx mn h p st hs
    unfold visit
    subst hs
    by_cases h1 : X ∈ st.seen
    · rw [if_pos h1]; rfl
    · rw [if_neg h1]
      by_cases h2 : X ∉ env.c.blocks
      · rw [if_pos h2]; intro h; cases h
      · rw [if_neg h2]
        split
        · rfl
        · refine FGood.bind (enterHandler_fgood _ _) fun s1 _ => ?_
          refine runElems_fgood heff (ih (X :: st.seen) (List.nodup_cons.2 ⟨h1, hn⟩) ?_ ?_) _ _ _ rfl
          · intro b hb
            rcases List.mem_cons.1 hb with hb | hb
            · subst hb; exact Classical.not_not.1 h2
            · exact hsub b hb
          · simp only [List.length_cons]; omega

end Verif
