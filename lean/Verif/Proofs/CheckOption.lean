import Verif.Spec.CFG
import Verif.Proofs.StackSize
/-
The stack analysis with two descriptions of the effects that have the same sums.
-/
namespace Verif
open Spec

/-- Same result, or the first (or, unless `s`, the second) noticed an underflow. -/
def Agree {α : Type} (s : Bool) (x x' : Py α) : Prop :=
  x = x' ∨ x = .error .runtimeError ∨ (s = false ∧ x' = .error .runtimeError)

theorem Agree.refl {α : Type} {s : Bool} (x : Py α) : Agree s x x := .inl rfl

theorem Agree.bind {α β : Type} {s : Bool} {x x' : Py α} {f f' : α → Py β} (hx : Agree s x x') (hf : ∀ a, Agree s (f a) (f' a)) :
    Agree s (x >>= f) (x' >>= f') := by
  rcases hx with rfl | rfl | ⟨hs, rfl⟩
  · cases x with
    | ok a => exact hf a
    | error e => exact .inl rfl
  · exact .inr (.inl rfl)
  · exact .inr (.inr ⟨hs, rfl⟩)

/-- The effects have the same sum; if `s`, the first takes at least as much before it gives back. -/
def SameSum (s : Bool) (x x' : Py (Int × Int)) : Prop :=
  (∃ a b a' b', x = .ok (a, b) ∧ x' = .ok (a', b') ∧ a + b = a' + b' ∧ (s = true → a ≤ a')) ∨ ∃ e, x = .error e ∧ x' = .error e

def AgreeRec (s : Bool) (rec rec' : Visit) : Prop :=
  ∀ X z mx mn h p st, Agree s (rec X z mx mn h p st) (rec' X z mx mn h p st)

theorem effect_agree {s : Bool} {x x' : Py (Int × Int)} (h : SameSum s x x') (z : SizeLoc) {β : Type} {f f' : SizeLoc → Py β}
    (hf : ∀ a, Agree s (f a) (f' a)) :
    Agree s (x >>= fun e => z.update e >>= f) (x' >>= fun e => z.update e >>= f') := by
  rcases h with ⟨a, b, a', b', rfl, rfl, h1, h2⟩ | ⟨e, rfl, rfl⟩
  · show Agree s (z.update (a, b) >>= f) (z.update (a', b') >>= f')
    refine Agree.bind ?_ hf
    unfold SizeLoc.update
    simp only
    by_cases g1 : z.size + a < 0
    · rw [if_pos g1]; exact .inr (.inl rfl)
    · by_cases g2 : z.size + a' < 0
      · rw [if_pos g2]
        cases s with
        | false => exact .inr (.inr ⟨rfl, rfl⟩)
        | true => have := h2 rfl; omega
      · rw [if_neg g1, if_neg g2]
        have : z.size + a + b = z.size + a' + b' := by omega
        rw [this]
        exact .inl rfl
  · exact .inl rfl

variable {P : Platform} {eff eff' : Instr → Bool → Py (Int × Int)} {c : CFG} {s : Bool}

theorem handlerUsage_agree {rec rec' : Visit} (hrec : AgreeRec s rec rec') (z : SizeLoc) (t : Nat) (l : Bool) (st : SizeSt) :
    Agree s (handlerUsage ⟨P, eff, c⟩ rec z t l st) (handlerUsage ⟨P, eff', c⟩ rec' z t l st) := by
  unfold handlerUsage
  split
  · split
    · refine Agree.bind (hrec _ _ _ _ _ _ st) ?_
      rintro ⟨m, st'⟩
      exact .refl _
    · exact .refl _
  · exact .refl _

theorem finalTryEnd_agree {rec rec' : Visit} (hrec : AgreeRec s rec rec') (z : SizeLoc) (r : List BElem) (st : SizeSt) :
    Agree s (finalTryEnd ⟨P, eff, c⟩ rec z r st) (finalTryEnd ⟨P, eff', c⟩ rec' z r st) := by
  unfold finalTryEnd
  split
  · exact .refl _
  · simp only
    split
    · exact handlerUsage_agree hrec _ _ _ _
    · exact .refl _

theorem uncondTryEnd_agree {rec rec' : Visit} (hrec : AgreeRec s rec rec') (z : SizeLoc) (r : List BElem) (st : SizeSt) :
    Agree s (uncondTryEnd ⟨P, eff, c⟩ rec z r st) (uncondTryEnd ⟨P, eff', c⟩ rec' z r st) := by
  unfold uncondTryEnd
  split
  · split
    · exact handlerUsage_agree hrec _ _ _ _
    · exact .refl _
  · exact .refl _

theorem runElems_agree {rec rec' : Visit} (hrec : AgreeRec s rec rec') {b : Nat} :
    ∀ (es : List BElem) (z : SizeLoc) (st : SizeSt), (∀ i, BElem.instr i ∈ es → ∀ j, SameSum s (eff i j) (eff' i j)) →
    Agree s (runElems ⟨P, eff, c⟩ rec b es z st) (runElems ⟨P, eff', c⟩ rec' b es z st) := by
  intro es
  induction es with
  | nil =>
    intro z st _
    unfold runElems runEnd
    simp only
    split
    · exact .refl _
    · split
      · exact .refl _
      · refine Agree.bind (hrec _ _ _ _ _ _ st) ?_
        rintro ⟨m, st'⟩
        exact .refl _
  | cons x r ih =>
    intro z st hs
    have ihr := fun z st => ih z st (fun i hi => hs i (by simp [hi]))
    have hfall : ∀ (i : Instr) (z1 : SizeLoc) (st1 : SizeSt), x = .instr i →
        Agree s (do
            let e ← eff i false
            let s ← z1.update e
            if isFinal i.name then do
              let st ← finalTryEnd ⟨P, eff, c⟩ rec s r st1
              leaveBlock b s st
            else runElems ⟨P, eff, c⟩ rec b r s st1) (do
            let e ← eff' i false
            let s ← z1.update e
            if isFinal i.name then do
              let st ← finalTryEnd ⟨P, eff', c⟩ rec' s r st1
              leaveBlock b s st
            else runElems ⟨P, eff', c⟩ rec' b r s st1) := by
      intro i z1 st1 hx
      refine effect_agree (hs i (by simp [hx]) false) z1 ?_
      intro z2
      split
      · refine Agree.bind (finalTryEnd_agree hrec z2 r st1) fun st2 => ?_
        exact .refl _
      · exact ihr z2 st1
    unfold runElems
    refine Agree.bind (.refl _) fun _ => ?_
    cases x with
    | label l => exact .refl _
    | setLineno n => exact ihr z st
    | tryBegin t =>
      refine Agree.bind (.refl _) fun _ => ?_
      exact ihr _ _
    | tryEnd id =>
      simp only
      split
      · exact ihr z st
      · split
        · refine Agree.bind (handlerUsage_agree hrec _ _ _ st) fun st1 => ?_
          exact ihr _ st1
        · exact ihr z st
    | instr i =>
      simp only
      split
      · have hjt : Agree s (jumpTaken ⟨P, eff, c⟩ rec i r z st) (jumpTaken ⟨P, eff', c⟩ rec' i r z st) := by
          unfold jumpTaken
          refine effect_agree (hs i (by simp) true) z ?_
          intro z1
          split
          · exact .refl _
          · refine Agree.bind (hrec _ _ _ _ _ _ st) ?_
            rintro ⟨m, st'⟩
            exact .refl _
        refine Agree.bind hjt ?_
        rintro ⟨z1, st1⟩
        simp only
        split
        · refine Agree.bind (uncondTryEnd_agree hrec z1 r st1) fun st2 => ?_
          exact .refl _
        · exact hfall i z1 st1 rfl
      · exact hfall i z st rfl

theorem visit_agree (hs : ∀ i, BElem.instr i ∈ allCode c → ∀ j, SameSum s (eff i j) (eff' i j)) : ∀ fuel : Nat,
    AgreeRec s (visit ⟨P, eff, c⟩ fuel) (visit ⟨P, eff', c⟩ fuel) := by
  intro fuel
  induction fuel with
  | zero => intro X z mx mn h p st; exact .refl _
  | succ fuel ih =>
    intro X z mx mn h p st
    unfold visit
    simp only
    split
    · exact .refl _
    · split
      · exact .refl _
      · rename_i hb
        split
        · exact .refl _
        · refine Agree.bind (.refl _) fun z1 => ?_
          refine runElems_agree ih _ _ _ ?_
          intro i hi
          exact hs i (List.mem_flatMap.2 ⟨X, Classical.not_not.1 hb, hi⟩)

theorem deadTries_eff (st : SizeSt) : ∀ l, deadTries ⟨P, eff', c⟩ st l = deadTries ⟨P, eff, c⟩ st l := by
  intro l
  induction l with
  | nil => rfl
  | cons b r ih =>
    unfold deadTries
    simp only [ih]

theorem assignDepths_eff (st : SizeSt) : ∀ (l : List TryB) (g : CFG), assignDepths ⟨P, eff', c⟩ st g l = assignDepths ⟨P, eff, c⟩ st g l := by
  intro l
  induction l with
  | nil => intro g; rfl
  | cons b r ih =>
    intro g
    unfold assignDepths
    simp only [ih]

theorem computeStacksize_agree (hs : ∀ i, BElem.instr i ∈ allCode c → ∀ j, SameSum s (eff i j) (eff' i j)) (depths : Bool) :
    Agree s (c.computeStacksize P eff depths) (c.computeStacksize P eff' depths) := by
  unfold CFG.computeStacksize
  split
  · exact .refl _
  · refine Agree.bind (visit_agree hs _ _ _ _ _ _ _ _) ?_
    rintro ⟨m, st⟩
    simp only [deadTries_eff (eff := eff) (eff' := eff'), assignDepths_eff (eff := eff) (eff' := eff')]
    exact .refl _

end Verif
