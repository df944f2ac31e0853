import Verif.Spec.Code
import Verif.Model.Code
import Verif.Proofs.Encode
/-
The location table of a code object, written again with the locations it keeps.
-/
namespace Verif
open Spec

theorem packLocation_kept {size lineno : Int} {l : Loc} {p : Bytes} (h : packLocation size lineno (some l) = .ok p) :
    packLocation size lineno (some (keptLoc l)) = .ok p := by
  obtain ⟨ln, el, col, ec⟩ := l
  cases ln with
  | none => exact h
  | some n =>
    cases col with
    | some c => exact h
    | none =>
      unfold packLocation at h
      simp only at h
      unfold packLocation
      simp only [keptLoc]
      cases el with
      | none => simpa using h
      | some e =>
        by_cases hn : (e : Int) = n
        · simpa [hn] using h
        · simp [hn, throw, throwThe, MonadExceptOf.throw, bind, Except.bind] at h

theorem newRef_kept (r : Int) (l : Loc) : newRef r (keptLoc l) = newRef r l := by
  obtain ⟨ln, el, col, ec⟩ := l
  cases ln <;> rfl

theorem pushLoop_kept (l : Loc) (fuel : Nat) : ∀ {size r : Int} {x : Bytes × Int}, pushLocationsLoop fuel size r l = .ok x →
    pushLocationsLoop fuel size r (keptLoc l) = .ok x := by
  induction fuel with
  | zero => intro _ _ _ h; cases h
  | succ fuel ih =>
    intro size r x h
    unfold pushLocationsLoop at h ⊢
    obtain ⟨p, hp, h⟩ := except_bind_ok h
    simp only [packLocation_kept hp, bind, Except.bind]
    rw [newRef_kept]
    simp only at h ⊢
    split
    · rename_i hs; rw [if_pos hs] at h; exact h
    · rename_i hs
      rw [if_neg hs] at h
      obtain ⟨q, hq, h⟩ := except_bind_ok h
      rw [ih hq]
      exact h

theorem push_kept {size : Nat} {r : Int} {l : Loc} {x : Bytes × Int} (h : pushLocations size r l = .ok x) : pushLocations size r (keptLoc l) = .ok x :=
  pushLoop_kept l _ h

theorem keptLoc_line (l : Loc) : (keptLoc l).lineno = l.lineno := by
  obtain ⟨ln, el, col, ec⟩ := l
  cases ln <;> rfl

/-- The locations of a list are told apart by what the code object keeps of them. -/
def Apart (ls : List Loc) : Prop := ∀ l ∈ ls, ∀ l' ∈ ls, l.lineno ≠ none → keptLoc l = keptLoc l' → l = l'

theorem assembleLoop_kept (infos : List LineInfo) : ∀ (infos' : List LineInfo) (ls : List Loc) (size : Nat) (r : Int) (old : Loc) (bs : Bytes),
    infos.map (·.loc) = ls.map some → infos'.map (·.loc) = (ls.map keptLoc).map some → infos'.map (·.size) = infos.map (·.size) → Apart (old :: ls) →
    assembleLocationsLoop size r old infos = .ok bs → assembleLocationsLoop size r (keptLoc old) infos' = .ok bs := by
  induction infos with
  | nil =>
    intro infos' ls size r old bs h1 h2 h3 ha h
    cases infos' with
    | cons _ _ => simp at h3
    | nil =>
      unfold assembleLocationsLoop at h ⊢
      obtain ⟨p, hp, h⟩ := except_bind_ok h
      rw [push_kept hp]
      exact h
  | cons i infos ih =>
    intro infos' ls size r old bs h1 h2 h3 ha h
    cases ls with
    | nil => simp at h1
    | cons l ls =>
      cases infos' with
      | nil => simp at h3
      | cons i' infos' =>
        simp only [List.map_cons, List.cons.injEq] at h1 h2 h3
        unfold assembleLocationsLoop at h ⊢
        rw [h1.1] at h
        rw [h2.1, h3.1]
        simp only [Option.getD_some] at h ⊢
        have hiff : ((keptLoc old).lineno.isSome ∧ keptLoc old = keptLoc l) ↔ (old.lineno.isSome ∧ old = l) := by
          rw [keptLoc_line]
          constructor
          · rintro ⟨a1, a2⟩
            exact ⟨a1, ha old (by simp) l (by simp) (by intro hx; rw [hx] at a1; cases a1) a2⟩
          · rintro ⟨a1, rfl⟩; exact ⟨a1, rfl⟩
        by_cases hm : old.lineno.isSome ∧ old = l
        · rw [if_pos hm] at h
          rw [if_pos (hiff.2 hm)]
          exact ih infos' ls _ _ _ _ h1.2 h2.2 h3.2 (fun x hx y hy => ha x (by simp at hx ⊢; grind) y (by simp at hy ⊢; grind)) h
        · rw [if_neg hm] at h
          rw [if_neg (fun hx => hm (hiff.1 hx))]
          obtain ⟨p, hp, h⟩ := except_bind_ok h
          obtain ⟨q, hq, h⟩ := except_bind_ok h
          rw [push_kept hp]
          show (assembleLocationsLoop i.size p.2 (keptLoc l) infos' >>= fun q => pure (p.1 ++ q)) = _
          rw [ih infos' ls _ _ _ _ h1.2 h2.2 h3.2 (fun x hx y hy => ha x (by simp at hx ⊢; grind) y (by simp at hy ⊢; grind)) hq]
          exact h

theorem assembleLocations_kept {infos infos' : List LineInfo} {ls : List Loc} {first : Nat} {bs : Bytes}
    (h1 : infos.map (·.loc) = ls.map some) (h2 : infos'.map (·.loc) = (ls.map keptLoc).map some) (h3 : infos'.map (·.size) = infos.map (·.size))
    (ha : Apart ls) (h : assembleLocations first infos = .ok bs) : assembleLocations first infos' = .ok bs := by
  cases infos with
  | nil =>
    cases infos' with
    | nil => exact h
    | cons _ _ => simp at h3
  | cons i infos =>
    cases infos' with
    | nil => simp at h3
    | cons i' infos' =>
      cases ls with
      | nil => simp at h1
      | cons l ls =>
        simp only [List.map_cons, List.cons.injEq] at h1 h2 h3
        simp only [assembleLocations, h1.1, Option.getD_some] at h
        simp only [assembleLocations, h2.1, h3.1, Option.getD_some]
        exact assembleLoop_kept infos infos' ls _ _ _ _ h1.2 h2.2 h3.2 ha h
end Verif
