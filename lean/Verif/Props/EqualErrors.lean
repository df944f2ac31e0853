import Verif.Props.Equal
import Verif.Proofs.Errors
/-
What the exceptions of `Bytecode.__eq__` say.
-/
namespace Verif
open Spec
section
variable {κ : Type} {P : Platform} {key : Arg → κ}

theorem flatLoop_err (es : List BElem) : ∀ {seen : Bool} {idx off : Nat} {lab : Nat → Option Nat} {tries : List Nat} {e : PyErr},
    flatLoop P key seen idx off lab tries es = .error e →
    (e = .runtimeError ∧ (iterAny seen (es.map some)).2 ≠ .ok ()) ∨
    (e = .keyError ∧ ∃ a id b, es = a ++ .tryEnd id :: b ∧ id ∉ tries ∧ ∀ t, .tryBegin t ∈ a → t.id ≠ id) := by
  induction es with
  | nil => intro seen idx off lab tries e h; cases h
  | cons x r ih =>
    intro seen idx off lab tries e h
    have tail : ∀ {seen' : Bool} {tries' : List Nat}, (∀ id, id ∉ tries' → id ∉ tries ∧ ∀ t, x = .tryBegin t → t.id ≠ id) →
        ((iterAny seen' (r.map some)).2 ≠ .ok () → (iterAny seen ((x :: r).map some)).2 ≠ .ok ()) →
        ((e = .runtimeError ∧ (iterAny seen' (r.map some)).2 ≠ .ok ()) ∨
          (e = .keyError ∧ ∃ a id b, r = a ++ .tryEnd id :: b ∧ id ∉ tries' ∧ ∀ t, .tryBegin t ∈ a → t.id ≠ id)) →
        (e = .runtimeError ∧ (iterAny seen ((x :: r).map some)).2 ≠ .ok ()) ∨
          (e = .keyError ∧ ∃ a id b, x :: r = a ++ .tryEnd id :: b ∧ id ∉ tries ∧ ∀ t, .tryBegin t ∈ a → t.id ≠ id) := by
      intro seen' tries' h1 h2 h3
      rcases h3 with ⟨h3, h4⟩ | ⟨h3, a, id, b, rfl, h4, h5⟩
      · exact .inl ⟨h3, h2 h4⟩
      · refine .inr ⟨h3, x :: a, id, b, rfl, (h1 id h4).1, ?_⟩
        intro t ht
        rcases List.mem_cons.1 ht with ht | ht
        · exact (h1 id h4).2 t ht.symm
        · exact h5 t ht
    cases x with
    | label l =>
      unfold flatLoop at h
      rcases except_bind_err h with h | ⟨q, _, h⟩
      · exact tail (fun id hid => ⟨hid, fun t ht => by cases ht⟩) (by simp [iterAny]) (ih h)
      · cases h
    | setLineno n =>
      unfold flatLoop at h
      rcases except_bind_err h with h | ⟨q, _, h⟩
      · exact tail (fun id hid => ⟨hid, fun t ht => by cases ht⟩) (by simp [iterAny]) (ih h)
      · cases h
    | instr i =>
      unfold flatLoop at h
      rcases except_bind_err h with h | ⟨q, _, h⟩
      · exact tail (fun id hid => ⟨hid, fun t ht => by cases ht⟩) (by simp [iterAny]) (ih h)
      · split at h <;> cases h
    | tryBegin t =>
      unfold flatLoop at h
      split at h
      · rename_i hs
        cases h
        exact .inl ⟨rfl, by simp [iterAny, hs]⟩
      · rename_i hs
        rcases except_bind_err h with h | ⟨q, _, h⟩
        · refine tail (tries' := setDefault tries t.id) (fun id hid => ?_) (by simp [iterAny, hs]) (ih h)
          unfold setDefault at hid
          split at hid
          · rename_i hm
            exact ⟨hid, fun u hu => by cases hu; rintro rfl; exact hid hm⟩
          · simp only [List.mem_append, List.mem_singleton, not_or] at hid
            exact ⟨hid.1, fun u hu => by cases hu; exact fun e => hid.2 e.symm⟩
        · cases h
    | tryEnd id =>
      unfold flatLoop at h
      split at h
      · rcases except_bind_err h with h | ⟨q, _, h⟩
        · exact tail (fun id hid => ⟨hid, fun t ht => by cases ht⟩) (by simp [iterAny]) (ih h)
        · cases h
      · rename_i hm
        cases h
        exact .inr ⟨rfl, [], id, r, rfl, hm, by simp⟩

theorem flatAll_err {la : Nat → Option Nat} : ∀ {xs : List (FlatItem κ)} {e : PyErr}, flatAll la xs = .error e → e = .keyError := by
  intro xs
  induction xs with
  | nil => intro e h; cases h
  | cons x r ih =>
    intro e h
    unfold flatAll at h
    rcases except_bind_err h with h | ⟨y, _, h⟩
    · unfold flatResolve at h
      split at h
      · split at h <;> cases h; rfl
      · split at h <;> cases h; rfl
      · cases h
    · rcases except_bind_err h with h | ⟨z, _, h⟩
      · exact ih h
      · cases h

/-- A TryEnd comes before any TryBegin of its region, or a label that is used is missing. -/
def Dangling (es : List BElem) : Prop :=
  (∃ a id b, es = a ++ .tryEnd id :: b ∧ ∀ t, .tryBegin t ∈ a → t.id ≠ id) ∨
  (∃ i l, .instr i ∈ es ∧ i.arg = .label l ∧ .label l ∉ es) ∨ ∃ t, .tryBegin t ∈ es ∧ .label t.target ∉ es

theorem flat_err {es : List BElem} {e : PyErr} (h : flat P key es = .error e) :
    (e = .runtimeError ∧ ¬ Iterable (es.map some)) ∨ (e = .keyError ∧ Dangling es) := by
  unfold flat at h
  rcases except_bind_err h with h' | ⟨q, h1, h2⟩
  · rcases flatLoop_err es h' with ⟨h1, h2⟩ | ⟨h1, a, id, b, h2, _, h3⟩
    · exact .inl ⟨h1, fun hi => h2 ((C40_bytecode_iff _).2 hi)⟩
    · exact .inr ⟨h1, .inl ⟨a, id, b, h2, h3⟩⟩
  · refine .inr ⟨flatAll_err h2, .inr ?_⟩
    have := (flatAll_ok_iff P key q.2 es h1).not.1 (by rintro ⟨f, hf⟩; rw [hf] at h2; cases h2)
    rw [not_and_or] at this
    rcases this with h3 | h3
    · left
      simp only [not_forall] at h3
      obtain ⟨i, l, hi, ha, h4⟩ := h3
      exact ⟨i, l, hi, ha, fun hl => h4 ((labels_isSome h1 l).2 hl)⟩
    · right
      simp only [not_forall] at h3
      obtain ⟨t, ht, h4⟩ := h3
      exact ⟨t, ht, fun hl => h4 ((labels_isSome h1 _).2 hl)⟩

/-- **C37 (exceptions).** Comparing raises nothing but RuntimeError, when try regions of one of the two are nested, and KeyError, when in one of the two a TryEnd comes
before its TryBegin or a label that is used is missing. -/
theorem C37_errors [DecidableEq κ] (P : Platform) (key : Arg → κ) (a b : Bytecode) (e : PyErr) (h : a.eq P key b = .error e) :
    (e = .runtimeError ∧ (¬ Iterable (a.elems.map some) ∨ ¬ Iterable (b.elems.map some))) ∨
    (e = .keyError ∧ (Dangling a.elems ∨ Dangling b.elems)) := by
  unfold Bytecode.eq at h
  rcases except_bind_err h with h | ⟨fa, _, h⟩
  · rcases flat_err h with ⟨h1, h2⟩ | ⟨h1, h2⟩
    · exact .inl ⟨h1, .inl h2⟩
    · exact .inr ⟨h1, .inl h2⟩
  · rcases except_bind_err h with h | ⟨fb, _, h⟩
    · rcases flat_err h with ⟨h1, h2⟩ | ⟨h1, h2⟩
      · exact .inl ⟨h1, .inr h2⟩
      · exact .inr ⟨h1, .inr h2⟩
    · cases h

end

/-- A jump to a label that is not in the list; nested regions. -/
example : Bytecode.eq Py311.platform (id : Arg → Arg) ⟨Attrs.default, [], [.instr ⟨"JUMP_FORWARD", 110, .label 3, none⟩]⟩ ⟨Attrs.default, [], []⟩ = .error .keyError ∧
    Bytecode.eq Py311.platform (id : Arg → Arg) ⟨Attrs.default, [], [.tryBegin ⟨0, 0, false, none⟩, .tryBegin ⟨1, 0, false, none⟩, .label 0]⟩ ⟨Attrs.default, [], []⟩ =
      .error .runtimeError := by
  constructor <;> rfl

end Verif
