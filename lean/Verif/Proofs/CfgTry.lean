import Verif.Proofs.CfgConvMain
import Verif.Spec.Tries
/-
`from_bytecode`: the try regions.
-/
namespace Verif
open Spec

/-! ### Walking through try markers -/

/-- The region open after an element; a TryEnd closes its own region only. -/
def nextId (c : Option TryB) : BElem → Option TryB
  | .tryBegin t => some t
  | .tryEnd id => if c.map (·.id) = some id then none else c
  | .instr _ => c
  | .label _ => c
  | .setLineno _ => c

/-- The region open after an element; a TryEnd closes any region. -/
def nextS (c : Option TryB) : BElem → Option TryB
  | .tryBegin t => some t
  | .tryEnd _ => none
  | .instr _ => c
  | .label _ => c
  | .setLineno _ => c

def gd (c : Option TryB) : Option (Nat × Bool) := c.map (fun t => (t.target, t.lasti))

def stW (nx : Option TryB → BElem → Option TryB) (c : Option TryB) (es : List BElem) : Option TryB := es.foldl nx c

def outW (nx : Option TryB → BElem → Option TryB) (c : Option TryB) : List BElem → List (Option (Nat × Bool))
  | [] => []
  | e :: r => (if e.isInstr then [gd c] else []) ++ outW nx (nx c e) r

theorem stW_append (nx : Option TryB → BElem → Option TryB) (c : Option TryB) (a b : List BElem) :
    stW nx c (a ++ b) = stW nx (stW nx c a) b := List.foldl_append ..

theorem outW_append (nx : Option TryB → BElem → Option TryB) (c : Option TryB) (a b : List BElem) :
    outW nx c (a ++ b) = outW nx c a ++ outW nx (stW nx c a) b := by
  induction a generalizing c with
  | nil => rfl
  | cons e r ih =>
    simp only [List.cons_append, outW]
    rw [ih, List.append_assoc]
    rfl

theorem guards_eq (c : Option TryB) (es : List BElem) : guards (gd c) es = outW nextS c es := by
  induction es generalizing c with
  | nil => rfl
  | cons e r ih => cases e <;> simp [guards, outW, BElem.isInstr, nextS, ← ih, gd]

/-- Identities of the TryBegin of a list. -/
def begins (es : List BElem) : List Nat := es.filterMap (fun | .tryBegin t => some t.id | _ => none)

theorem begins_append (a b : List BElem) : begins (a ++ b) = begins a ++ begins b := List.filterMap_append ..

/-- No region is opened inside another one. -/
def Tidy : Option TryB → List BElem → Prop
  | _, [] => True
  | c, e :: r => (∀ t, e = .tryBegin t → c = none) ∧ Tidy (nextId c e) r

theorem tidy_append (c : Option TryB) (a b : List BElem) : Tidy c (a ++ b) ↔ Tidy c a ∧ Tidy (stW nextId c a) b := by
  induction a generalizing c with
  | nil => simp [Tidy, stW]
  | cons e r ih =>
    simp only [List.cons_append, Tidy, ih, and_assoc]
    rfl

/-- A TryEnd comes after its TryBegin and after some instruction. -/
def Bef (es : List BElem) : Prop := ∀ a n b, es = a ++ .tryEnd n :: b → n ∈ begins a ∧ 0 < instrCount a

theorem bef_push {es : List BElem} {e : BElem} (h : Bef es) (he : ∀ n, e = .tryEnd n → n ∈ begins es ∧ 0 < instrCount es) : Bef (es ++ [e]) := by
  intro a n b hab
  rw [List.append_eq_append_iff] at hab
  rcases hab with ⟨c, hc1, hc2⟩ | ⟨c, hc1, hc2⟩
  · cases c with
    | nil =>
      simp only [List.nil_append, List.cons.injEq] at hc2
      rw [hc1, List.append_nil]
      exact he n hc2.1
    | cons x r => simp at hc2
  · cases c with
    | nil =>
      simp only [List.nil_append, List.cons.injEq] at hc2
      rw [List.append_nil] at hc1
      rw [← hc1]
      exact he n hc2.1.symm
    | cons x r =>
      simp only [List.cons_append, List.cons.injEq] at hc2
      obtain ⟨rfl, hb⟩ := hc2
      exact h a n r hc1

theorem stW_begins {c : Option TryB} {es : List BElem} {u : TryB} (h : stW nextId c es = some u) :
    (c = some u) ∨ u.id ∈ begins es := by
  induction es generalizing c with
  | nil => exact .inl h
  | cons e r ih =>
    have h' : stW nextId (nextId c e) r = some u := h
    rcases ih h' with h1 | h1
    · cases e with
      | tryBegin t =>
        simp only [nextId, Option.some.injEq] at h1
        subst h1
        exact .inr (by simp [begins])
      | tryEnd id =>
        simp only [nextId] at h1
        split at h1
        · cases h1
        · exact .inl h1
      | _ => exact .inl h1
    · right
      have : begins (e :: r) = begins [e] ++ begins r := begins_append [e] r
      rw [this, List.mem_append]
      exact .inr h1

/-- A region that was ended is not open again. -/
theorem ended_not_open {es : List BElem} {n : Nat} {u : TryB} (hn : (begins es).Nodup) (hb : Bef es) (hm : BElem.tryEnd n ∈ es)
    (hs : stW nextId none es = some u) : u.id ≠ n := by
  rintro rfl
  obtain ⟨a, b, rfl⟩ := List.append_of_mem hm
  have h1 := (hb a u.id b rfl).1
  rw [stW_append] at hs
  have hs' : stW nextId (nextId (stW nextId none a) (.tryEnd u.id)) b = some u := hs
  rcases stW_begins hs' with h2 | h2
  · simp only [nextId] at h2
    split at h2
    · cases h2
    · rename_i h3; rw [h2] at h3; exact h3 rfl
  · rw [begins_append] at hn
    have hd := (List.nodup_append.1 hn).2.2
    refine hd u.id h1 u.id ?_ rfl
    have : begins (BElem.tryEnd u.id :: b) = begins b := rfl
    rw [this]; exact h2

/-! ### A TryEnd added early -/

/-- Walking from an open region or from none, up to the end of that region. -/
theorem early_same (n : Nat) (x y : List BElem) (hx : instrCount x = 0) : ∀ (c : Option TryB), (c.map (·.id) = some n) →
    outW nextId none (x ++ .tryEnd n :: y) = outW nextId c (x ++ .tryEnd n :: y) ∧
    stW nextId none (x ++ .tryEnd n :: y) = stW nextId c (x ++ .tryEnd n :: y) ∧
    (Tidy c (x ++ .tryEnd n :: y) → Tidy none (x ++ .tryEnd n :: y)) := by
  induction x with
  | nil =>
    intro c hc
    have e1 : nextId c (.tryEnd n) = none := by simp [nextId, hc]
    have e2 : nextId none (.tryEnd n) = none := by simp [nextId]
    simp only [List.nil_append]
    refine ⟨?_, ?_, ?_⟩
    · simp [outW, e1, e2, BElem.isInstr]
    · show stW nextId (nextId none _) y = stW nextId (nextId c _) y
      rw [e1, e2]
    · intro h
      refine ⟨(fun t ht => by cases ht), ?_⟩
      rw [e2]
      have := h.2
      rw [e1] at this
      exact this
  | cons e r ih =>
    intro c hc
    have hr : instrCount r = 0 ∧ e.isInstr = false := by
      unfold instrCount at hx ⊢
      rw [List.countP_cons] at hx
      refine ⟨by omega, ?_⟩
      cases h : e.isInstr
      · rfl
      · rw [h] at hx; simp at hx
    have ih := ih hr.1
    have key : nextId none e = nextId c e ∨ (nextId none e = none ∧ (nextId c e).map (·.id) = some n) := by
      cases e with
      | tryBegin t => exact .inl rfl
      | tryEnd id =>
        simp only [nextId]
        split <;> split
        · exact .inl rfl
        · exact .inr ⟨rfl, hc⟩
        · exact .inl rfl
        · exact .inr ⟨rfl, hc⟩
      | instr i => exact .inr ⟨rfl, hc⟩
      | label i => exact .inr ⟨rfl, hc⟩
      | setLineno i => exact .inr ⟨rfl, hc⟩
    simp only [List.cons_append]
    rcases key with hk | ⟨hk1, hk2⟩
    · refine ⟨?_, ?_, ?_⟩
      · simp [outW, hr.2, hk]
      · show stW nextId (nextId none e) _ = stW nextId (nextId c e) _
        rw [hk]
      · intro h
        refine ⟨fun t _ => rfl, ?_⟩
        rw [hk]; exact h.2
    · obtain ⟨i1, i2, i3⟩ := ih _ hk2
      refine ⟨?_, ?_, ?_⟩
      · simp only [outW, hr.2, hk1, Bool.false_eq_true, if_false, List.nil_append]; exact i1
      · show stW nextId (nextId none e) _ = stW nextId (nextId c e) _
        rw [hk1]; exact i2
      · intro h
        refine ⟨fun t _ => rfl, ?_⟩
        rw [hk1]; exact i3 h.2

/-- A list of elements whose markers are in order. -/
structure Ordered (es : List BElem) : Prop where
  tidy : Tidy none es
  nodup : (begins es).Nodup
  bef : Bef es

theorem bef_insert {X Y : List BElem} {n : Nat} (h : Bef (X ++ Y)) (hn : n ∈ begins X ∧ 0 < instrCount X) : Bef (X ++ .tryEnd n :: Y) := by
  intro a m b hab
  have hab' := hab
  rw [List.append_eq_append_iff] at hab
  rcases hab with ⟨c, hc1, hc2⟩ | ⟨c, hc1, hc2⟩
  · cases c with
    | nil =>
      simp only [List.nil_append, List.cons.injEq, BElem.tryEnd.injEq] at hc2
      rw [hc1, List.append_nil, ← hc2.1]; exact hn
    | cons x r =>
      simp only [List.cons_append, List.cons.injEq] at hc2
      obtain ⟨rfl, hY⟩ := hc2
      have := h (X ++ r) m b (by rw [hY]; simp)
      rw [hc1, begins_append, instrCount_append]
      rw [begins_append, instrCount_append] at this
      have e : begins (BElem.tryEnd n :: r) = begins r := rfl
      have e' : instrCount (BElem.tryEnd n :: r) = instrCount r := by simp [instrCount, BElem.isInstr]
      rw [e, e']
      exact this
  · cases c with
    | nil =>
      simp only [List.nil_append, List.cons.injEq, BElem.tryEnd.injEq] at hc2
      rw [List.append_nil] at hc1
      rw [← hc1, hc2.1]; exact hn
    | cons x r =>
      simp only [List.cons_append, List.cons.injEq] at hc2
      obtain ⟨rfl, hb⟩ := hc2
      exact h a m (r ++ Y) (by rw [hc1]; simp)

/-- Inserting a TryEnd for a region that is over, or is about to be over. -/
theorem insert_ok {X Y : List BElem} {n : Nat} (ho : Ordered (X ++ Y)) (hn : n ∈ begins X ∧ 0 < instrCount X)
    (h : BElem.tryEnd n ∈ X ∨ ∃ x y, Y = x ++ .tryEnd n :: y ∧ instrCount x = 0) :
    Ordered (X ++ .tryEnd n :: Y) ∧ outW nextId none (X ++ .tryEnd n :: Y) = outW nextId none (X ++ Y) ∧
      stW nextId none (X ++ .tryEnd n :: Y) = stW nextId none (X ++ Y) := by
  have hbeg : begins (X ++ .tryEnd n :: Y) = begins (X ++ Y) := by
    rw [begins_append, begins_append]; rfl
  have hXn : (begins X).Nodup := by
    have := ho.nodup; rw [begins_append] at this; exact (List.nodup_append.1 this).1
  have hXb : Bef X := by
    intro a m b hab
    exact ho.bef a m (b ++ Y) (by rw [hab]; simp)
  have ht := (tidy_append _ _ _).1 ho.tidy
  have key : outW nextId (nextId (stW nextId none X) (.tryEnd n)) Y = outW nextId (stW nextId none X) Y ∧
      stW nextId (nextId (stW nextId none X) (.tryEnd n)) Y = stW nextId (stW nextId none X) Y ∧
      Tidy (nextId (stW nextId none X) (.tryEnd n)) Y := by
    by_cases hc : (stW nextId none X).map (·.id) = some n
    · have e : nextId (stW nextId none X) (.tryEnd n) = none := by simp [nextId, hc]
      rw [e]
      rcases h with h | ⟨x, y, rfl, hx⟩
      · exfalso
        cases hs : stW nextId none X with
        | none => rw [hs] at hc; cases hc
        | some u =>
          rw [hs] at hc
          simp only [Option.map_some, Option.some.injEq] at hc
          exact ended_not_open hXn hXb h hs hc
      · obtain ⟨k1, k2, k3⟩ := early_same n x y hx _ hc
        exact ⟨k1, k2, k3 ht.2⟩
    · have e : nextId (stW nextId none X) (.tryEnd n) = stW nextId none X := by simp [nextId, hc]
      rw [e]
      exact ⟨rfl, rfl, ht.2⟩
  refine ⟨⟨?_, by rw [hbeg]; exact ho.nodup, bef_insert ho.bef hn⟩, ?_, ?_⟩
  · rw [tidy_append]
    exact ⟨ht.1, (fun t h => by cases h), key.2.2⟩
  · rw [outW_append, outW_append]
    show _ ++ ((if BElem.isInstr (.tryEnd n) then _ else []) ++ _) = _
    rw [key.1]; rfl
  · rw [stW_append, stW_append]
    exact key.2.1

end Verif
