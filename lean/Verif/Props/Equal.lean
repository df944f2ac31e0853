import Verif.Proofs.Equal
import Verif.Props.Iter
/-
C37: equality of `Bytecode` objects.
-/
namespace Verif
open Spec

variable {κ : Type}

theorem flatLoop_ok_iff (P : Platform) (key : Arg → κ) (es : List BElem) (seen : Bool) (idx off : Nat) (lab : Nat → Option Nat) (tries : List Nat) :
    (∃ q, flatLoop P key seen idx off lab tries es = .ok q) ↔
      ((iterAny seen (es.map some)).2 = .ok () ∧ ∀ a id b, es = a ++ .tryEnd id :: b → id ∈ tries ∨ ∃ t, .tryBegin t ∈ a ∧ t.id = id) := by
  induction es generalizing seen idx off lab tries with
  | nil => simp [flatLoop, iterAny]
  | cons e r ih =>
    have tail : ∀ (tr : List Nat), (∀ id, e ≠ .tryEnd id) → (∀ id, id ∈ tr ↔ (id ∈ tries ∨ ∃ t, e = .tryBegin t ∧ t.id = id)) →
        ((∀ a id b, e :: r = a ++ .tryEnd id :: b → id ∈ tries ∨ ∃ t, .tryBegin t ∈ a ∧ t.id = id) ↔
        (∀ a id b, r = a ++ .tryEnd id :: b → id ∈ tr ∨ ∃ t, .tryBegin t ∈ a ∧ t.id = id)) := by
      intro tr he htr
      constructor
      · intro h a id b hr
        rcases h (e :: a) id b (by rw [hr]; rfl) with h | ⟨t, ht, hid⟩
        · exact .inl ((htr id).2 (.inl h))
        · rcases List.mem_cons.1 ht with h | h
          · exact .inl ((htr id).2 (.inr ⟨t, h.symm, hid⟩))
          · exact .inr ⟨t, h, hid⟩
      · intro h a id b hr
        cases a with
        | nil => simp only [List.nil_append, List.cons.injEq] at hr; exact absurd hr.1 (he id)
        | cons x a =>
          simp only [List.cons_append, List.cons.injEq] at hr
          rcases h a id b hr.2 with h | ⟨t, ht, hid⟩
          · rcases (htr id).1 h with h | ⟨t, ht, hid⟩
            · exact .inl h
            · exact .inr ⟨t, by rw [← hr.1, ht]; exact List.mem_cons_self, hid⟩
          · exact .inr ⟨t, List.mem_cons_of_mem _ ht, hid⟩
    have bindIff : ∀ {α β : Type} (x : Py α) (f : α → β), (∃ q, (x >>= fun a => (pure (f a) : Py β)) = .ok q) ↔ ∃ a, x = .ok a := by
      intro α β x f
      cases x with
      | error e => constructor <;> (rintro ⟨q, h⟩; cases h)
      | ok a => exact ⟨fun _ => ⟨a, rfl⟩, fun _ => ⟨_, rfl⟩⟩
    cases e with
    | label l =>
      rw [tail tries (by simp) (by simp)]
      unfold flatLoop
      rw [bindIff, ih]
      simp [iterAny]
    | setLineno l =>
      rw [tail tries (by simp) (by simp)]
      unfold flatLoop
      rw [bindIff, ih]
      simp [iterAny]
    | instr i =>
      rw [tail tries (by simp) (by simp)]
      unfold flatLoop
      have : (∃ q, (flatLoop P key seen (idx + 1) (off + 1) lab tries r >>= fun q =>
          (match i.arg with
          | .label l => (pure (.jump i.loc i.name l :: q.1, q.2) : Py _)
          | _ => pure (.instr (i.cmpKey P key) :: q.1, q.2))) = .ok q) ↔ ∃ q, flatLoop P key seen (idx + 1) (off + 1) lab tries r = .ok q := by
        cases flatLoop P key seen (idx + 1) (off + 1) lab tries r with
        | error e => constructor <;> (rintro ⟨q, h⟩; cases h)
        | ok q =>
          refine ⟨fun _ => ⟨q, rfl⟩, fun _ => ?_⟩
          simp only [bind, Except.bind]
          split <;> exact ⟨_, rfl⟩
      refine Iff.trans this ?_
      rw [ih]
      simp [iterAny]
    | tryBegin t =>
      rw [tail (setDefault tries t.id) (by simp) (by
        intro id
        unfold setDefault
        by_cases hm : t.id ∈ tries
        · rw [if_pos hm]
          constructor
          · exact .inl
          · rintro (h | ⟨u, hu, rfl⟩)
            · exact h
            · cases hu; exact hm
        · rw [if_neg hm]
          simp only [List.mem_append, List.mem_singleton, BElem.tryBegin.injEq]
          constructor
          · rintro (h | rfl)
            · exact .inl h
            · exact .inr ⟨t, rfl, rfl⟩
          · rintro (h | ⟨u, rfl, rfl⟩)
            · exact .inl h
            · exact .inr rfl)]
      unfold flatLoop
      cases seen with
      | true => simp [iterAny]
      | false =>
        rw [if_neg (by simp), bindIff, ih]
        simp [iterAny]
    | tryEnd id =>
      unfold flatLoop
      have hh : (∀ a id' b, BElem.tryEnd id :: r = a ++ .tryEnd id' :: b → id' ∈ tries ∨ ∃ t, .tryBegin t ∈ a ∧ t.id = id') ↔
          id ∈ tries ∧ (∀ a id' b, r = a ++ .tryEnd id' :: b → id' ∈ tries ∨ ∃ t, .tryBegin t ∈ a ∧ t.id = id') := by
        constructor
        · intro h
          refine ⟨by simpa using h [] id r rfl, fun a id' b hr => ?_⟩
          rcases h (.tryEnd id :: a) id' b (by rw [hr]; rfl) with h | ⟨t, ht, hid⟩
          · exact .inl h
          · exact .inr ⟨t, by simpa using ht, hid⟩
        · rintro ⟨h1, h2⟩ a id' b hr
          cases a with
          | nil => simp only [List.nil_append, List.cons.injEq, BElem.tryEnd.injEq] at hr; exact .inl (hr.1 ▸ h1)
          | cons x a =>
            simp only [List.cons_append, List.cons.injEq] at hr
            rcases h2 a id' b hr.2 with h | ⟨t, ht, hid⟩
            · exact .inl h
            · exact .inr ⟨t, List.mem_cons_of_mem _ ht, hid⟩
      rw [hh]
      by_cases hm : id ∈ tries
      · rw [if_pos hm, bindIff, ih]
        simp [iterAny, hm]
      · rw [if_neg hm]
        simp [hm]

theorem flatAll_ok_iff (P : Platform) (key : Arg → κ) (la : Nat → Option Nat) (es : List BElem) {seen : Bool} {idx off : Nat} {lab : Nat → Option Nat}
    {tries : List Nat} {q : List (FlatItem κ) × (Nat → Option Nat)} (h : flatLoop P key seen idx off lab tries es = .ok q) :
    (∃ f, flatAll la q.1 = .ok f) ↔ ((∀ i l, .instr i ∈ es → i.arg = .label l → (la l).isSome) ∧ ∀ t, .tryBegin t ∈ es → (la t.target).isSome) := by
  induction es generalizing seen idx off lab tries q with
  | nil => cases h; simp [flatAll]
  | cons e r ih =>
    obtain ⟨ir, h1, h2, _⟩ := flatLoop_cons h
    have hr := ih h2
    simp only at hr
    rw [h1]
    have step : (∃ f, flatAll la (itemOf P key idx tries e :: ir) = .ok f) ↔ ((∃ y, flatResolve la (itemOf P key idx tries e) = .ok y) ∧ ∃ f, flatAll la ir = .ok f) := by
      constructor
      · rintro ⟨f, hf⟩
        obtain ⟨y, zs, _, h3, h4⟩ := flatAll_cons hf
        exact ⟨⟨y, h3⟩, ⟨zs, h4⟩⟩
      · rintro ⟨⟨y, h3⟩, ⟨zs, h4⟩⟩
        exact ⟨y :: zs, by unfold flatAll; rw [h3]; simp only [bind, Except.bind]; rw [h4]; rfl⟩
    rw [step, hr]
    have head : (∃ y, flatResolve la (itemOf P key idx tries e) = .ok y) ↔
        ((∀ i l, e = .instr i → i.arg = .label l → (la l).isSome) ∧ ∀ t, e = .tryBegin t → (la t.target).isSome) := by
      cases e with
      | label l => simp [itemOf, flatResolve]
      | setLineno l => simp [itemOf, flatResolve]
      | tryEnd l => simp [itemOf, flatResolve]
      | tryBegin t =>
        simp only [itemOf, flatResolve]
        cases hl : la t.target with
        | none => simp only [reduceCtorEq, exists_false, BElem.tryBegin.injEq, false_iff, not_and]; intro _ hh; have := hh t rfl; rw [hl] at this; cases this
        | some n => simp [hl]
      | instr i =>
        simp only [itemOf]
        split
        · rename_i l he
          simp only [flatResolve]
          cases hl : la l with
          | none => simp only [reduceCtorEq, exists_false, BElem.instr.injEq, false_iff, not_and]; intro hh; have := hh i l rfl he; rw [hl] at this; cases this
          | some n => simp only [Except.ok.injEq, exists_eq', BElem.instr.injEq, true_iff, reduceCtorEq, false_implies, implies_true, and_true]; rintro _ m rfl hm; rw [he] at hm; cases hm; rw [hl]; rfl
        · rename_i hne
          simp only [flatResolve, Except.ok.injEq, exists_eq', BElem.instr.injEq, true_iff, reduceCtorEq, false_implies, implies_true, and_true]
          rintro _ m rfl hm; exact absurd hm (hne m)
    rw [head]
    simp only [List.mem_cons]
    grind

theorem flat_unfold {P : Platform} {key : Arg → κ} {es : List BElem} {f : List (FlatItem κ)} (h : flat P key es = .ok f) :
    ∃ q, flatLoop P key false 0 0 (fun _ => none) [] es = .ok q ∧ flatAll q.2 q.1 = .ok f ∧ ∀ l n, q.2 l = some n ↔ LandsAt es l n := by
  unfold flat at h
  obtain ⟨q, h1, h2⟩ := except_bind_ok h
  refine ⟨q, h1, h2, fun l n => ?_⟩
  rw [flatLoop_labels es h1, Option.or_none, lastPl_lands]

theorem labels_isSome {P : Platform} {key : Arg → κ} {es : List BElem} {q : List (FlatItem κ) × (Nat → Option Nat)}
    (h : flatLoop P key false 0 0 (fun _ => none) [] es = .ok q) (l : Nat) : (q.2 l).isSome ↔ .label l ∈ es := by
  rw [flatLoop_labels es h, Option.or_none]
  have := lastPl_none l 0 es
  cases hl : lastPl l 0 es with
  | none => simp [this.1 hl]
  | some n => simp only [Option.isSome_some, true_iff]; exact Classical.byContradiction fun hn => by rw [this.2 hn] at hl; cases hl

theorem flat_ok_iff (P : Platform) (key : Arg → κ) (es : List BElem) : (∃ f, flat P key es = .ok f) ↔ Comparable es := by
  constructor
  · rintro ⟨f, hf⟩
    obtain ⟨q, h1, h2, _⟩ := flat_unfold hf
    obtain ⟨i1, i2⟩ := (flatLoop_ok_iff P key es false 0 0 _ []).1 ⟨q, h1⟩
    obtain ⟨j1, j2⟩ := (flatAll_ok_iff P key q.2 es h1).1 ⟨f, h2⟩
    exact ⟨(C40_bytecode_iff _).1 i1, fun a id b he => by simpa using i2 a id b he, fun i l hm ha => (labels_isSome h1 l).1 (j1 i l hm ha),
      fun t hm => (labels_isSome h1 _).1 (j2 t hm)⟩
  · rintro ⟨c1, c2, c3, c4⟩
    obtain ⟨q, h1⟩ := (flatLoop_ok_iff P key es false 0 0 (fun _ => none) []).2 ⟨(C40_bytecode_iff _).2 c1, fun a id b he => .inr (c2 a id b he)⟩
    obtain ⟨f, h2⟩ := (flatAll_ok_iff P key q.2 es h1).2 ⟨fun i l hm ha => (labels_isSome h1 l).2 (c3 i l hm ha), fun t hm => (labels_isSome h1 _).2 (c4 t hm)⟩
    exact ⟨f, by unfold flat; rw [h1]; exact h2⟩

theorem markPairs_mem (a b : List BElem) (s t : Nat) :
    (s, t) ∈ markPairs a b ↔ ∃ k : Nat, a[k]?.bind markerOf = some s ∧ b[k]?.bind markerOf = some t := by
  induction a generalizing b with
  | nil => simp [markPairs]
  | cons x a ih =>
    cases b with
    | nil => simp [markPairs]
    | cons y b =>
      simp only [markPairs, List.mem_append, ih]
      have hd : (s, t) ∈ markPair x y ↔ (markerOf x = some s ∧ markerOf y = some t) := by
        unfold markPair
        cases hx : markerOf x <;> cases hy : markerOf y <;> simp [eq_comm]
      rw [hd]
      constructor
      · rintro (⟨h1, h2⟩ | ⟨k, h1, h2⟩)
        · exact ⟨0, by simpa using h1, by simpa using h2⟩
        · exact ⟨k + 1, by simpa using h1, by simpa using h2⟩
      · rintro ⟨k, h1, h2⟩
        cases k with
        | zero => exact .inl ⟨by simpa using h1, by simpa using h2⟩
        | succ k => exact .inr ⟨k, by simpa using h1, by simpa using h2⟩

theorem forall2_index {R : BElem → BElem → Prop} (a b : List BElem) :
    List.Forall₂ R a b ↔ a.length = b.length ∧ ∀ (k : Nat) x y, a[k]? = some x → b[k]? = some y → R x y := by
  induction a generalizing b with
  | nil =>
    cases b with
    | nil => simp
    | cons y b => exact ⟨fun h => (by cases h), fun h => (by cases h.1)⟩
  | cons x a ih =>
    cases b with
    | nil => exact ⟨fun h => (by cases h), fun h => (by cases h.1)⟩
    | cons y b =>
      rw [List.forall₂_cons, ih]
      constructor
      · rintro ⟨h1, h2, h3⟩
        refine ⟨by simp [h2], fun k u v hu hv => ?_⟩
        cases k with
        | zero => simp only [List.getElem?_cons_zero, Option.some.injEq] at hu hv; rw [← hu, ← hv]; exact h1
        | succ k => exact h3 k u v (by simpa using hu) (by simpa using hv)
      · rintro ⟨h1, h2⟩
        exact ⟨h2 0 x y rfl rfl, by simpa using h1, fun k u v hu hv => h2 (k + 1) u v (by simpa using hu) (by simpa using hv)⟩

theorem flat_eq_iff {P : Platform} {key : Arg → κ} {a b : List BElem} {fa fb : List (FlatItem κ)} (na : NamesOK P a) (nb : NamesOK P b)
    (ha : flat P key a = .ok fa) (hb : flat P key b = .ok fb) : fa = fb ↔ SameCode P key a b := by
  obtain ⟨qa, a1, a2, a3⟩ := flat_unfold ha
  obtain ⟨qb, b1, b2, b3⟩ := flat_unfold hb
  rw [flat_core qa.2 qb.2 a b na nb 0 [] (by simp) (by simp) a1 b1 a2 b2, forall2_index, List.nil_append]
  have hc : ∀ x y, Corr P key qa.2 qb.2 x y ↔ Corresponds P key a b x y := by
    intro x y
    cases x <;> cases y <;> simp only [Corr, Corresponds, a3, b3]
  constructor
  · rintro ⟨⟨h1, h2⟩, h3⟩
    refine ⟨h1, fun k x y hx hy => (hc x y).1 (h2 k x y hx hy), fun j k s t s' t' hs ht hs' ht' => ?_⟩
    exact h3 (s, s') ((markPairs_mem a b s s').2 ⟨j, hs, hs'⟩) (t, t') ((markPairs_mem a b t t').2 ⟨k, ht, ht'⟩)
  · rintro ⟨h1, h2, h3⟩
    refine ⟨⟨h1, fun k x y hx hy => (hc x y).2 (h2 k x y hx hy)⟩, ?_⟩
    rintro ⟨s, s'⟩ hp ⟨t, t'⟩ hq
    obtain ⟨j, hs, hs'⟩ := (markPairs_mem a b s s').1 hp
    obtain ⟨k, ht, ht'⟩ := (markPairs_mem a b t t').1 hq
    exact h3 j k s t s' t' hs ht hs' ht'

variable [DecidableEq κ]

/-- **C37.** Two `Bytecode` compare equal iff they are the same code: element by element, jumps and handlers by the place
they lead to, markers by pairing. (The stack depth of handlers is not compared, see `C37_depth_false`: `SameCode` says
nothing about it.) -/
theorem C37_equal (P : Platform) (key : Arg → κ) (a b : Bytecode) (ca : Comparable a.elems) (cb : Comparable b.elems)
    (na : ∀ i, .instr i ∈ a.elems → P.opmap i.name = some i.opcode) (nb : ∀ i, .instr i ∈ b.elems → P.opmap i.name = some i.opcode) :
    ∃ r, a.eq P key b = .ok r ∧ (r = true ↔ SameCode P key a.elems b.elems) := by
  obtain ⟨fa, ha⟩ := (flat_ok_iff P key _).2 ca
  obtain ⟨fb, hb⟩ := (flat_ok_iff P key _).2 cb
  refine ⟨decide (fa = fb), by unfold Bytecode.eq; rw [ha, hb]; rfl, ?_⟩
  rw [decide_eq_true_iff]
  exact flat_eq_iff na nb ha hb

/-- Comparing raises iff one of the two cannot be compared: nested regions, a TryEnd before its TryBegin, or a missing
label. -/
theorem C37_raises (P : Platform) (key : Arg → κ) (a b : Bytecode) :
    (∃ e, a.eq P key b = .error e) ↔ ¬ (Comparable a.elems ∧ Comparable b.elems) := by
  rw [← flat_ok_iff P key, ← flat_ok_iff P key]
  unfold Bytecode.eq
  cases ha : flat P key a.elems with
  | error e => simp [bind, Except.bind]
  | ok fa => cases hb : flat P key b.elems with
    | error e => simp [bind, Except.bind]
    | ok fb => simp [bind, Except.bind, pure, Except.pure]

/-- Equality is an equivalence on the code that can be compared. -/
theorem C37_refl (P : Platform) (key : Arg → κ) (a : Bytecode) (ca : Comparable a.elems) : a.eq P key a = .ok true := by
  obtain ⟨fa, ha⟩ := (flat_ok_iff P key _).2 ca
  unfold Bytecode.eq; rw [ha]; simp [bind, Except.bind, pure, Except.pure]

theorem C37_symm (P : Platform) (key : Arg → κ) (a b : Bytecode) (h : a.eq P key b = .ok true) : b.eq P key a = .ok true := by
  unfold Bytecode.eq at h ⊢
  obtain ⟨fa, h1, h⟩ := except_bind_ok h
  obtain ⟨fb, h2, h⟩ := except_bind_ok h
  simp only [pure, Except.pure, Except.ok.injEq, decide_eq_true_eq] at h
  rw [h1, h2]; simp [bind, Except.bind, pure, Except.pure, h]

theorem C37_trans (P : Platform) (key : Arg → κ) (a b c : Bytecode) (h : a.eq P key b = .ok true) (h' : b.eq P key c = .ok true) :
    a.eq P key c = .ok true := by
  unfold Bytecode.eq at h h' ⊢
  obtain ⟨fa, h1, h⟩ := except_bind_ok h
  obtain ⟨fb, h2, h⟩ := except_bind_ok h
  obtain ⟨fb', h3, h'⟩ := except_bind_ok h'
  obtain ⟨fc, h4, h'⟩ := except_bind_ok h'
  simp only [pure, Except.pure, Except.ok.injEq, decide_eq_true_eq] at h h'
  rw [h2] at h3; cases h3
  rw [h1, h4]; simp [bind, Except.bind, pure, Except.pure, h, h']

/-! ### Renaming -/

/-- a flat item whose label is renamed -/
def renameItem (ρ : Nat → Nat) : FlatItem κ → FlatItem κ
  | .jump l n t => .jump l n (ρ t)
  | .tryBegin o t x => .tryBegin o (ρ t) x
  | x => x

omit [DecidableEq κ]

theorem idxOf_map (σ : Nat → Nat) (hσ : Function.Injective σ) (l : List Nat) (x : Nat) : (l.map σ).idxOf (σ x) = l.idxOf x := by
  induction l with
  | nil => rfl
  | cons y l ih =>
    by_cases h : y = x
    · subst h; simp
    · rw [List.map_cons, idxOf_ne _ _ _ (fun e => h (hσ e)), idxOf_ne _ _ _ h, ih]

theorem setDefault_map (σ : Nat → Nat) (hσ : Function.Injective σ) (l : List Nat) (x : Nat) :
    setDefault (l.map σ) (σ x) = (setDefault l x).map σ := by
  unfold setDefault
  by_cases h : x ∈ l
  · rw [if_pos h, if_pos (List.mem_map.2 ⟨x, h, rfl⟩)]
  · rw [if_neg h, if_neg]
    · simp
    · intro hm
      obtain ⟨y, hy, he⟩ := List.mem_map.1 hm
      exact h (hσ he ▸ hy)

/-- one result is the renaming of the other -/
def RenRel (ρ : Nat → Nat) : Py (List (FlatItem κ) × (Nat → Option Nat)) → Py (List (FlatItem κ) × (Nat → Option Nat)) → Prop
  | .ok q, .ok q' => q'.1 = q.1.map (renameItem ρ) ∧ ∀ l, q'.2 (ρ l) = q.2 l
  | .error e, .error e' => e = e'
  | _, _ => False

theorem RenRel.bind {ρ : Nat → Nat} {x y : Py (List (FlatItem κ) × (Nat → Option Nat))} (h : RenRel ρ x y) (i : FlatItem κ) :
    RenRel ρ (x >>= fun q => pure (i :: q.1, q.2)) (y >>= fun q => pure (renameItem ρ i :: q.1, q.2)) := by
  cases x with
  | error e => cases y with
    | error e' => exact h
    | ok q => cases h
  | ok q => cases y with
    | error e' => cases h
    | ok q' => exact ⟨by simp [h.1], h.2⟩

theorem flatLoop_rename (P : Platform) (key : Arg → κ) (ρ σ : Nat → Nat) (hρ : Function.Injective ρ) (hσ : Function.Injective σ)
    (es : List BElem) (seen : Bool) (idx off : Nat) (lab lab' : Nat → Option Nat) (tries : List Nat) (hl : ∀ l, lab' (ρ l) = lab l) :
    RenRel ρ (flatLoop P key seen idx off lab tries es) (flatLoop P key seen idx off lab' (tries.map σ) (es.map (renameElem ρ σ))) := by
  induction es generalizing seen idx off lab lab' tries with
  | nil => exact ⟨rfl, hl⟩
  | cons e r ih =>
    rw [List.map_cons]
    cases e with
    | label l =>
      simp only [renameElem]
      unfold flatLoop
      refine (ih seen (idx + 1) off _ _ tries ?_).bind (.label idx)
      intro m
      simp only [upd]
      by_cases h : m = l
      · subst h; simp
      · rw [if_neg (fun e => h (hρ e)), if_neg h]; exact hl m
    | setLineno n =>
      simp only [renameElem]
      unfold flatLoop
      exact (ih seen (idx + 1) (off + 1) _ _ tries hl).bind (.setLineno n)
    | tryBegin t =>
      simp only [renameElem]
      unfold flatLoop
      cases seen with
      | true => exact rfl
      | false =>
        simp only [Bool.false_eq_true, if_false]
        rw [setDefault_map σ hσ, idxOf_map σ hσ]
        exact (ih true (idx + 1) off _ _ _ hl).bind (.tryBegin _ t.target t.lasti)
    | tryEnd id =>
      simp only [renameElem]
      unfold flatLoop
      by_cases h : id ∈ tries
      · rw [if_pos h, if_pos (List.mem_map.2 ⟨id, h, rfl⟩), idxOf_map σ hσ]
        exact (ih false (idx + 1) off _ _ _ hl).bind (.tryEnd _)
      · rw [if_neg h, if_neg]
        · exact rfl
        · intro hm
          obtain ⟨y, hy, he⟩ := List.mem_map.1 hm
          exact h (hσ he ▸ hy)
    | instr i =>
      have := ih seen (idx + 1) (off + 1) _ _ tries hl
      simp only [renameElem]
      cases ha : i.arg with
      | label l =>
        simp only
        unfold flatLoop
        simp only [ha]
        exact this.bind (.jump i.loc i.name l)
      | _ =>
        simp only
        unfold flatLoop
        simp only [ha]
        exact this.bind (.instr (i.cmpKey P key))

theorem flatAll_rename (ρ : Nat → Nat) (lab lab' : Nat → Option Nat) (hl : ∀ l, lab' (ρ l) = lab l) (xs : List (FlatItem κ)) :
    flatAll lab' (xs.map (renameItem ρ)) = flatAll lab xs := by
  induction xs with
  | nil => rfl
  | cons x r ih =>
    rw [List.map_cons]
    unfold flatAll
    rw [ih]
    have : flatResolve lab' (renameItem ρ x) = flatResolve lab x := by
      cases x <;> simp [renameItem, flatResolve, hl]
    rw [this]

theorem flat_rename (P : Platform) (key : Arg → κ) (ρ σ : Nat → Nat) (hρ : Function.Injective ρ) (hσ : Function.Injective σ) (es : List BElem) :
    flat P key (es.map (renameElem ρ σ)) = flat P key es := by
  have := flatLoop_rename P key ρ σ hρ hσ es false 0 0 (fun _ => none) (fun _ => none) [] (fun _ => rfl)
  unfold flat
  simp only [List.map_nil] at this
  cases h1 : flatLoop P key false 0 0 (fun _ => none) [] es with
  | error e =>
    rw [h1] at this
    cases h2 : flatLoop P key false 0 0 (fun _ => none) [] (es.map (renameElem ρ σ)) with
    | error e' => rw [h2] at this; rw [show e = e' from this]
    | ok q => rw [h2] at this; cases this
  | ok q =>
    rw [h1] at this
    cases h2 : flatLoop P key false 0 0 (fun _ => none) [] (es.map (renameElem ρ σ)) with
    | error e' => rw [h2] at this; cases this
    | ok q' =>
      rw [h2] at this
      simp only [bind, Except.bind]
      rw [this.1]
      exact flatAll_rename ρ q.2 q'.2 this.2 q.1

/-- **C37, renaming.** Replacing the Label and TryBegin objects by others, injectively, never changes the result of a
comparison (or the exception). -/
theorem C37_rename [DecidableEq κ] (P : Platform) (key : Arg → κ) (ρ σ : Nat → Nat) (hρ : Function.Injective ρ) (hσ : Function.Injective σ) (a b : Bytecode) :
    Bytecode.eq P key { a with elems := a.elems.map (renameElem ρ σ) } b = a.eq P key b ∧
    Bytecode.eq P key b { a with elems := a.elems.map (renameElem ρ σ) } = b.eq P key a := by
  unfold Bytecode.eq
  simp only [flat_rename P key ρ σ hρ hσ]
  exact ⟨trivial, trivial⟩

/-! ### What equality does not see -/

/-- C37 is false for the stack depth of handlers: codes with different handler depths compare equal. -/
theorem C37_depth_false : ∃ a b : Bytecode, a.eq Py311.platform (fun x => x) b = .ok true ∧ a.attrs = b.attrs ∧
    a.elems = [.tryBegin ⟨0, 0, false, some 3⟩, .instr ⟨"NOP", 9, .unset, none⟩, .tryEnd 0, .label 0] ∧
    b.elems = [.tryBegin ⟨0, 0, false, some 7⟩, .instr ⟨"NOP", 9, .unset, none⟩, .tryEnd 0, .label 0] :=
  ⟨⟨Attrs.default, [], [.tryBegin ⟨0, 0, false, some 3⟩, .instr ⟨"NOP", 9, .unset, none⟩, .tryEnd 0, .label 0]⟩,
   ⟨Attrs.default, [], [.tryBegin ⟨0, 0, false, some 7⟩, .instr ⟨"NOP", 9, .unset, none⟩, .tryEnd 0, .label 0]⟩, by decide +kernel, rfl, rfl, rfl⟩

/-- Nor does it compare the attributes: whatever they are, the result is the same. -/
theorem C37_attributes_ignored [DecidableEq κ] (P : Platform) (key : Arg → κ) (a b : Bytecode) (at1 at2 : Attrs) (n1 n2 : List String) :
    Bytecode.eq P key ⟨at1, n1, a.elems⟩ ⟨at2, n2, b.elems⟩ = a.eq P key b := rfl

/-! Concrete cases. -/

/-- a loop and a handler -/
def eqEx : List BElem := [.label 5, .tryBegin ⟨0, 6, true, none⟩, .instr ⟨"LOAD_CONST", 100, .int 0, none⟩, .tryEnd 0,
  .instr ⟨"JUMP_BACKWARD", 140, .label 5, none⟩, .label 6, .instr ⟨"RERAISE", 119, .int 1, none⟩]

example : Comparable eqEx := (flat_ok_iff Py311.platform (fun x => x) _).1 ⟨(match flat Py311.platform (fun x => x) eqEx with | .ok f => f | .error _ => []), by decide +kernel⟩

/-- the same with other objects, and with a jump elsewhere -/
example : Bytecode.eq Py311.platform (fun x => x) ⟨Attrs.default, [], eqEx⟩ ⟨Attrs.default, [], eqEx.map (renameElem (· + 7) (· + 9))⟩ = .ok true := by decide +kernel

example : Bytecode.eq Py311.platform (fun x => x) ⟨Attrs.default, [], eqEx⟩ ⟨Attrs.default, [], eqEx.set 4 (.instr ⟨"JUMP_BACKWARD", 140, .label 6, none⟩)⟩ = .ok false := by decide +kernel

end Verif
