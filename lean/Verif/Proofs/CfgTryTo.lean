import Verif.Proofs.CfgTryFrom
/-
`to_bytecode`: the try regions.
-/
namespace Verif
open Spec

/-- A region that was opened and not ended is the one that is open. -/
theorem open_of_begun {n : Nat} : ∀ {es : List BElem} {c : Option TryB}, Tidy c es → (n ∈ begins es ∨ c.map (·.id) = some n) →
    BElem.tryEnd n ∉ es → (stW nextId c es).map (·.id) = some n := by
  intro es
  induction es with
  | nil =>
    intro c _ h _
    rcases h with h | h
    · cases h
    · exact h
  | cons e r ih =>
    intro c ht h hn
    have hn' : BElem.tryEnd n ∉ r := fun h => hn (by simp [h])
    have step : stW nextId c (e :: r) = stW nextId (nextId c e) r := rfl
    rw [step]
    refine ih ht.2 ?_ hn'
    have hb : begins (e :: r) = begins [e] ++ begins r := begins_append [e] r
    cases e with
    | tryBegin t =>
      rcases h with h | h
      · rw [hb, List.mem_append] at h
        rcases h with h | h
        · have : n = t.id := by simpa [begins] using h
          exact .inr (by simp [nextId, this])
        · exact .inl h
      · rw [ht.1 t rfl] at h; cases h
    | tryEnd m =>
      rcases h with h | h
      · exact .inl h
      · right
        have : m ≠ n := by rintro rfl; exact hn (by simp)
        have h2 : ¬ (c.map (·.id) = some m) := by rw [h]; simpa using Ne.symm this
        simp only [nextId, h2, if_false]; exact h
    | instr i => exact h
    | label i => exact h
    | setLineno i => exact h

/-- Nothing but labels and line markers. -/
def MarksOnly (es : List BElem) : Prop := ∀ e ∈ es, (∃ l, e = .label l) ∨ ∃ l, e = .setLineno l

theorem plain_walk {es : List BElem} (h : MarksOnly es) (c : Option TryB) : outW nextS c es = [] ∧ stW nextS c es = c := by
  induction es generalizing c with
  | nil => exact ⟨rfl, rfl⟩
  | cons e r ih =>
    have ih := ih (fun e he => h e (by simp [he]))
    rcases h e (by simp) with ⟨l, rfl⟩ | ⟨l, rfl⟩
    · exact ⟨(ih c).1, (ih c).2⟩
    · exact ⟨(ih c).1, (ih c).2⟩

theorem setTryDepth_append (id : Nat) (d : Option Nat) (a b : List BElem) : setTryDepth id d (a ++ b) = setTryDepth id d a ++ setTryDepth id d b :=
  List.map_append

theorem setTryDepth_plain {id : Nat} {d : Option Nat} {es : List BElem} (h : MarksOnly es) : setTryDepth id d es = es := by
  induction es with
  | nil => rfl
  | cons e r ih =>
    have ih := ih (fun e he => h e (by simp [he]))
    unfold setTryDepth at ih ⊢
    rw [List.map_cons, ih]
    rcases h e (by simp) with ⟨l, rfl⟩ | ⟨l, rfl⟩ <;> rfl

/-- The walk does not depend on the depths. -/
theorem setTryDepth_walk (id : Nat) (d : Option Nat) (es : List BElem) : ∀ (c c' : Option TryB), gd c = gd c' →
    outW nextS c (setTryDepth id d es) = outW nextS c' es ∧ gd (stW nextS c (setTryDepth id d es)) = gd (stW nextS c' es) := by
  induction es with
  | nil => intro c c' h; exact ⟨rfl, h⟩
  | cons e r ih =>
    intro c c' h
    have e0 : setTryDepth id d (e :: r) = setTryDepth id d [e] ++ setTryDepth id d r := setTryDepth_append id d [e] r
    cases e with
    | tryBegin t =>
      have e1 : setTryDepth id d [.tryBegin t] = [.tryBegin (if t.id = id then { t with depth := d } else t)] := by
        simp only [setTryDepth, List.map_cons, List.map_nil]
        split <;> rfl
      rw [e0, e1]
      have h2 : gd (nextS c (.tryBegin (if t.id = id then { t with depth := d } else t))) = gd (nextS c' (.tryBegin t)) := by
        simp only [nextS]
        split <;> rfl
      exact ih _ _ h2
    | tryEnd t => exact ih none none rfl
    | label l => exact ih c c' h
    | setLineno l => exact ih c c' h
    | instr i =>
      refine ⟨?_, (ih c c' h).2⟩
      show [gd c] ++ outW nextS c (setTryDepth id d r) = [gd c'] ++ outW nextS c' r
      rw [h, (ih c c' h).1]

/-- The invariant: regions of the output and regions of the blocks read so far. -/
structure KInv (s : ToSt) (g : List BElem) : Prop where
  out : outW nextS none s.out = outW nextId none g
  st : gd (stW nextS none s.out) = gd (stW nextId none g)
  seen : ∀ id, id ∈ s.seen ↔ BElem.tryEnd id ∈ g
  tries : ∀ u, stW nextId none g = some u → ∃ bid, s.tries u.id = some (u, bid)
  tb : stW nextId none g = none → s.lastTB = none
  te : ∀ t bid p, s.lastTE = some (t, bid, some p) → ∃ a b, s.out = a ++ .tryEnd bid :: b ∧ a.length = p ∧ MarksOnly b ∧ gd (stW nextS none a) = gd (some t)
  te' : ∀ t bid, s.lastTE = some (t, bid, none) → stW nextId none g ≠ none

theorem kInv_init : KInv ⟨[], fun _ => none, [], none, none⟩ [] :=
  ⟨rfl, rfl, fun id => by simp, (fun u h => by cases h), fun _ => rfl, (fun t b p h => by cases h), (fun t b h => by cases h)⟩

/-- A label or a line marker. -/
theorem KInv.plain {s : ToSt} {g : List BElem} (h : KInv s g) {e : BElem} (he : MarksOnly [e]) : KInv { s with out := s.out ++ [e] } g := by
  have w := plain_walk he (stW nextS none s.out)
  refine ⟨?_, ?_, h.seen, h.tries, h.tb, ?_, h.te'⟩
  · show outW nextS none (s.out ++ [e]) = _
    rw [outW_append, w.1, List.append_nil]; exact h.out
  · show gd (stW nextS none (s.out ++ [e])) = _
    rw [stW_append, w.2]; exact h.st
  · intro t bid p hp
    obtain ⟨a, b, h1, h2, h3, h4⟩ := h.te t bid p hp
    refine ⟨a, b ++ [e], ?_, h2, ?_, h4⟩
    · show s.out ++ [e] = _
      rw [h1]; simp
    · intro x hx
      rcases List.mem_append.1 hx with hx | hx
      · exact h3 x hx
      · exact he x hx

theorem KInv.extend {s : ToSt} {g : List BElem} (h : KInv s g) {e : BElem} (he : MarksOnly [e]) : KInv s (g ++ [e]) := by
  have h1 : outW nextId none (g ++ [e]) = outW nextId none g := by
    rw [outW_append]
    rcases he e (by simp) with ⟨l, rfl⟩ | ⟨l, rfl⟩ <;> simp [outW, BElem.isInstr]
  have h2 : stW nextId none (g ++ [e]) = stW nextId none g := by
    rw [stW_append]
    rcases he e (by simp) with ⟨l, rfl⟩ | ⟨l, rfl⟩ <;> rfl
  refine ⟨by rw [h1]; exact h.out, by rw [h2]; exact h.st, ?_, by rw [h2]; exact h.tries, by rw [h2]; exact h.tb, h.te, by rw [h2]; exact h.te'⟩
  intro id
  rw [h.seen id, List.mem_append]
  rcases he e (by simp) with ⟨l, rfl⟩ | ⟨l, rfl⟩ <;> simp

theorem gd_eq {u t : TryB} (h1 : u.target = t.target) (h2 : u.lasti = t.lasti) : gd (some u) = gd (some t) := by
  simp [gd, h1, h2]

theorem kfresh {s : ToSt} {g : List BElem} {t : TryB} (h : KInv s g) (ho : Ordered (g ++ [.tryBegin t])) :
    KInv (s.freshTry t) (g ++ [.tryBegin t]) := by
  have e1 : stW nextId none (g ++ [.tryBegin t]) = some t := by rw [stW_snoc]; rfl
  have e2 : stW nextS none (s.freshTry t).out = some t := by
    show stW nextS none (s.out ++ [.tryBegin t]) = _
    rw [stW_snoc]; rfl
  refine ⟨?_, by rw [e1, e2], ?_, ?_, ?_, (fun t b p h => by cases h), (fun t b h => by cases h)⟩
  · show outW nextS none (s.out ++ [.tryBegin t]) = _
    rw [outW_snoc, outW_snoc, h.out]; rfl
  · intro id
    show id ∈ s.seen ↔ _
    rw [h.seen id]; simp
  · intro u hu
    rw [e1] at hu
    simp only [Option.some.injEq] at hu
    subst hu
    exact ⟨t.id, by simp [ToSt.freshTry, upd]⟩
  · rw [e1]; intro hh; cases hh

theorem kfuse {s s' : ToSt} {g : List BElem} {t entry : TryB} {bid : Nat} {pos : Option Nat} (h : KInv s g)
    (ht : stW nextId none g = none) (hl : s.lastTE = some (entry, bid, pos)) (hc : entry.target = t.target ∧ entry.lasti = t.lasti)
    (hr : s.fuse t entry bid pos = .ok s') : KInv s' (g ++ [.tryBegin t]) := by
  have e1 : stW nextId none (g ++ [.tryBegin t]) = some t := by rw [stW_snoc]; rfl
  unfold ToSt.fuse at hr
  obtain ⟨d, _, hr⟩ := except_bind_ok hr
  cases pos with
  | none => cases hr
  | some p =>
    simp only [Except.ok.injEq] at hr
    subst hr
    obtain ⟨a, b, h1, h2, h3, h4⟩ := h.te _ _ _ hl
    have ho : (setTryDepth bid d s.out).eraseIdx p = setTryDepth bid d a ++ b := by
      have hl : (setTryDepth bid d a).length = p := by rw [← h2]; simp [setTryDepth]
      have hx : setTryDepth bid d (BElem.tryEnd bid :: b) = BElem.tryEnd bid :: b := by
        have := setTryDepth_append bid d [.tryEnd bid] b
        rw [setTryDepth_plain h3] at this
        exact this
      rw [h1, setTryDepth_append, hx, List.eraseIdx_append_of_length_le (by omega), hl, Nat.sub_self]
      rfl
    have w := setTryDepth_walk bid d a none none rfl
    have wp := plain_walk h3
    refine ⟨?_, ?_, ?_, ?_, ?_, ?_, ?_⟩
    · show outW nextS none ((setTryDepth bid d s.out).eraseIdx p) = _
      rw [ho, outW_append, w.1, (wp _).1, outW_snoc, ← h.out, h1, outW_append]
      show _ = outW nextS none a ++ outW nextS none b ++ _
      rw [(wp _).1]; simp [BElem.isInstr]
    · show gd (stW nextS none ((setTryDepth bid d s.out).eraseIdx p)) = _
      rw [ho, stW_append, (wp _).2, w.2, h4, e1]
      exact gd_eq hc.1 hc.2
    · intro id
      show id ∈ s.seen ↔ _
      rw [h.seen id]; simp
    · intro u hu
      rw [e1] at hu
      simp only [Option.some.injEq] at hu
      subst hu
      exact ⟨bid, by simp [upd]⟩
    · rw [e1]; intro hh; cases hh
    · intro t0 b0 p0 hp0
      simp at hp0
    · intro t0 b0 _
      rw [e1]; intro hh; cases hh

theorem kstep {s s' : ToSt} {g : List BElem} {e : BElem} (h : KInv s g) (ho : Ordered (g ++ [e])) (hr : s.step e = .ok s') :
    KInv s' (g ++ [e]) := by
  have hog : Ordered g := by
    refine ⟨((tidy_append _ _ _).1 ho.tidy).1, ?_, ?_⟩
    · have := ho.nodup; rw [begins_append] at this; exact (List.nodup_append.1 this).1
    · intro a m b hab
      exact ho.bef a m (b ++ [e]) (by rw [hab]; simp)
  cases e with
  | label l =>
    simp only [ToSt.step, Except.ok.injEq] at hr
    subst hr
    have hp : MarksOnly [BElem.label l] := fun x hx => .inl ⟨l, by simpa using hx⟩
    exact (h.plain hp).extend hp
  | setLineno l =>
    simp only [ToSt.step, Except.ok.injEq] at hr
    subst hr
    have hp : MarksOnly [BElem.setLineno l] := fun x hx => .inr ⟨l, by simpa using hx⟩
    exact (h.plain hp).extend hp
  | instr i =>
    simp only [ToSt.step, Except.ok.injEq] at hr
    subst hr
    have e1 : stW nextId none (g ++ [.instr i]) = stW nextId none g := by rw [stW_snoc]; rfl
    refine ⟨?_, ?_, ?_, ?_, ?_, (fun t b p h => by cases h), (fun t b h => by cases h)⟩
    · show outW nextS none (s.out ++ [.instr i]) = _
      rw [outW_snoc, outW_snoc, h.out, h.st]
    · show gd (stW nextS none (s.out ++ [.instr i])) = _
      rw [e1, stW_snoc]; exact h.st
    · intro id
      show id ∈ s.seen ↔ _
      rw [h.seen id]; simp
    · rw [e1]; exact h.tries
    · rw [e1]; exact h.tb
  | tryEnd id =>
    simp only [ToSt.step] at hr
    have eo : outW nextId none (g ++ [.tryEnd id]) = outW nextId none g := by rw [outW_snoc]; simp [BElem.isInstr]
    split at hr
    · rename_i hs
      simp only [Except.ok.injEq] at hr
      subst hr
      have hm := (h.seen id).1 hs
      have e1 : stW nextId none (g ++ [.tryEnd id]) = stW nextId none g := by
        rw [stW_snoc]
        show (if (stW nextId none g).map (·.id) = some id then none else stW nextId none g) = _
        rw [if_neg]
        intro hh
        cases hst : stW nextId none g with
        | none => rw [hst] at hh; cases hh
        | some u =>
          rw [hst] at hh
          exact ended_not_open hog.nodup hog.bef hm hst (by simpa using hh)
      refine ⟨by rw [eo]; exact h.out, by rw [e1]; exact h.st, ?_, by rw [e1]; exact h.tries, by rw [e1]; exact h.tb, h.te, by rw [e1]; exact h.te'⟩
      intro id'
      rw [h.seen id', List.mem_append]
      constructor
      · exact .inl
      · rintro (h | h)
        · exact h
        · simp only [List.mem_singleton, BElem.tryEnd.injEq] at h
          rw [h]; exact hm
    · rename_i hs
      have hm : BElem.tryEnd id ∉ g := fun hh => hs ((h.seen id).2 hh)
      have hop := open_of_begun hog.tidy (.inl (ho.bef g id [] rfl).1) hm
      have e1 : stW nextId none (g ++ [.tryEnd id]) = none := by
        rw [stW_snoc]
        show (if (stW nextId none g).map (·.id) = some id then none else stW nextId none g) = _
        rw [if_pos hop]
      cases hst : stW nextId none g with
      | none => rw [hst] at hop; cases hop
      | some u =>
        rw [hst] at hop
        simp only [Option.map_some, Option.some.injEq] at hop
        obtain ⟨bid, hb⟩ := h.tries u hst
        rw [hop] at hb
        rw [hb] at hr
        simp only [Except.ok.injEq] at hr
        subst hr
        refine ⟨?_, ?_, ?_, ?_, fun _ => rfl, ?_, ?_⟩
        · rw [eo, outW_snoc]
          simp only [BElem.isInstr, Bool.false_eq_true, if_false, List.append_nil]
          exact h.out
        · rw [e1, stW_snoc]; rfl
        · intro id'
          show id' ∈ id :: s.seen ↔ _
          rw [List.mem_cons, h.seen id', List.mem_append]
          simp [or_comm]
        · rw [e1]; intro u hu; cases hu
        · intro t0 b0 p0 hp0
          simp only [Option.some.injEq, Prod.mk.injEq] at hp0
          obtain ⟨rfl, rfl, rfl⟩ := hp0
          refine ⟨s.out, [], rfl, rfl, (fun x hx => by cases hx), ?_⟩
          rw [h.st, hst]
        · intro t0 b0 hp0
          simp at hp0
  | tryBegin t =>
    have ht : stW nextId none g = none := ((tidy_append _ _ _).1 ho.tidy).2.1 t rfl
    have hn : s.nested t = .ok s := by
      unfold ToSt.nested
      rw [h.tb ht]
    simp only [ToSt.step, hn] at hr
    change (match s.lastTE with
      | some (entry, bid, pos) => if entry.target = t.target ∧ entry.lasti = t.lasti then s.fuse t entry bid pos else pure (s.freshTry t)
      | none => pure (s.freshTry t)) = Except.ok s' at hr
    split at hr
    · rename_i entry bid pos hl
      split at hr
      · rename_i hc
        exact kfuse h ht hl hc hr
      · simp only [pure, Except.pure, Except.ok.injEq] at hr
        subst hr; exact kfresh h ho
    · simp only [pure, Except.pure, Except.ok.injEq] at hr
      subst hr; exact kfresh h ho

theorem ordered_prefix {a b : List BElem} (ho : Ordered (a ++ b)) : Ordered a := by
  refine ⟨((tidy_append _ _ _).1 ho.tidy).1, ?_, ?_⟩
  · have := ho.nodup; rw [begins_append] at this; exact (List.nodup_append.1 this).1
  · intro x m y hab
    exact ho.bef x m (y ++ b) (by rw [hab]; simp)

theorem krun (es : List BElem) : ∀ {s s' : ToSt} {g : List BElem}, KInv s g → Ordered (g ++ es) → s.run es = .ok s' → KInv s' (g ++ es) := by
  induction es with
  | nil =>
    intro s s' g h _ hr
    simp only [ToSt.run, Except.ok.injEq] at hr
    subst hr
    rw [List.append_nil]; exact h
  | cons e r ih =>
    intro s s' g h ho hr
    unfold ToSt.run at hr
    obtain ⟨s1, h1, hr⟩ := except_bind_ok hr
    have e0 : g ++ e :: r = (g ++ [e]) ++ r := by simp
    rw [e0] at ho ⊢
    exact ih (kstep h (ordered_prefix ho) h1) ho hr

theorem kloop {heap : Nat → Blk} {used : List Nat} (bs : List Nat) : ∀ {s s' : ToSt} {g : List BElem}, KInv s g →
    Ordered (g ++ bs.flatMap (fun b => (heap b).elems)) → toLoop heap used s bs = .ok s' → KInv s' (g ++ bs.flatMap (fun b => (heap b).elems)) := by
  induction bs with
  | nil =>
    intro s s' g h _ hr
    simp only [toLoop, Except.ok.injEq] at hr
    subst hr
    rw [List.flatMap_nil, List.append_nil]; exact h
  | cons b r ih =>
    intro s s' g h ho hr
    unfold toLoop at hr
    obtain ⟨s1, h1, hr⟩ := except_bind_ok hr
    have h0 : KInv (if b ∈ used then { s with out := s.out ++ [.label b] } else s) g := by
      split
      · exact h.plain (fun x hx => .inl ⟨b, by simpa using hx⟩)
      · exact h
    rw [List.flatMap_cons, ← List.append_assoc] at ho ⊢
    exact ih (krun _ h0 (ordered_prefix ho) h1) ho hr

end Verif
