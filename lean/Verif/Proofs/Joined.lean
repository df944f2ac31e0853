import Verif.Spec.Joined
import Verif.Proofs.HandlerDepths
/- The depths of handlers through `to_bytecode`, exactly. -/
namespace Verif
open Spec

def gD (c : Option TryB) : Option (Nat × Bool × Option Nat) := c.map (fun t => (t.target, t.lasti, t.depth))

theorem guardsD_append (a : List BElem) : ∀ (c : Option TryB) (b : List BElem),
    guardsD (gD c) (a ++ b) = guardsD (gD c) a ++ guardsD (gD (stW nextS c a)) b := by
  induction a with
  | nil => intro c b; rfl
  | cons e r ih =>
    intro c b
    cases e with
    | instr i => simp only [List.cons_append, guardsD, ih]; rfl
    | tryBegin t => exact ih (some t) b
    | tryEnd id => exact ih none b
    | label l => exact ih c b
    | setLineno l => exact ih c b

def reD (id : Nat) (d : Option Nat) (u : TryB) : TryB := if u.id = id then { u with depth := d } else u

theorem stW_setTryDepth (id : Nat) (d : Option Nat) (a : List BElem) : ∀ c : Option TryB,
    stW nextS (c.map (reD id d)) (setTryDepth id d a) = (stW nextS c a).map (reD id d) := by
  induction a with
  | nil => intro c; rfl
  | cons e r ih =>
    intro c
    cases e with
    | instr i => exact ih c
    | tryBegin t =>
      have := ih (some t)
      simp only [Option.map_some] at this
      simp only [setTryDepth, List.map_cons, stW, List.foldl_cons, nextS] at this ⊢
      rw [← this]
      by_cases hid : t.id = id <;> simp [reD, hid]
    | tryEnd id => exact ih none
    | label l => exact ih c
    | setLineno l => exact ih c

theorem setTryDepth_twice (id : Nat) (d e : Option Nat) (a : List BElem) : setTryDepth id d (setTryDepth id e a) = setTryDepth id d a := by
  unfold setTryDepth
  rw [List.map_map]
  apply List.map_congr_left
  intro x hx
  clear hx
  cases x <;> try rfl
  rename_i t
  simp only [Function.comp_apply]
  by_cases h : t.id = id <;> simp [h]

theorem setTryDepth_same {id : Nat} {d : Option Nat} {a : List BElem} (h : ∀ v, BElem.tryBegin v ∈ a → v.id = id → v.depth = d) :
    setTryDepth id d a = a := by
  unfold setTryDepth
  conv => rhs; rw [← List.map_id a]
  apply List.map_congr_left
  intro x hx
  cases x <;> try rfl
  rename_i t
  simp only [id_eq]
  by_cases ht : t.id = id
  · rw [if_pos ht, ← h t hx ht]
  · rw [if_neg ht]

theorem guardsD_marks {b : List BElem} (h : MarksOnly b) (c : Option (Nat × Bool × Option Nat)) : guardsD c b = [] := by
  induction b with
  | nil => rfl
  | cons e r ih =>
    have hr : MarksOnly r := fun x hx => h x (by simp [hx])
    rcases h e (by simp) with ⟨l, rfl⟩ | ⟨l, rfl⟩ <;> exact ih hr

/-- Where `to_bytecode` is. -/
inductive Ph
  | out
  | inside (t : TryB) (bid : Nat) (before : Option (Option Nat))
  | after (t : TryB) (bid : Nat) (before : Option (Option Nat))

/-- The handlers at the end, the rest of the graph being `r`. -/
def Ph.value (out r : List BElem) : Ph → List (Option (Nat × Bool × Option Nat))
  | .out => guardsD none out ++ guardsJ .out r
  | .inside t bid b => guardsD none (setTryDepth bid (joinedDepth b t true r) out) ++ guardsJ (.inside t (joinedDepth b t true r)) r
  | .after t bid b => guardsD none (setTryDepth bid (joinedDepth b t false r) out) ++ guardsJ (.after t (joinedDepth b t false r)) r

/-- The TryBegin last written is that of the pieces ending with `t`. -/
def Written (out : List BElem) (cur : Option TryB) (t : TryB) (bid : Nat) (b : Option (Option Nat)) : Prop :=
  ∃ u, cur = some u ∧ u.id = bid ∧ u.target = t.target ∧ u.lasti = t.lasti ∧ u.depth = depthAt b t ∧
    ∀ v, BElem.tryBegin v ∈ out → v.id = bid → v.depth = depthAt b t

structure JInv (s : ToSt) (g : List BElem) (ph : Ph) : Prop where
  ids : ∀ v, BElem.tryBegin v ∈ s.out → v.id ∈ begins g
  phase : match ph with
    | .out => stW nextId none g = none ∧ s.lastTE = none ∧ stW nextS none s.out = none
    | .inside t bid b => stW nextId none g = some t ∧ s.tries t.id = some (t, bid) ∧ Written s.out (stW nextS none s.out) t bid b
    | .after t bid b => stW nextId none g = none ∧ ∃ x y, s.lastTE = some (t, bid, some x.length) ∧ s.out = x ++ .tryEnd bid :: y ∧ MarksOnly y ∧
        Written s.out (stW nextS none x) t bid b

theorem fused_lower {a b d : Option Nat} (h : fusedDepth a b = .ok d) : d = lower a b := by
  unfold fusedDepth at h
  split at h
  · cases h; rfl
  · cases h
  · rename_i a b
    simp only [Except.ok.injEq] at h
    subst h
    cases b <;> cases a <;> rfl

theorem written_mono {out x : List BElem} {cur : Option TryB} {t : TryB} {bid : Nat} {b : Option (Option Nat)} (h : Written out cur t bid b)
    (hx : ∀ v, BElem.tryBegin v ∈ x → v.id ≠ bid) : Written (out ++ x) cur t bid b := by
  obtain ⟨u, h1, h2, h3, h4, h5, h6⟩ := h
  refine ⟨u, h1, h2, h3, h4, h5, fun v hv hid => ?_⟩
  rcases List.mem_append.1 hv with hv | hv
  · exact h6 v hv hid
  · exact absurd hid (hx v hv)

theorem marks_noTry {y : List BElem} (h : MarksOnly y) (v : TryB) : BElem.tryBegin v ∉ y := by
  intro hv
  rcases h _ hv with ⟨l, hl⟩ | ⟨l, hl⟩ <;> cases hl

theorem stW_markOnly {y : List BElem} (h : MarksOnly y) (c : Option TryB) : stW nextS c y = c := by
  induction y generalizing c with
  | nil => rfl
  | cons e r ih =>
    have hr : MarksOnly r := fun x hx => h x (by simp [hx])
    rcases h e (by simp) with ⟨l, rfl⟩ | ⟨l, rfl⟩ <;> exact ih hr c

theorem setTryDepth_marks {y : List BElem} (h : MarksOnly y) (id : Nat) (d : Option Nat) : setTryDepth id d y = y :=
  setTryDepth_same (fun v hv => absurd hv (marks_noTry h v))

/-- Labels are written between blocks. -/
theorem jmark {s : ToSt} {g : List BElem} {ph : Ph} (h : JInv s g ph) {y : List BElem} (hy : MarksOnly y) {s' : ToSt} (h1 : s'.out = s.out ++ y)
    (h2 : s'.tries = s.tries) (h3 : s'.lastTE = s.lastTE) : JInv s' g ph ∧ ∀ r, ph.value s'.out r = ph.value s.out r := by
  have hst : stW nextS none s'.out = stW nextS none s.out := by rw [h1, stW_append, stW_markOnly hy]
  have hgd : ∀ (l : List BElem), guardsD none (l ++ y) = guardsD none l := by
    intro l
    have := guardsD_append l none y
    simp only [gD, Option.map_none] at this
    rw [this, guardsD_marks hy, List.append_nil]
  refine ⟨⟨?_, ?_⟩, ?_⟩
  · intro v hv
    rw [h1] at hv
    rcases List.mem_append.1 hv with hv | hv
    · exact h.ids v hv
    · exact absurd hv (marks_noTry hy v)
  · have hp := h.phase
    cases ph with
    | out => exact ⟨hp.1, by rw [h3]; exact hp.2.1, by rw [hst]; exact hp.2.2⟩
    | inside t bid b =>
      refine ⟨hp.1, by rw [h2]; exact hp.2.1, ?_⟩
      rw [hst, h1]
      exact written_mono hp.2.2 (fun v hv => absurd hv (marks_noTry hy v))
    | after t bid b =>
      obtain ⟨hp1, x, z, hp2, hp3, hp4, hp5⟩ := hp
      refine ⟨hp1, x, z ++ y, by rw [h3]; exact hp2, by rw [h1, hp3]; simp, ?_, ?_⟩
      · intro e he
        rcases List.mem_append.1 he with he | he
        · exact hp4 e he
        · exact hy e he
      · rw [h1]
        exact written_mono hp5 (fun v hv => absurd hv (marks_noTry hy v))
  · intro r
    cases ph with
    | out => simp only [Ph.value, h1, hgd]
    | inside t bid b => simp only [Ph.value, h1, setTryDepth_append, setTryDepth_marks hy, hgd]
    | after t bid b => simp only [Ph.value, h1, setTryDepth_append, setTryDepth_marks hy, hgd]

/-- The value of a phase in which the pieces are complete. -/
theorem value_done {out : List BElem} {cur : Option TryB} {t : TryB} {bid : Nat} {b : Option (Option Nat)} (h : Written out cur t bid b) :
    setTryDepth bid (depthAt b t) out = out := by
  obtain ⟨u, h1, h2, h3, h4, h5, h6⟩ := h
  exact setTryDepth_same h6

theorem guardsD_snoc_none (l : List BElem) (e : BElem) : guardsD none (l ++ [e]) = guardsD none l ++ guardsD (gD (stW nextS none l)) [e] := by
  have := guardsD_append l none [e]
  simpa only [gD, Option.map_none] using this

/-- A mark read in the graph. -/
theorem value_mark {ph : Ph} {e : BElem} (he : (∃ l, e = .label l) ∨ ∃ l, e = .setLineno l) (out r : List BElem) : ph.value out (e :: r) = ph.value out r := by
  rcases he with ⟨l, rfl⟩ | ⟨l, rfl⟩ <;> cases ph <;> rfl

theorem jphase_mark {s : ToSt} {g : List BElem} {ph : Ph} {e : BElem} (he : (∃ l, e = .label l) ∨ ∃ l, e = .setLineno l) (h : JInv s g ph) :
    JInv s (g ++ [e]) ph := by
  have e1 : stW nextId none (g ++ [e]) = stW nextId none g := by
    rw [stW_snoc]
    rcases he with ⟨l, rfl⟩ | ⟨l, rfl⟩ <;> rfl
  refine ⟨fun v hv => by rw [begins_append]; exact List.mem_append.2 (.inl (h.ids v hv)), ?_⟩
  rw [e1]
  exact h.phase

theorem jstep {s s' : ToSt} {g : List BElem} {e : BElem} {ph : Ph} (k : KInv s g) (h : JInv s g ph) (ho : Ordered (g ++ [e])) (hr : s.step e = .ok s') :
    ∃ ph', JInv s' (g ++ [e]) ph' ∧ ∀ r, ph'.value s'.out r = ph.value s.out (e :: r) := by
  have hg : ∀ x, x ∈ begins g → x ∈ begins (g ++ [e]) := by
    intro x hx; rw [begins_append]; exact List.mem_append.2 (.inl hx)
  have hog : Ordered g := by
    refine ⟨((tidy_append _ _ _).1 ho.tidy).1, ?_, ?_⟩
    · have := ho.nodup; rw [begins_append] at this; exact (List.nodup_append.1 this).1
    · intro a m b hab
      exact ho.bef a m (b ++ [e]) (by rw [hab]; simp)
  cases e with
  | label l =>
    simp only [ToSt.step, Except.ok.injEq] at hr
    obtain ⟨a, b⟩ := jmark h (y := [.label l]) (fun x hx => .inl ⟨l, by simpa using hx⟩) (s' := s') (by rw [← hr]) (by rw [← hr]) (by rw [← hr])
    exact ⟨ph, jphase_mark (.inl ⟨l, rfl⟩) a, fun r => by rw [b, value_mark (.inl ⟨l, rfl⟩)]⟩
  | setLineno l =>
    simp only [ToSt.step, Except.ok.injEq] at hr
    obtain ⟨a, b⟩ := jmark h (y := [.setLineno l]) (fun x hx => .inr ⟨l, by simpa using hx⟩) (s' := s') (by rw [← hr]) (by rw [← hr]) (by rw [← hr])
    exact ⟨ph, jphase_mark (.inr ⟨l, rfl⟩) a, fun r => by rw [b, value_mark (.inr ⟨l, rfl⟩)]⟩
  | instr i =>
    simp only [ToSt.step, Except.ok.injEq] at hr
    have h1 : s'.out = s.out ++ [.instr i] := by rw [← hr]
    have h2 : s'.tries = s.tries := by rw [← hr]
    have h3 : s'.lastTE = none := by rw [← hr]
    have e1 : stW nextId none (g ++ [.instr i]) = stW nextId none g := by rw [stW_snoc]; rfl
    have e2 : stW nextS none s'.out = stW nextS none s.out := by rw [h1, stW_snoc]; rfl
    have hids : ∀ v, BElem.tryBegin v ∈ s'.out → v.id ∈ begins (g ++ [.instr i]) := by
      intro v hv
      rw [h1] at hv
      rcases List.mem_append.1 hv with hv | hv
      · exact hg _ (h.ids v hv)
      · simp at hv
    have hp := h.phase
    cases ph with
    | out =>
      refine ⟨.out, ⟨hids, ?_⟩, fun r => ?_⟩
      · exact ⟨by rw [e1]; exact hp.1, h3, by rw [e2]; exact hp.2.2⟩
      · simp only [Ph.value]
        rw [h1, guardsD_snoc_none, hp.2.2]
        simp [guardsD, gD, guardsJ]
    | inside t bid b =>
      obtain ⟨hp1, hp2, hp3⟩ := hp
      refine ⟨.inside t bid b, ⟨hids, ⟨by rw [e1]; exact hp1, by rw [h2]; exact hp2, ?_⟩⟩, fun r => ?_⟩
      · rw [e2, h1]
        exact written_mono hp3 (by simp)
      · simp only [Ph.value]
        have hj : joinedDepth b t true (.instr i :: r) = joinedDepth b t true r := by simp only [joinedDepth]
        rw [hj, h1, setTryDepth_append]
        have hs : setTryDepth bid (joinedDepth b t true r) [BElem.instr i] = [.instr i] := rfl
        rw [hs, guardsD_snoc_none]
        have := stW_setTryDepth bid (joinedDepth b t true r) s.out none
        simp only [Option.map_none] at this
        obtain ⟨u, u1, u2, u3, u4, _⟩ := hp3
        rw [this, u1]
        simp [guardsD, gD, guardsJ, reD, u2, u3, u4]
    | after t bid b =>
      obtain ⟨hp1, x, y, hp2, hp3, hp4, hp5⟩ := hp
      have e3 : stW nextS none s.out = none := by
        rw [hp3, stW_append]
        show stW nextS none y = none
        exact stW_markOnly hp4 none
      refine ⟨.out, ⟨hids, ⟨by rw [e1]; exact hp1, h3, by rw [e2]; exact e3⟩⟩, fun r => ?_⟩
      simp only [Ph.value]
      have hj : joinedDepth b t false (.instr i :: r) = depthAt b t := by simp only [joinedDepth]
      rw [hj, value_done hp5, h1, guardsD_snoc_none, e3]
      simp [guardsD, gD, guardsJ]
  | tryEnd id =>
    have hp := h.phase
    simp only [ToSt.step] at hr
    split at hr
    · rename_i hs
      simp only [Except.ok.injEq] at hr
      subst hr
      have hm := (k.seen id).1 hs
      have hno : ∀ u, stW nextId none g = some u → u.id ≠ id := fun u hu => ended_not_open hog.nodup hog.bef hm hu
      have e1 : stW nextId none (g ++ [.tryEnd id]) = stW nextId none g := by
        rw [stW_snoc]
        show (if (stW nextId none g).map (·.id) = some id then none else stW nextId none g) = _
        rw [if_neg]
        intro hh
        cases hst : stW nextId none g with
        | none => rw [hst] at hh; cases hh
        | some u =>
          rw [hst] at hh
          exact hno u hst (by simpa using hh)
      refine ⟨ph, ⟨fun v hv => hg _ (h.ids v hv), by rw [e1]; exact hp⟩, fun r => ?_⟩
      cases ph with
      | out => rfl
      | inside t bid b =>
        have hne := hno t hp.1
        have hj : joinedDepth b t true (.tryEnd id :: r) = joinedDepth b t true r := by simp [joinedDepth, hne]
        simp only [Ph.value, hj, guardsJ, if_neg hne]
      | after t bid b => rfl
    · rename_i hs
      have hm : BElem.tryEnd id ∉ g := fun hh => hs ((k.seen id).2 hh)
      have hop := open_of_begun hog.tidy (.inl (ho.bef g id [] rfl).1) hm
      have e1 : stW nextId none (g ++ [.tryEnd id]) = none := by
        rw [stW_snoc]
        show (if (stW nextId none g).map (·.id) = some id then none else stW nextId none g) = _
        rw [if_pos hop]
      cases ph with
      | out => rw [hp.1] at hop; cases hop
      | after t bid b => rw [hp.1] at hop; cases hop
      | inside t bid b =>
        obtain ⟨hp1, hp2, hp3⟩ := hp
        rw [hp1] at hop
        simp only [Option.map_some, Option.some.injEq] at hop
        rw [← hop] at hr
        rw [hp2] at hr
        simp only [Except.ok.injEq] at hr
        have h1 : s'.out = s.out ++ [.tryEnd bid] := by rw [← hr]
        have h3 : s'.lastTE = some (t, bid, some s.out.length) := by rw [← hr]
        refine ⟨.after t bid b, ⟨?_, ?_⟩, fun r => ?_⟩
        · intro v hv
          rw [h1] at hv
          rcases List.mem_append.1 hv with hv | hv
          · exact hg _ (h.ids v hv)
          · simp at hv
        · refine ⟨e1, s.out, [], h3, h1, (fun x hx => by cases hx), ?_⟩
          rw [h1]
          exact written_mono hp3 (by simp)
        · have hj : joinedDepth b t true (.tryEnd id :: r) = joinedDepth b t false r := by simp [joinedDepth, hop]
          simp only [Ph.value, hj, guardsJ, if_pos hop]
          rw [h1, setTryDepth_append]
          have hs : setTryDepth bid (joinedDepth b t false r) [BElem.tryEnd bid] = [.tryEnd bid] := rfl
          rw [hs, guardsD_snoc_none]
          simp [guardsD]
  | tryBegin t =>
    have hp := h.phase
    have ht : stW nextId none g = none := ((tidy_append _ _ _).1 ho.tidy).2.1 t rfl
    have hn : s.nested t = .ok s := by
      unfold ToSt.nested
      rw [k.tb ht]
    have hnew : t.id ∉ begins g := by
      have := ho.nodup
      rw [begins_append, List.nodup_append] at this
      intro hm
      exact this.2.2 t.id hm t.id (by simp [begins]) rfl
    have e1 : stW nextId none (g ++ [.tryBegin t]) = some t := by rw [stW_snoc]; rfl
    have hfresh : JInv (s.freshTry t) (g ++ [.tryBegin t]) (.inside t t.id none) ∧ ∀ r, (Ph.inside t t.id none).value (s.freshTry t).out r =
        guardsD none s.out ++ guardsJ (.inside t (joinedDepth none t true r)) r := by
      refine ⟨⟨?_, e1, by simp [ToSt.freshTry, upd], ?_⟩, fun r => ?_⟩
      · intro v hv
        rw [begins_append]
        rcases List.mem_append.1 hv with hv | hv
        · exact List.mem_append.2 (.inl (h.ids v hv))
        · simp only [List.mem_singleton, BElem.tryBegin.injEq] at hv
          rw [hv]; simp [begins]
      · refine ⟨t, by simp only [ToSt.freshTry]; rw [stW_snoc]; rfl, rfl, rfl, rfl, rfl, fun v hv hid => ?_⟩
        rcases List.mem_append.1 hv with hv | hv
        · exact absurd (hid ▸ h.ids v hv) hnew
        · simp only [List.mem_singleton, BElem.tryBegin.injEq] at hv
          rw [hv]; rfl
      · simp only [Ph.value, ToSt.freshTry, setTryDepth_append]
        rw [setTryDepth_same (id := t.id) (a := s.out) (fun v hv hid => absurd (hid ▸ h.ids v hv) hnew)]
        congr 1
        have : setTryDepth t.id (joinedDepth none t true r) [BElem.tryBegin t] = [.tryBegin { t with depth := joinedDepth none t true r }] := by
          simp [setTryDepth]
        rw [this, guardsD_snoc_none]
        simp [guardsD]
    simp only [ToSt.step, hn] at hr
    change (match s.lastTE with
      | some (entry, bid, pos) => if entry.target = t.target ∧ entry.lasti = t.lasti then s.fuse t entry bid pos else pure (s.freshTry t)
      | none => pure (s.freshTry t)) = Except.ok s' at hr
    cases ph with
    | inside u bid b => rw [hp.1] at ht; cases ht
    | out =>
      rw [hp.2.1] at hr
      simp only [pure, Except.pure, Except.ok.injEq] at hr
      subst hr
      exact ⟨_, hfresh.1, fun r => by rw [hfresh.2]; rfl⟩
    | after u bid b =>
      obtain ⟨hp1, x, y, hp2, hp3, hp4, hp5⟩ := hp
      rw [hp2] at hr
      simp only at hr
      split at hr
      · rename_i hc
        unfold ToSt.fuse at hr
        obtain ⟨d, hd', hr⟩ := except_bind_ok hr
        simp only [Except.ok.injEq] at hr
        have hd := fused_lower hd'
        obtain ⟨w, w1, w2, w3, w4, w5, w6⟩ := hp5
        have hout : s'.out = setTryDepth bid d x ++ y := by
          rw [← hr, hp3, setTryDepth_append]
          have : setTryDepth bid d (BElem.tryEnd bid :: y) = .tryEnd bid :: y := by
            show BElem.tryEnd bid :: setTryDepth bid d y = _
            rw [setTryDepth_marks hp4]
          rw [this]
          simp only
          rw [List.eraseIdx_append_of_length_le (by simp [setTryDepth])]
          simp [setTryDepth]
        have hstx : stW nextS none (setTryDepth bid d x) = some { w with depth := d } := by
          have := stW_setTryDepth bid d x none
          simp only [Option.map_none] at this
          rw [this, w1]
          simp [reD, w2]
        refine ⟨.inside t bid (some u.depth), ⟨?_, e1, ?_, ?_⟩, fun r => ?_⟩
        · intro v hv
          rw [hout] at hv
          rcases List.mem_append.1 hv with hv | hv
          · obtain ⟨z, z1, z2, _⟩ := mem_setTryDepth hv
            rw [← z2]
            exact hg _ (h.ids z (by rw [hp3]; simp [z1]))
          · exact absurd hv (marks_noTry hp4 v)
        · rw [← hr]; simp [upd]
        · refine ⟨{ w with depth := d }, ?_, w2, ?_, ?_, ?_, fun v hv hid => ?_⟩
          · rw [hout, stW_append, hstx, stW_markOnly hp4]
          · show w.target = t.target
            rw [w3]; exact hc.1
          · show w.lasti = t.lasti
            rw [w4]; exact hc.2
          · exact hd
          · rw [hout] at hv
            rcases List.mem_append.1 hv with hv | hv
            · obtain ⟨z, z1, z2, _, _, z5⟩ := mem_setTryDepth hv
              rw [z5, if_pos (by rw [z2]; exact hid), hd]; rfl
            · exact absurd hv (marks_noTry hp4 v)
        · have hj : joinedDepth b u false (.tryBegin t :: r) = joinedDepth (some u.depth) t true r := by
            simp only [joinedDepth, if_pos (show sameHandler u t from hc)]
          simp only [Ph.value, hj, guardsJ, if_pos (show sameHandler u t from hc)]
          congr 1
          rw [hout, hp3, setTryDepth_append, setTryDepth_append, setTryDepth_twice, setTryDepth_marks hp4]
          generalize joinedDepth (some u.depth) t true r = d2
          have e5 : setTryDepth bid d2 (BElem.tryEnd bid :: y) = .tryEnd bid :: y := by
            show BElem.tryEnd bid :: setTryDepth bid d2 y = _
            rw [setTryDepth_marks hp4]
          rw [e5]
          have g1 := guardsD_append (setTryDepth bid d2 x) none y
          have g2 := guardsD_append (setTryDepth bid d2 x) none (.tryEnd bid :: y)
          simp only [gD, Option.map_none] at g1 g2
          rw [g1, g2]
          simp only [guardsD, guardsD_marks hp4]
      · rename_i hc
        simp only [pure, Except.pure, Except.ok.injEq] at hr
        subst hr
        refine ⟨_, hfresh.1, fun r => ?_⟩
        rw [hfresh.2]
        have hj : joinedDepth b u false (.tryBegin t :: r) = depthAt b u := by
          simp only [joinedDepth, if_neg (show ¬ sameHandler u t from hc)]
        simp only [Ph.value, hj, guardsJ, if_neg (show ¬ sameHandler u t from hc)]
        rw [value_done hp5]

theorem jrun (es : List BElem) : ∀ {s s' : ToSt} {g : List BElem} {ph : Ph}, KInv s g → JInv s g ph → Ordered (g ++ es) → s.run es = .ok s' →
    ∃ ph', JInv s' (g ++ es) ph' ∧ ∀ r, ph'.value s'.out r = ph.value s.out (es ++ r) := by
  induction es with
  | nil =>
    intro s s' g ph _ h _ hr
    simp only [ToSt.run, Except.ok.injEq] at hr
    subst hr
    rw [List.append_nil]; exact ⟨ph, h, fun _ => rfl⟩
  | cons e r ih =>
    intro s s' g ph k h ho hr
    unfold ToSt.run at hr
    obtain ⟨s1, h1, hr⟩ := except_bind_ok hr
    have e0 : g ++ e :: r = (g ++ [e]) ++ r := by simp
    rw [e0] at ho ⊢
    obtain ⟨p1, a1, a2⟩ := jstep k h (ordered_prefix ho) h1
    obtain ⟨p2, b1, b2⟩ := ih (kstep k (ordered_prefix ho) h1) a1 ho hr
    exact ⟨p2, b1, fun q => by rw [b2, a2]; rfl⟩

theorem jloop {heap : Nat → Blk} {used : List Nat} (bs : List Nat) : ∀ {s s' : ToSt} {g : List BElem} {ph : Ph}, KInv s g → JInv s g ph →
    Ordered (g ++ bs.flatMap (fun b => (heap b).elems)) → toLoop heap used s bs = .ok s' →
    ∃ ph', JInv s' (g ++ bs.flatMap (fun b => (heap b).elems)) ph' ∧ ∀ r, ph'.value s'.out r = ph.value s.out (bs.flatMap (fun b => (heap b).elems) ++ r) := by
  induction bs with
  | nil =>
    intro s s' g ph _ h _ hr
    simp only [toLoop, Except.ok.injEq] at hr
    subst hr
    rw [List.flatMap_nil, List.append_nil]; exact ⟨ph, h, fun _ => rfl⟩
  | cons b r ih =>
    intro s s' g ph k h ho hr
    unfold toLoop at hr
    obtain ⟨s1, h1, hr⟩ := except_bind_ok hr
    have k0 : KInv (if b ∈ used then { s with out := s.out ++ [.label b] } else s) g := by
      split
      · exact k.plain (fun x hx => .inl ⟨b, by simpa using hx⟩)
      · exact k
    have h0 : JInv (if b ∈ used then { s with out := s.out ++ [.label b] } else s) g ph ∧
        ∀ r, ph.value (if b ∈ used then { s with out := s.out ++ [.label b] } else s).out r = ph.value s.out r := by
      split
      · exact jmark h (y := [.label b]) (fun x hx => .inl ⟨b, by simpa using hx⟩) rfl rfl rfl
      · exact ⟨h, fun _ => rfl⟩
    rw [List.flatMap_cons, ← List.append_assoc] at ho ⊢
    obtain ⟨p1, a1, a2⟩ := jrun _ k0 h0.1 (ordered_prefix ho) h1
    obtain ⟨p2, b1, b2⟩ := ih (krun _ k0 (ordered_prefix ho) h1) a1 ho hr
    exact ⟨p2, b1, fun q => by rw [b2, a2, h0.2, List.append_assoc]⟩

/-- The handlers written by the loop. -/
theorem joined_out {heap : Nat → Blk} {used bs : List Nat} {s : ToSt} (ho : Ordered (bs.flatMap (fun b => (heap b).elems)))
    (h : toLoop heap used ⟨[], fun _ => none, [], none, none⟩ bs = .ok s) : guardsD none s.out = guardsJ .out (bs.flatMap (fun b => (heap b).elems)) := by
  obtain ⟨ph, h1, h2⟩ := jloop bs kInv_init (ph := .out) ⟨(fun v h => by cases h), rfl, rfl, rfl⟩ (by rw [List.nil_append]; exact ho) h
  have h2 := h2 []
  rw [List.append_nil] at h2
  have hv : ph.value s.out [] = guardsD none s.out := by
    have hp := h1.phase
    cases ph with
    | out => simp [Ph.value, guardsJ]
    | inside t bid b =>
      simp only [Ph.value, joinedDepth, guardsJ, List.append_nil]
      rw [value_done hp.2.2]
    | after t bid b =>
      obtain ⟨_, x, y, _, _, _, hp5⟩ := hp
      simp only [Ph.value, joinedDepth, guardsJ, List.append_nil]
      rw [value_done hp5]
  rw [← hv, h2]
  rfl

theorem guardsD_toLabel {labelled : List Nat} {es es' : List BElem} (h : es.mapM (toLabelElem labelled) = .ok es') :
    ∀ c, guardsD c es' = guardsD c es ∧ ∀ t, BElem.tryBegin t ∈ es → t.target ∈ labelled := by
  induction es generalizing es' with
  | nil =>
    simp only [List.mapM_nil, pure, Except.pure, Except.ok.injEq] at h
    subst h; intro c; exact ⟨rfl, by simp⟩
  | cons x r ih =>
    rw [List.mapM_cons] at h
    obtain ⟨y, hy, h⟩ := except_bind_ok h
    obtain ⟨ys, hys, h⟩ := except_bind_ok h
    simp only [pure, Except.pure, Except.ok.injEq] at h
    subst h
    intro c
    have ih := ih hys
    cases x with
    | instr i =>
      simp only [toLabelElem] at hy
      have : ∃ j, y = .instr j := by
        split at hy
        · split at hy
          · exact ⟨_, (Except.ok.inj hy).symm⟩
          · cases hy
        · exact ⟨_, (Except.ok.inj hy).symm⟩
      obtain ⟨j, rfl⟩ := this
      exact ⟨by simp only [guardsD, (ih c).1], by simpa using (ih c).2⟩
    | tryBegin t =>
      simp only [toLabelElem] at hy
      split at hy
      · rename_i hl
        cases hy
        refine ⟨by simp only [guardsD, (ih _).1], fun u hu => ?_⟩
        rcases List.mem_cons.1 hu with hu | hu
        · cases hu; exact hl
        · exact (ih c).2 u hu
      · cases hy
    | tryEnd id => cases hy; exact ⟨by simp only [guardsD, (ih _).1], by simpa using (ih c).2⟩
    | label id => cases hy; exact ⟨by simp only [guardsD, (ih _).1], by simpa using (ih c).2⟩
    | setLineno id => cases hy; exact ⟨by simp only [guardsD, (ih _).1], by simpa using (ih c).2⟩

theorem guardsD_target {es : List BElem} {c : Option (Nat × Bool × Option Nat)} {g : Nat × Bool × Option Nat} (h : some g ∈ guardsD c es) :
    c = some g ∨ ∃ t, BElem.tryBegin t ∈ es ∧ t.target = g.1 := by
  induction es generalizing c with
  | nil => cases h
  | cons x r ih =>
    cases x with
    | instr i =>
      simp only [guardsD, List.mem_cons] at h
      rcases h with h | h
      · exact .inl h.symm
      · rcases ih h with h | ⟨t, ht, e⟩
        · exact .inl h
        · exact .inr ⟨t, by simp [ht], e⟩
    | tryBegin t =>
      rcases ih h with h | ⟨u, hu, e⟩
      · refine .inr ⟨t, by simp, ?_⟩
        cases h; rfl
      · exact .inr ⟨u, by simp [hu], e⟩
    | tryEnd id =>
      rcases ih h with h | ⟨u, hu, e⟩
      · cases h
      · exact .inr ⟨u, by simp [hu], e⟩
    | label l =>
      rcases ih h with h | ⟨u, hu, e⟩
      · exact .inl h
      · exact .inr ⟨u, by simp [hu], e⟩
    | setLineno l =>
      rcases ih h with h | ⟨u, hu, e⟩
      · exact .inl h
      · exact .inr ⟨u, by simp [hu], e⟩

/-- What `to_bytecode` does to the regions, with their depths, exactly. -/
theorem to_joined {P : Platform} {c : CFG} {bc : Bytecode} (hnd : c.blocks.Nodup) (ho : Ordered (allCode c))
    (h : c.toBytecode P = .ok bc) : handlersD bc = handlersJ c := by
  unfold CFG.toBytecode at h
  obtain ⟨used, hu, h⟩ := except_bind_ok h
  obtain ⟨s, hs, h⟩ := except_bind_ok h
  obtain ⟨es, hes, h⟩ := except_bind_ok h
  simp only [pure, Except.pure, Except.ok.injEq] at h
  have hinit : TInv ⟨[], fun _ => none, [], none, none⟩ [] := ⟨rfl, fun t b p hp => by cases hp⟩
  have inv := toLoop_ok c.blocks hinit hs
  rw [List.nil_append] at inv
  have hno : ∀ k ∈ c.blocks, ∀ l, BElem.label l ∉ (c.heap k).elems := fun k hk => blkIter_noLabel (usedBlocks_iter hu k hk)
  have hlab : ∀ b, b ∈ used → labelAt b s.out = blockAt c.heap b c.blocks := by
    intro b hb
    rw [← labelAt_skel, inv.skel]
    exact labelAt_skelOf hb hnd hno
  have e3 : ∀ l, labelAt l es = labelAt l s.out := labelAt_toLabel hes
  obtain ⟨w1, w2⟩ := guardsD_toLabel hes none
  have hj := joined_out ho hs
  subst h
  unfold handlersD handlersJ
  show (guardsD none es).map _ = _
  rw [w1, hj]
  apply List.map_congr_left
  intro g hg
  have hg' : g ∈ guardsD none s.out := by rw [hj]; exact hg
  cases g with
  | none => rfl
  | some g =>
    simp only [Option.map_some, Option.some.injEq, Prod.mk.injEq, and_true]
    rcases guardsD_target hg' with h | ⟨t, ht, htg⟩
    · cases h
    · rw [e3, ← htg]
      exact hlab _ (of_decide_eq_true (List.mem_filter.1 (w2 t ht)).2)

end Verif
