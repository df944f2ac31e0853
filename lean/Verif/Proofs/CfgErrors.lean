import Verif.Spec.GraphErrors
import Verif.Proofs.CfgTotal
import Verif.Proofs.ErrorsB
/-
The exceptions of `from_bytecode` (C78): an invariant of its loop, and what is wrong at each place that raises.
-/
namespace Verif
open Spec

/-- What the loop knows of the elements it has seen. -/
structure EInv (pre : List BElem) (s : FromSt) : Prop where
  act : ∀ t, s.active = some t → (s.tries t.id).isSome = true
  opened : s.active.isSome = true → ∃ pre' t mid, pre = pre' ++ .tryBegin t :: mid ∧ ∀ id, .tryEnd id ∉ mid
  closed : s.active = none → ∀ pre' t mid, pre = pre' ++ .tryBegin t :: mid → ∃ id, .tryEnd id ∈ mid
  tries : ∀ t, .tryBegin t ∈ pre → (s.tries t.id).isSome = true

/-- `last` is the element before, or the current block is new. -/
def LastInv (pre : List BElem) (s : FromSt) : Prop := ∀ i, s.last = some i → .instr i ∈ pre ∧ (lastInstr s.cur.elems = none ∨ ∃ pre', pre = pre' ++ [.instr i])

theorem EInv.same {pre : List BElem} {s s' : FromSt} (h : EInv pre s) (h1 : s'.active = s.active) (h2 : ∀ x, (s.tries x).isSome = true → (s'.tries x).isSome = true) : EInv pre s' :=
  ⟨fun t ht => h2 _ (h.act t (by rw [← h1]; exact ht)), fun ht => h.opened (by rw [← h1]; exact ht), fun ht => h.closed (by rw [← h1]; exact ht),
    fun t ht => h2 _ (h.tries t ht)⟩

theorem split_snoc {pre pre' mid : List BElem} {e x : BElem} (h : pre ++ [e] = pre' ++ x :: mid) (hx : x ≠ e) : ∃ mid', mid = mid' ++ [e] ∧ pre = pre' ++ x :: mid' := by
  rcases List.eq_nil_or_concat mid with rfl | ⟨m, y, rfl⟩
  · have h : pre ++ [e] = pre' ++ [x] := h
    have := (List.append_inj' h rfl).2
    simp only [List.cons.injEq, and_true] at this
    exact absurd this.symm hx
  · have h : pre ++ [e] = (pre' ++ x :: m) ++ [y] := by rw [h]; simp
    obtain ⟨h1, h2⟩ := List.append_inj' h rfl
    simp only [List.cons.injEq, and_true] at h2
    subst h2
    exact ⟨m, by simp, h1⟩

theorem EInv.snoc {pre : List BElem} {s : FromSt} {e : BElem} (h : EInv pre s) (h1 : ∀ t, e ≠ .tryBegin t) (h2 : ∀ id, e ≠ .tryEnd id) : EInv (pre ++ [e]) s := by
  refine ⟨h.act, fun ht => ?_, fun ht pre' t mid he => ?_, fun t ht => ?_⟩
  · obtain ⟨pre', t, mid, hp, hm⟩ := h.opened ht
    refine ⟨pre', t, mid ++ [e], by rw [hp]; simp, fun id hid => ?_⟩
    rcases List.mem_append.1 hid with hid | hid
    · exact hm id hid
    · exact h2 id (List.mem_singleton.1 hid).symm
  · obtain ⟨mid', rfl, hp⟩ := split_snoc he (fun hx => h1 t hx.symm)
    obtain ⟨id, hid⟩ := h.closed ht pre' t mid' hp
    exact ⟨id, by simp [hid]⟩
  · rcases List.mem_append.1 ht with ht | ht
    · exact h.tries t ht
    · exact absurd (List.mem_singleton.1 ht).symm (h1 t)

theorem EInv.ended {pre : List BElem} {s : FromSt} {id : Nat} (h : EInv pre s) {s' : FromSt} (ha : s'.active = none)
    (h2 : ∀ x, (s.tries x).isSome = true → (s'.tries x).isSome = true) : EInv (pre ++ [.tryEnd id]) s' := by
  refine ⟨(by rw [ha]; intro t ht; cases ht), (by rw [ha]; intro ht; cases ht), fun _ pre' t mid he => ?_, fun t ht => ?_⟩
  · obtain ⟨mid', rfl, hp⟩ := split_snoc he (by simp)
    exact ⟨id, by simp⟩
  · rcases List.mem_append.1 ht with ht | ht
    · exact h2 _ (h.tries t ht)
    · cases List.mem_singleton.1 ht

theorem EInv.begun {pre : List BElem} {s : FromSt} {t : TryB} (h : EInv pre s) {s' : FromSt} (ha : s'.active = some t)
    {n : Nat} (h2 : s'.tries = upd s.tries t.id (some n)) : EInv (pre ++ [.tryBegin t]) s' := by
  have h3 : ∀ x, (s.tries x).isSome = true → (s'.tries x).isSome = true := by
    intro x hx; rw [h2]; unfold upd; split <;> simp [*]
  have h4 : (s'.tries t.id).isSome = true := by rw [h2]; simp [upd]
  refine ⟨?_, fun _ => ⟨pre, t, [], rfl, by simp⟩, (by rw [ha]; intro ht; cases ht), fun u hu => ?_⟩
  · intro u hu; rw [ha] at hu; cases hu; exact h4
  · rcases List.mem_append.1 hu with hu | hu
    · exact h3 _ (h.tries u hu)
    · cases List.mem_singleton.1 hu; exact h4

/-- The element itself: what it raises, and what is known afterwards. -/
theorem copyElem_inv {pre : List BElem} {s s' : FromSt} {e : BElem} (h : EInv pre s) (hr : s.copyElem e = .ok s') : EInv (pre ++ [e]) s' ∧ LastInv (pre ++ [e]) s' := by
  cases e with
  | label l =>
    simp only [FromSt.copyElem, Except.ok.injEq] at hr
    subst hr
    exact ⟨EInv.snoc (h.same rfl fun _ hx => hx) (fun _ hx => by cases hx) (fun _ hx => by cases hx), fun i hi => by cases hi⟩
  | setLineno l =>
    simp only [FromSt.copyElem, Except.ok.injEq] at hr
    subst hr
    exact ⟨EInv.snoc (h.same rfl fun _ hx => hx) (fun _ hx => by cases hx) (fun _ hx => by cases hx), fun i hi => by cases hi⟩
  | instr l =>
    simp only [FromSt.copyElem, Except.ok.injEq] at hr
    subst hr
    exact ⟨EInv.snoc (h.same rfl fun _ hx => hx) (fun _ hx => by cases hx) (fun _ hx => by cases hx), fun i hi => by cases hi; exact ⟨by simp, .inr ⟨pre, rfl⟩⟩⟩
  | tryBegin l =>
    simp only [FromSt.copyElem] at hr
    split at hr
    · cases hr
    · simp only [Except.ok.injEq] at hr
      subst hr
      exact ⟨h.begun rfl (n := s.ids) rfl, fun i hi => by cases hi⟩
  | tryEnd id =>
    simp only [FromSt.copyElem] at hr
    split at hr
    · cases hr
    · simp only [Except.ok.injEq] at hr
      subst hr
      exact ⟨h.ended rfl fun _ hx => hx, fun i hi => by cases hi⟩

theorem copyElem_err {b : Bytecode} {P : Platform} {pre post : List BElem} {s : FromSt} {e : BElem} {x : PyErr} (h : EInv pre s)
    (hn : ∀ pre t mid t' post, b.elems = pre ++ .tryBegin t :: mid ++ .tryBegin t' :: post → ∃ id, .tryEnd id ∈ mid) (he : b.elems = pre ++ e :: post)
    (hr : s.copyElem e = .error x) : WrongFlow P b x := by
  cases e with
  | label l => cases hr
  | setLineno l => cases hr
  | instr l => cases hr
  | tryBegin l =>
    simp only [FromSt.copyElem] at hr
    split at hr
    · rename_i ha
      obtain ⟨pre', t, mid, hp, hm⟩ := h.opened ha
      obtain ⟨id, hid⟩ := hn pre' t mid l post (by rw [he, hp])
      exact absurd hid (hm id)
    · cases hr
  | tryEnd id =>
    simp only [FromSt.copyElem] at hr
    split at hr
    · rename_i hid
      cases hr
      refine .end_ he (fun t ht e => ?_)
      have := h.tries t ht
      rw [e, hid] at this
      cases this
    · cases hr

theorem leave_err {b : Bytecode} {P : Platform} {s : FromSt} {i : Instr} {t : TryB} {nid : Nat} {x : PyErr} (hv : ArgOK P i.opcode i.arg)
    (hi : .instr i ∈ b.elems) (hl : ∀ l, i.arg = .label l → ∃ k, labelIndex l b.elems = some k) (ht : .tryBegin t ∈ b.elems)
    (hr : s.leave P b.elems i t nid = .error x) : WrongFlow P b x := by
  unfold FromSt.leave at hr
  split at hr
  · rename_i hj _
    split at hr
    · rename_i l ha
      obtain ⟨k, hk⟩ := hl l ha
      rw [hk] at hr
      cases hr
    · rename_i ha
      cases hr
      rcases hv.jump hj with ⟨l, hl⟩ | ⟨k, hk⟩
      · exact absurd hl (ha l)
      · exact .blockTry hi hj hk ht
  · cases hr

theorem enter_same {P : Platform} {s s' : FromSt} {k : Nat} {st o : Bool} {e : BElem} (hr : s.enter P k st e = .ok (s', o)) :
    s'.active = s.active ∧ s'.tries = s.tries ∧ s'.last = s.last ∧ (s'.cur = s.cur ∨ s'.cur.elems = []) ∧ (o = true → s'.cur.elems = [] ∧ lastInstr s.cur.elems ≠ none) := by
  unfold FromSt.enter at hr
  split at hr
  · dsimp only at hr
    repeat' split at hr
    all_goals
      simp only [Except.ok.injEq, Prod.mk.injEq] at hr
      obtain ⟨rfl, rfl⟩ := hr
      simp_all [FromSt.open_]
  · repeat' split at hr
    all_goals first
      | (cases hr; done)
      | (simp only [Except.ok.injEq, Prod.mk.injEq] at hr
         obtain ⟨rfl, rfl⟩ := hr
         simp_all [FromSt.open_])

theorem enter_err {b : Bytecode} {P : Platform} {s : FromSt} {k : Nat} {st : Bool} {e : BElem} {x : PyErr} (hv : ∀ i, .instr i ∈ b.elems → ArgOK P i.opcode i.arg)
    (hs : ∀ i, s.last = some i → .instr i ∈ b.elems) (hr : s.enter P k st e = .error x) : WrongFlow P b x := by
  unfold FromSt.enter at hr
  split at hr
  · dsimp only at hr
    repeat' split at hr
    all_goals cases hr
  · split at hr
    · rename_i i _ hi
      split at hr
      · cases hr
      · split at hr
        · rename_i hj
          split at hr
          · cases hr
          · rename_i ha
            cases hr
            rcases (hv i (hs i hi)).jump hj with ⟨l, hl⟩ | ⟨k, hk⟩
            · exact absurd hl (ha l)
            · exact .block (hs i hi) hj hk
        · cases hr
    · cases hr

theorem leave_fields {P : Platform} {es : List BElem} {s s' : FromSt} {i : Instr} {t : TryB} {nid : Nat} (hr : s.leave P es i t nid = .ok s') :
    s'.active = s.active ∧ s'.tries = s.tries := by
  unfold FromSt.leave at hr
  split at hr
  · split at hr
    · split at hr
      · split at hr
        all_goals
          simp only [Except.ok.injEq] at hr
          subst hr; exact ⟨rfl, rfl⟩
      · cases hr
    · cases hr
  · simp only [Except.ok.injEq] at hr
    subst hr; exact ⟨rfl, rfl⟩

theorem bridge_err {P : Platform} {es : List BElem} {s : FromSt} {temp : Bool} {i : Instr} {e : BElem} {x : PyErr} (hr : s.bridge P es temp i e = .error x) :
    (x = .assertionError ∧ isFinal i.name = true ∧ s.active = none ∧ ∃ id, e = .tryEnd id) ∨ (∃ t, s.active = some t ∧ s.tries t.id = none) ∨
      ∃ t nid, s.active = some t ∧ s.leave P es i t nid = .error x := by
  unfold FromSt.bridge at hr
  split at hr
  · rename_i id h1 h2
    cases hr
    exact .inl ⟨rfl, h1, h2, id, rfl⟩
  · rename_i id t h1 h2
    split at hr
    · cases hr
    · rename_i h3
      exact .inr (.inl ⟨t, h2, h3⟩)
  · rename_i t h1 h2
    split at hr
    · rename_i h3
      exact .inr (.inl ⟨t, h1, h3⟩)
    · rename_i nid h3
      rcases except_bind_err hr with hr | ⟨s3, _, hr⟩
      · exact .inr (.inr ⟨t, nid, h1, hr⟩)
      · split at hr <;> cases hr
  · cases hr

theorem bridge_fields {P : Platform} {es : List BElem} {s s' : FromSt} {temp d : Bool} {i : Instr} {e : BElem} (hr : s.bridge P es temp i e = .ok (s', d)) :
    (d = true → s'.active = none ∧ s'.tries = s.tries ∧ s'.cur = s.cur ∧ s'.last = s.last ∧ ∃ id, e = .tryEnd id) ∧
      (d = false → s'.active = s.active ∧ ∀ y, (s.tries y).isSome = true → (s'.tries y).isSome = true) := by
  unfold FromSt.bridge at hr
  split at hr
  · cases hr
  · split at hr
    · simp only [Except.ok.injEq, Prod.mk.injEq] at hr
      obtain ⟨rfl, rfl⟩ := hr
      exact ⟨fun _ => ⟨rfl, rfl, rfl, rfl, _, rfl⟩, fun h => by cases h⟩
    · cases hr
  · split at hr
    · cases hr
    · obtain ⟨s3, h3, hr⟩ := except_bind_ok hr
      obtain ⟨g1, g2⟩ := leave_fields h3
      split at hr
      · simp only [pure, Except.pure, Except.ok.injEq, Prod.mk.injEq] at hr
        obtain ⟨rfl, rfl⟩ := hr
        refine ⟨(fun h => by cases h), fun _ => ⟨g1, fun y hy => ?_⟩⟩
        simp only [FromSt.push, FromSt.pushOld, upd]
        split
        · rfl
        · rw [g2]; exact hy
      · simp only [pure, Except.pure, Except.ok.injEq, Prod.mk.injEq] at hr
        obtain ⟨rfl, rfl⟩ := hr
        exact ⟨(fun h => by cases h), fun _ => ⟨g1, fun y hy => by rw [g2]; exact hy⟩⟩
  · simp only [Except.ok.injEq, Prod.mk.injEq] at hr
    obtain ⟨rfl, rfl⟩ := hr
    exact ⟨(fun h => by cases h), fun _ => ⟨rfl, fun y hy => hy⟩⟩

/-- One turn. -/
theorem step_err {b : Bytecode} {P : Platform} {pre post : List BElem} {starts : List Nat} {s : FromSt} {k : Nat} {e : BElem} {x : PyErr}
    (hv : ∀ i, .instr i ∈ b.elems → ArgOK P i.opcode i.arg) (hl : ∀ i l, .instr i ∈ b.elems → i.arg = .label l → ∃ k, labelIndex l b.elems = some k)
    (hn : ∀ pre t mid t' post, b.elems = pre ++ .tryBegin t :: mid ++ .tryBegin t' :: post → ∃ id, .tryEnd id ∈ mid)
    (he : b.elems = pre ++ e :: post) (h : EInv pre s) (hlast : LastInv pre s) (hsrc : SrcSt b.elems s)
    (hr : s.step P b.elems starts k e = .error x) : WrongFlow P b x := by
  have hmem : ∀ y ∈ pre, y ∈ b.elems := fun y hy => by rw [he]; simp [hy]
  unfold FromSt.step at hr
  rcases except_bind_err hr with hr | ⟨⟨s1, o⟩, h1, hr⟩
  · exact enter_err hv (fun i hi => hmem _ (hlast i hi).1) hr
  obtain ⟨e1, e2, e3, e4, e5⟩ := enter_same h1
  have hE1 : EInv pre s1 := h.same e1 (fun y hy => by rw [e2]; exact hy)
  simp only at hr
  split at hr
  · rename_i ho
    obtain ⟨e6, e7⟩ := e5 ho
    have hE2 : EInv pre { s1 with inserted := false } := hE1.same rfl (fun y hy => hy)
    split at hr
    · rename_i i hi
      have hi' : s.last = some i := by rw [← e3]; exact hi
      obtain ⟨hm, hp⟩ := hlast i hi'
      rcases except_bind_err hr with hr | ⟨⟨s2, d⟩, h2, hr⟩
      · rcases bridge_err hr with ⟨rfl, hf, ha, id, rfl⟩ | ⟨t, ha, ht⟩ | ⟨t, nid, ha, hr⟩
        · rcases hp with hp | ⟨pre', hp⟩
          · exact absurd hp e7
          · refine .outside (i := i) (pre := pre') (id := id) (post := post) (by rw [he, hp]; simp) hf (fun q t mid hq => ?_)
            have ha' : s.active = none := by rw [← e1]; exact ha
            obtain ⟨id', hid⟩ := h.closed ha' q t (mid ++ [.instr i]) (by rw [hp, hq]; simp)
            refine ⟨id', ?_⟩
            simpa using hid
        · have := hE2.act t ha
          rw [ht] at this
          cases this
        · refine leave_err (hv i (hmem _ hm)) (hmem _ hm) (fun l hl' => hl i l (hmem _ hm) hl') (hsrc.active t ?_) hr
          rw [← e1]; exact ha
      · obtain ⟨g1, g2⟩ := bridge_fields h2
        simp only at hr
        split at hr
        · cases hr
        · rename_i hd
          obtain ⟨g3, g4⟩ := g2 (by simpa using hd)
          exact copyElem_err (hE2.same g3 g4) hn he hr
    · exact copyElem_err hE2 hn he hr
  · exact copyElem_err hE1 hn he hr

theorem step_inv {P : Platform} {es pre : List BElem} {starts : List Nat} {s s' : FromSt} {k : Nat} {e : BElem}
    (h : EInv pre s) (hlast : LastInv pre s) (hr : s.step P es starts k e = .ok s') : EInv (pre ++ [e]) s' ∧ LastInv (pre ++ [e]) s' := by
  unfold FromSt.step at hr
  obtain ⟨⟨s1, o⟩, h1, hr⟩ := except_bind_ok hr
  obtain ⟨e1, e2, e3, e4, e5⟩ := enter_same h1
  have hE1 : EInv pre s1 := h.same e1 (fun y hy => by rw [e2]; exact hy)
  simp only at hr
  split at hr
  · rename_i ho
    obtain ⟨e6, e7⟩ := e5 ho
    have hE2 : EInv pre { s1 with inserted := false } := hE1.same rfl (fun y hy => hy)
    split at hr
    · rename_i i hi
      obtain ⟨⟨s2, d⟩, h2, hr⟩ := except_bind_ok hr
      obtain ⟨g1, g2⟩ := bridge_fields h2
      simp only at hr
      split at hr
      · rename_i hd
        simp only [pure, Except.pure, Except.ok.injEq] at hr
        subst hr
        obtain ⟨g3, g4, g5, g6, id, rfl⟩ := g1 hd
        refine ⟨hE2.ended g3 (fun y hy => by rw [g4]; exact hy), fun j hj => ?_⟩
        have : s.last = some j := by rw [← e3, ← hj, g6]
        refine ⟨by simp [(hlast j this).1], .inl ?_⟩
        rw [g5]
        simp only [e6]
        rfl
      · rename_i hd
        obtain ⟨g3, g4⟩ := g2 (by simpa using hd)
        exact copyElem_inv (hE2.same g3 g4) hr
    · exact copyElem_inv hE2 hr
  · exact copyElem_inv hE1 hr

theorem fromLoop_err {b : Bytecode} {P : Platform} {starts : List Nat} {x : PyErr}
    (hv : ∀ i, .instr i ∈ b.elems → ArgOK P i.opcode i.arg) (hl : ∀ i l, .instr i ∈ b.elems → i.arg = .label l → ∃ k, labelIndex l b.elems = some k)
    (hn : ∀ pre t mid t' post, b.elems = pre ++ .tryBegin t :: mid ++ .tryBegin t' :: post → ∃ id, .tryEnd id ∈ mid) (r : List BElem) :
    ∀ (pre : List BElem) (k : Nat) (s : FromSt), b.elems = pre ++ r → EInv pre s → LastInv pre s → SrcSt b.elems s →
      fromLoop P b.elems starts k s r = .error x → WrongFlow P b x := by
  induction r with
  | nil => intro pre k s _ _ _ _ hr; cases hr
  | cons e r ih =>
    intro pre k s he h hlast hsrc hr
    unfold fromLoop at hr
    rcases except_bind_err hr with hr | ⟨s1, h1, hr⟩
    · exact step_err hv hl hn he h hlast hsrc hr
    · obtain ⟨g1, g2⟩ := step_inv h hlast h1
      exact ih (pre ++ [e]) (k + 1) s1 (by rw [he]; simp) g1 g2 (hsrc.step (by rw [he]; simp) h1) hr

/-- Every exception of `from_bytecode` names a mistake. -/
theorem from_err {b : Bytecode} {P : Platform} {x : PyErr} (hv : ∀ i, .instr i ∈ b.elems → ArgOK P i.opcode i.arg)
    (hr : fromBytecode P b = .error x) : WrongFlow P b x := by
  refine Classical.byContradiction fun hno => ?_
  unfold fromBytecode at hr
  rcases except_bind_err hr with hr | ⟨_, h0, hr⟩
  · have := iter_err _ _ hr
    subst this
    rw [iter_total b.elems false (fun pre t mid t' post he => Classical.byContradiction fun hx => hno (.nested he (fun id hid => hx ⟨id, hid⟩)))
      (fun h => by cases h)] at hr
    cases hr
  have hn : ∀ pre t mid t' post, b.elems = pre ++ .tryBegin t :: mid ++ .tryBegin t' :: post → ∃ id, .tryEnd id ∈ mid := by
    intro pre t mid t' post he
    exact (iter_nested h0).2 pre t mid t' post he
  rcases except_bind_err hr with hr | ⟨starts, h2, hr⟩
  · obtain ⟨l, hl, hr⟩ := mapM_err hr
    obtain ⟨e, he, hl⟩ := List.mem_filterMap.1 hl
    have hx : x = .keyError ∧ .label l ∉ b.elems := by
      cases hk : labelIndex l b.elems with
      | some k => rw [hk] at hr; cases hr
      | none =>
        rw [hk] at hr
        cases hr
        refine ⟨rfl, fun hm => ?_⟩
        obtain ⟨k, hk'⟩ := labelIndex_total hm
        rw [hk] at hk'; cases hk'
    obtain ⟨rfl, hm⟩ := hx
    cases e with
    | instr i =>
      simp only [refLabel] at hl
      split at hl
      · rename_i l' ha
        cases hl
        exact hno (.label he ha hm)
      · cases hl
    | tryBegin t => simp only [refLabel, Option.some.injEq] at hl; subst hl; exact hno (.handler he hm)
    | label l => cases hl
    | setLineno l => cases hl
    | tryEnd l => cases hl
  obtain ⟨st1, st2⟩ := blockStarts_ok h2
  have hst' : ∀ p ∈ starts, ∃ l, b.elems[p]? = some (.label l) := fun p hp => by
    obtain ⟨l, hl⟩ := st1 p hp
    exact ⟨l, (labelIndex_some hl).1⟩
  rcases except_bind_err hr with hr | ⟨s, h3, hr⟩
  · refine hno (fromLoop_err hv (fun i l hi ha => ?_) hn b.elems [] 0 _ rfl ⟨?_, ?_, ?_, ?_⟩ ?_ srcInit hr)
    · obtain ⟨p, _, hp⟩ := st2 _ hi l (by simp [refLabel, ha])
      exact ⟨p, hp⟩
    · intro t ht; cases ht
    · intro ht; cases ht
    · intro _ pre' t mid h; simp at h
    · intro t ht; cases ht
    · intro i hi; cases hi
  have inv := fromLoop_ok hst' b.elems [] _ s (fInv_init P b.elems starts) rfl h3
  have src := srcInit.loop b.elems (fun e he => he) h3
  have lab : ∀ e ∈ b.elems, ∀ l, refLabel e = some l → ∃ k, s.labels l = some k := by
    intro e he l hl
    obtain ⟨p, hp, hpl⟩ := st2 e he l hl
    have := (labelIndex_some hpl).1
    exact inv.labAll p l hp (List.getElem?_eq_some_iff.1 this).1 this
  obtain ⟨bs1, h4⟩ := applyEnds_total (labels := s.labels) s.ends (s.done ++ [s.cur]) (fun x hx => by
    obtain ⟨e, he, hl⟩ := src.ends x hx
    exact lab e he _ hl)
  rcases except_bind_err hr with hr | ⟨bs1', h4', hr⟩
  · rw [h4] at hr; cases hr
  rw [h4] at h4'; cases h4'
  have src1 := applyEnds_src (es := b.elems) _ h4 (by
    intro b' hb
    rcases List.mem_append.1 hb with hb | hb
    · exact src.done b' hb
    · rw [List.mem_singleton] at hb; subst hb; exact src.cur)
  rcases except_bind_err hr with hr | ⟨_, _, hr⟩
  · obtain ⟨b', hb, hr⟩ := mapM_err hr
    rcases except_bind_err hr with hr | ⟨_, _, hr⟩
    · obtain ⟨y, hy, hr⟩ := mapM_err hr
      have := src1 b' hb y hy
      cases y with
      | instr i =>
        simp only [toBlockElem] at hr
        cases ha : i.arg with
        | label l =>
          obtain ⟨k, hk⟩ := lab _ this l (by simp [refLabel, ha])
          simp only [ha, hk] at hr
          cases hr
        | _ => simp only [ha] at hr; cases hr
      | tryBegin t =>
        obtain ⟨t', ht', e, _⟩ := this
        obtain ⟨k, hk⟩ := lab _ ht' t'.target rfl
        rw [e] at hk
        simp only [toBlockElem, hk] at hr
        cases hr
      | label l => cases hr
      | setLineno l => cases hr
      | tryEnd l => cases hr
    · cases hr
  · cases hr

end Verif
