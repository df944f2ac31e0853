import Verif.Proofs.CfgTryTo
/-
The try regions after `from_bytecode` and `to_bytecode`.
-/
namespace Verif
open Spec

theorem guardsG_eq (c : Option TryB) (es : List BElem) : guardsG (c.map (fun t => (t.id, t.target, t.lasti))) es = outW nextId c es := by
  induction es generalizing c with
  | nil => rfl
  | cons e r ih =>
    cases e with
    | tryBegin t => exact ih (some t)
    | label t => exact ih c
    | setLineno t => exact ih c
    | instr i =>
      show _ :: guardsG _ r = gd c :: outW nextId c r
      rw [ih]
      cases c <;> rfl
    | tryEnd id =>
      show guardsG (if _ then none else _) r = outW nextId (if c.map (·.id) = some id then none else c) r
      rw [← ih]
      have : (Option.map (·.1) (c.map (fun t => (t.id, t.target, t.lasti)))) = c.map (·.id) := by cases c <;> rfl
      rw [this]
      split <;> rfl

/-! ### Replacing labels by blocks -/

/-- The marker an element is. -/
def markOf : BElem → Option (Option Bool × Nat)
  | .tryBegin t => some (some true, t.id)
  | .tryEnd id => some (some false, id)
  | .instr _ => some (none, 0)
  | _ => none

theorem count_marks (es : List BElem) : instrCount es = (es.map markOf).countP (fun | some (none, _) => true | _ => false) := by
  unfold instrCount
  rw [List.countP_map]
  congr 1
  funext e
  cases e <;> rfl

theorem begins_marks (es : List BElem) : begins es = (es.map markOf).filterMap (fun | some (some true, n) => some n | _ => none) := by
  unfold begins
  rw [List.filterMap_map]
  congr 1
  funext e
  cases e <;> rfl

theorem tidy_marks {a b : List BElem} (h : a.map markOf = b.map markOf) : ∀ {c c' : Option TryB}, c.map (·.id) = c'.map (·.id) → Tidy c a → Tidy c' b := by
  induction a generalizing b with
  | nil =>
    intro c c' _ _
    cases b with
    | nil => trivial
    | cons y s => cases h
  | cons x r ih =>
    intro c c' hc ht
    cases b with
    | nil => cases h
    | cons y s =>
      simp only [List.map_cons, List.cons.injEq] at h
      refine ⟨?_, ih h.2 (c := nextId c x) ?_ ht.2⟩
      · rintro t rfl
        cases x with
        | tryBegin t' =>
          have := ht.1 t' rfl
          rw [this] at hc
          cases c' with
          | none => rfl
          | some _ => cases hc
        | tryEnd _ => simp [markOf] at h
        | instr _ => simp [markOf] at h
        | label _ => cases h.1
        | setLineno _ => cases h.1
      · cases x <;> cases y <;> first | (exact hc) | (have h1 := h.1; simp [markOf] at h1; done) | skip
        · have h1 := h.1; simp only [markOf, Option.some.injEq, Prod.mk.injEq, true_and] at h1; simp [nextId, h1]
        · have h1 := h.1; simp only [markOf, Option.some.injEq, Prod.mk.injEq, true_and] at h1
          simp only [nextId, h1, hc]
          split
          · rfl
          · exact hc

theorem stW_marks {a b : List BElem} (h : a.map markOf = b.map markOf) : ∀ {c c' : Option TryB}, c.map (·.id) = c'.map (·.id) →
    (stW nextId c a).map (·.id) = (stW nextId c' b).map (·.id) := by
  induction a generalizing b with
  | nil =>
    intro c c' hc
    cases b with
    | nil => exact hc
    | cons y s => cases h
  | cons x r ih =>
    intro c c' hc
    cases b with
    | nil => cases h
    | cons y s =>
      simp only [List.map_cons, List.cons.injEq] at h
      refine ih h.2 (c := nextId c x) (c' := nextId c' y) ?_
      cases x <;> cases y <;> first | (exact hc) | (have h1 := h.1; simp [markOf] at h1; done) | skip
      · have h1 := h.1; simp only [markOf, Option.some.injEq, Prod.mk.injEq, true_and] at h1; simp [nextId, h1]
      · have h1 := h.1; simp only [markOf, Option.some.injEq, Prod.mk.injEq, true_and] at h1
        simp only [nextId, h1, hc]
        split
        · rfl
        · exact hc

theorem ordered_marks {a b : List BElem} (h : a.map markOf = b.map markOf) (ho : Ordered a) : Ordered b := by
  refine ⟨tidy_marks h rfl ho.tidy, ?_, ?_⟩
  · rw [begins_marks, ← h, ← begins_marks]; exact ho.nodup
  · intro x n y hxy
    rw [hxy, List.map_append, List.map_cons] at h
    obtain ⟨x', z, hab, hx, hz⟩ := List.map_eq_append_iff.1 h
    obtain ⟨e, y', rfl, he, hy⟩ := List.map_eq_cons_iff.1 hz
    have : e = .tryEnd n := by
      cases e with
      | tryEnd m => simp only [markOf, Option.some.injEq, Prod.mk.injEq, true_and] at he; rw [he]
      | tryBegin _ => simp [markOf] at he
      | instr _ => simp [markOf] at he
      | _ => cases he
    subst this
    have := ho.bef x' n y' hab
    rw [begins_marks, count_marks, hx, ← begins_marks, ← count_marks] at this
    exact this

/-- Handlers named by labels and the same named by blocks. -/
def RelGd (labels : Nat → Option Nat) : Option (Nat × Bool) → Option (Nat × Bool) → Prop
  | none, none => True
  | some (l, b), some (k, b') => labels l = some k ∧ b = b'
  | _, _ => False

theorem toBlock_walk {labels : Nat → Option Nat} : ∀ {es es' : List BElem}, es.mapM (toBlockElem labels) = .ok es' →
    es.map markOf = es'.map markOf ∧
    ∀ (c c' : Option TryB), c.map (·.id) = c'.map (·.id) → RelGd labels (gd c) (gd c') →
      (outW nextId c es).length = (outW nextId c' es').length ∧
      ∀ (n : Nat) (x y : Option (Nat × Bool)), (outW nextId c es)[n]? = some x → (outW nextId c' es')[n]? = some y → RelGd labels x y := by
  intro es
  induction es with
  | nil =>
    intro es' h
    simp only [List.mapM_nil, pure, Except.pure, Except.ok.injEq] at h
    subst h
    refine ⟨rfl, fun c c' _ _ => ⟨rfl, ?_⟩⟩
    intro n x y hx; simp [outW] at hx
  | cons x r ih =>
    intro es' h
    rw [List.mapM_cons] at h
    obtain ⟨y, hy, h⟩ := except_bind_ok h
    obtain ⟨ys, hys, h⟩ := except_bind_ok h
    simp only [pure, Except.pure, Except.ok.injEq] at h
    subst h
    obtain ⟨i1, i2⟩ := ih hys
    have hm : markOf x = markOf y ∧ x.isInstr = y.isInstr := by
      unfold toBlockElem at hy
      repeat' split at hy
      all_goals first
        | (cases hy; done)
        | (simp only [Except.ok.injEq] at hy; subst hy; exact ⟨rfl, rfl⟩)
    refine ⟨by rw [List.map_cons, List.map_cons, hm.1, i1], ?_⟩
    intro c c' hc hg
    have hnext : (nextId c x).map (·.id) = (nextId c' y).map (·.id) ∧ RelGd labels (gd (nextId c x)) (gd (nextId c' y)) := by
      cases x with
      | tryBegin t =>
        simp only [toBlockElem] at hy
        split at hy
        · rename_i b hb
          simp only [Except.ok.injEq] at hy
          subst hy
          exact ⟨rfl, hb, rfl⟩
        · cases hy
      | tryEnd id =>
        simp only [toBlockElem, Except.ok.injEq] at hy
        subst hy
        simp only [nextId, hc]
        split
        · exact ⟨rfl, trivial⟩
        · exact ⟨hc, hg⟩
      | label l =>
        simp only [toBlockElem, Except.ok.injEq] at hy
        subst hy; exact ⟨hc, hg⟩
      | setLineno l =>
        simp only [toBlockElem, Except.ok.injEq] at hy
        subst hy; exact ⟨hc, hg⟩
      | instr i =>
        cases y with
        | instr _ => exact ⟨hc, hg⟩
        | _ => cases hm.2
    obtain ⟨j1, j2⟩ := i2 _ _ hnext.1 hnext.2
    simp only [outW, hm.2]
    cases y.isInstr
    · simpa using ⟨j1, j2⟩
    · simp only [if_true, List.singleton_append, List.length_cons, j1, true_and]
      intro n a b ha hb
      cases n with
      | zero =>
        simp only [List.getElem?_cons_zero, Option.some.injEq] at ha hb
        subst ha; subst hb; exact hg
      | succ n =>
        simp only [List.getElem?_cons_succ] at ha hb
        exact j2 n a b ha hb

theorem blocks_flat {labels : Nat → Option Nat} : ∀ {bs bs' : List Blk},
    (bs.mapM (fun b => do
      let es ← b.elems.mapM (toBlockElem labels)
      return (⟨es, b.next⟩ : Blk)) : Py (List Blk)) = .ok bs' →
    (bs.flatMap (·.elems)).mapM (toBlockElem labels) = .ok (bs'.flatMap (·.elems)) := by
  intro bs
  induction bs with
  | nil =>
    intro bs' h
    simp only [List.mapM_nil, pure, Except.pure, Except.ok.injEq] at h
    subst h; rfl
  | cons x r ih =>
    intro bs' h
    rw [List.mapM_cons] at h
    obtain ⟨y, hy, h⟩ := except_bind_ok h
    obtain ⟨ys, hys, h⟩ := except_bind_ok h
    simp only [pure, Except.pure, Except.ok.injEq] at h
    subst h
    obtain ⟨es, hes, hy⟩ := except_bind_ok hy
    simp only [pure, Except.pure, Except.ok.injEq] at hy
    subst hy
    rw [List.flatMap_cons, List.flatMap_cons, List.mapM_append, hes, ih hys]
    rfl

theorem instrCount_take_shape {bs bs1 : List Blk} (hsh : bs.map (fun b => (b.elems.map shapeOf, b.next)) = bs1.map (fun b => (b.elems.map shapeOf, b.next))) (k : Nat) :
    instrCount ((bs.take k).flatMap (·.elems)) = instrCount ((bs1.take k).flatMap (·.elems)) := by
  have e : ∀ l : List Blk, instrCount (l.flatMap (·.elems)) = ((l.map (fun b => (b.elems.map shapeOf, b.next))).map
      (fun p => p.1.countP Option.isSome)).sum := by
    intro l
    unfold instrCount
    rw [List.countP_flatMap, List.map_map]
    congr 1
    apply List.map_congr_left
    intro b _
    simp only [Function.comp, List.countP_map]
    congr 1
    funext x
    cases x <;> rfl
  rw [e, e]; simp only [List.map_take, hsh]

theorem instrCount_flatCode (l : List Blk) : instrCount (flatCode l) = instrCount (l.flatMap (·.elems)) := by
  induction l with
  | nil => rfl
  | cons x r ih =>
    have : flatCode (x :: r) = codeOf x.elems ++ flatCode r := rfl
    rw [this, List.flatMap_cons, instrCount_append, instrCount_append, ih, instrCount_codeOf]

theorem labelAt_toLabel {labelled : List Nat} : ∀ {es es' : List BElem}, es.mapM (toLabelElem labelled) = .ok es' → ∀ l, labelAt l es' = labelAt l es := by
  intro es
  induction es with
  | nil =>
    intro es' h l
    simp only [List.mapM_nil, pure, Except.pure, Except.ok.injEq] at h
    subst h; rfl
  | cons x r ih =>
    intro es' h l
    rw [List.mapM_cons] at h
    obtain ⟨y, hy, h⟩ := except_bind_ok h
    obtain ⟨ys, hys, h⟩ := except_bind_ok h
    simp only [pure, Except.pure, Except.ok.injEq] at h
    subst h
    have key : labelAt l [y] = labelAt l [x] ∧ instrCount [y] = instrCount [x] := by
      unfold toLabelElem at hy
      repeat' split at hy
      all_goals first
        | (cases hy; done)
        | (simp only [Except.ok.injEq] at hy; subst hy; exact ⟨rfl, rfl⟩)
    have e1 : y :: ys = [y] ++ ys := rfl
    have e2 : x :: r = [x] ++ r := rfl
    rw [e1, e2, labelAt_append, labelAt_append, key.1, key.2, ih hys]

theorem from_tries {P : Platform} {bc : Bytecode} {c : CFG} (hw : WellTried none [] false bc.elems)
    (h : fromBytecode P bc = .ok c) : Ordered (allCode c) ∧ stW nextId none (allCode c) = none ∧ handlersG c = handlersOf bc := by
  unfold fromBytecode at h
  obtain ⟨_, _, h⟩ := except_bind_ok h
  obtain ⟨starts, hst, h⟩ := except_bind_ok h
  obtain ⟨s, hs, h⟩ := except_bind_ok h
  obtain ⟨bs1, h1, h⟩ := except_bind_ok h
  obtain ⟨bs, h2, h⟩ := except_bind_ok h
  simp only [pure, Except.pure, Except.ok.injEq] at h
  obtain ⟨st1, st2⟩ := blockStarts_ok hst
  have hst' : ∀ p ∈ starts, ∃ l, bc.elems[p]? = some (.label l) := fun p hp => by
    obtain ⟨l, hl⟩ := st1 p hp
    exact ⟨l, (labelIndex_some hl).1⟩
  have inv := fromLoop_ok hst' bc.elems [] _ s (fInv_init P bc.elems starts) rfl hs
  have hin := hloop hw st1 bc.elems [] _ s (fInv_init P bc.elems starts) (hInv_init bc.elems) rfl hs
  have g0 : GInv (s.done ++ [s.cur]) (outW nextS none bc.elems) := by
    refine ⟨hin.ord, hin.out, hin.stn ?_, ?_⟩
    · rw [← hin.act]; exact wellTried_final hw rfl
    · intro k b hb hk
      rw [List.length_append, List.length_singleton] at hk
      rw [List.getElem?_append_left (by omega)] at hb
      obtain ⟨_, i, g2, _⟩ := inv.shape k b hb
      exact lastInstr_pos g2
  have g1 := g0.applyEnds s.ends hin.labs h1
  obtain ⟨w1, w2⟩ := toBlock_walk (blocks_flat h2)
  obtain ⟨w3, w4⟩ := w2 none none rfl trivial
  have eall : allCode c = bs.flatMap (·.elems) := by rw [← h]; exact allCode_ofBlocks _ _ _
  refine ⟨by rw [eall]; exact ordered_marks w1 g1.ord, ?_, ?_⟩
  · rw [eall]
    have := stW_marks w1 (c := none) (c' := none) rfl
    rw [g1.st] at this
    cases hh : stW nextId none (bs.flatMap (·.elems)) with
    | none => rfl
    | some u => rw [hh] at this; cases this
  unfold handlersG handlersOf
  have e1 : guardsG none (allCode c) = outW nextId none (bs.flatMap (·.elems)) := by rw [eall]; exact guardsG_eq none _
  have e2 : guards none bc.elems = outW nextId none (bs1.flatMap (·.elems)) := by rw [g1.out]; exact guards_eq none _
  rw [e1, e2]
  -- positions of the blocks
  have hc1 := applyEnds_code _ h1
  have hlen1 : bs1.length = s.done.length + 1 := by
    have := congrArg List.length hc1
    simpa using this
  have hsh := blocks_shape h2
  have hlen2 : bs.length = bs1.length := by
    have := congrArg List.length hsh
    simpa using this
  have hpos : ∀ l k, s.labels l = some k → blockAt c.heap k c.blocks = labelAt l bc.elems := by
    intro l k hk
    obtain ⟨p, hp, hpl, hkl, hcnt⟩ := inv.lab l k hk
    obtain ⟨l', hl'⟩ := st1 p hp
    obtain ⟨hq1, hq2⟩ := labelIndex_some hl'
    rw [hpl] at hq1
    simp only [Option.some.injEq, BElem.label.injEq] at hq1
    subst hq1
    rw [hq2, ← hcnt, ← h]
    show blockAt (fun b => bs[b]?.getD ⟨[], none⟩) k (List.range bs.length) = _
    rw [blockAt_ofBlocks bs k (by omega), instrCount_take_shape hsh k, ← instrCount_flatCode]
    congr 2
    refine flatCode_map _ _ ?_
    have := congrArg (List.take k) hc1
    rw [← List.map_take, ← List.map_take, List.take_append_of_le_length hkl] at this
    exact this
  apply List.ext_getElem?
  intro n
  rw [List.getElem?_map, List.getElem?_map]
  cases ha : (outW nextId none (bs1.flatMap (·.elems)))[n]? with
  | none =>
    have : (outW nextId none (bs.flatMap (·.elems)))[n]? = none := by
      rw [List.getElem?_eq_none_iff] at ha ⊢
      omega
    rw [this]
    rfl
  | some x =>
    have hn : n < (outW nextId none (bs.flatMap (·.elems))).length := by
      rw [← w3]; exact (List.getElem?_eq_some_iff.1 ha).1
    have hb := List.getElem?_eq_getElem hn
    have rel := w4 n _ _ ha hb
    rw [hb]
    generalize (outW nextId none (bs.flatMap (·.elems)))[n] = y at rel ⊢
    simp only [Option.map_some, Option.some.injEq]
    cases x with
    | none =>
      cases y with
      | none => rfl
      | some y => exact rel.elim
    | some x =>
      cases y with
      | none => exact rel.elim
      | some y =>
        obtain ⟨r1, r2⟩ := rel
        simp only [Option.map_some, Option.some.injEq, Prod.mk.injEq]
        exact ⟨hpos _ _ r1, r2.symm⟩

/-- The targets of the guards are those of the TryBegin. -/
theorem guard_target {nx : Option TryB → BElem → Option TryB} (hnx : ∀ c e u, nx c e = some u → c = some u ∨ e = .tryBegin u) :
    ∀ {es : List BElem} {c : Option TryB} {g : Nat × Bool}, some g ∈ outW nx c es → gd c = some g ∨ ∃ t, BElem.tryBegin t ∈ es ∧ g = (t.target, t.lasti) := by
  intro es
  induction es with
  | nil => intro c g h; cases h
  | cons e r ih =>
    intro c g h
    simp only [outW, List.mem_append] at h
    rcases h with h | h
    · split at h
      · simp only [List.mem_singleton] at h
        exact .inl h.symm
      · cases h
    · rcases ih h with h1 | ⟨t, ht, hg⟩
      · cases hn : nx c e with
        | none => rw [hn] at h1; cases h1
        | some u =>
          rw [hn] at h1
          rcases hnx c e u hn with hc | rfl
          · rw [hc]; exact .inl h1
          · right
            refine ⟨u, by simp, ?_⟩
            have h' : some (u.target, u.lasti) = some g := h1
            simp only [Option.some.injEq] at h'
            exact h'.symm
      · exact .inr ⟨t, by simp [ht], hg⟩

theorem nextS_some (c : Option TryB) (e : BElem) (u : TryB) (h : nextS c e = some u) : c = some u ∨ e = .tryBegin u := by
  cases e with
  | tryBegin t => simp only [nextS, Option.some.injEq] at h; exact .inr (by rw [h])
  | tryEnd t => cases h
  | _ => exact .inl h

/-- Replacing blocks by labels does not touch the regions. -/
theorem toLabel_walk {labelled : List Nat} : ∀ {es es' : List BElem}, es.mapM (toLabelElem labelled) = .ok es' →
    (∀ c, outW nextS c es' = outW nextS c es) ∧ (∀ t, BElem.tryBegin t ∈ es → t.target ∈ labelled) := by
  intro es
  induction es with
  | nil =>
    intro es' h
    simp only [List.mapM_nil, pure, Except.pure, Except.ok.injEq] at h
    subst h
    exact ⟨fun _ => rfl, fun t h => by cases h⟩
  | cons x r ih =>
    intro es' h
    rw [List.mapM_cons] at h
    obtain ⟨y, hy, h⟩ := except_bind_ok h
    obtain ⟨ys, hys, h⟩ := except_bind_ok h
    simp only [pure, Except.pure, Except.ok.injEq] at h
    subst h
    obtain ⟨i1, i2⟩ := ih hys
    have key : y.isInstr = x.isInstr ∧ (∀ c, nextS c y = nextS c x) ∧ ∀ t, x = .tryBegin t → t.target ∈ labelled := by
      unfold toLabelElem at hy
      repeat' split at hy
      all_goals first
        | (cases hy; done)
        | skip
      · simp only [Except.ok.injEq] at hy; subst hy; exact ⟨rfl, fun _ => rfl, fun t h => by cases h⟩
      · simp only [Except.ok.injEq] at hy; subst hy; exact ⟨rfl, fun _ => rfl, fun t h => by cases h⟩
      · rename_i hm
        simp only [Except.ok.injEq] at hy; subst hy
        refine ⟨rfl, fun _ => rfl, fun t h => ?_⟩
        simp only [BElem.tryBegin.injEq] at h
        rw [← h]; exact hm
      · rename_i _ hm
        simp only [Except.ok.injEq] at hy; subst hy
        exact ⟨rfl, fun _ => rfl, fun t h => absurd h (hm t)⟩
    refine ⟨fun c => ?_, ?_⟩
    · simp only [outW, key.1, key.2.1, i1]
    · intro t ht
      rcases List.mem_cons.1 ht with ht | ht
      · exact key.2.2 t ht.symm
      · exact i2 t ht

theorem to_tries {P : Platform} {c : CFG} {bc : Bytecode} (hnd : c.blocks.Nodup) (ho : Ordered (allCode c))
    (h : c.toBytecode P = .ok bc) : handlersOf bc = handlersG c := by
  have hfull := h
  unfold CFG.toBytecode at h
  obtain ⟨used, hu, h⟩ := except_bind_ok h
  obtain ⟨s, hs, h⟩ := except_bind_ok h
  obtain ⟨es, hes, h⟩ := except_bind_ok h
  simp only [pure, Except.pure, Except.ok.injEq] at h
  have hinit : TInv ⟨[], fun _ => none, [], none, none⟩ [] := ⟨rfl, fun t b p hp => by cases hp⟩
  have inv := toLoop_ok c.blocks hinit hs
  rw [List.nil_append] at inv
  have kin := kloop c.blocks kInv_init (by rw [List.nil_append]; exact ho) hs
  rw [List.nil_append] at kin
  have hno : ∀ k ∈ c.blocks, ∀ l, BElem.label l ∉ (c.heap k).elems := fun k hk => blkIter_noLabel (usedBlocks_iter hu k hk)
  have hlab : ∀ b, b ∈ used → labelAt b s.out = blockAt c.heap b c.blocks := by
    intro b hb
    rw [← labelAt_skel, inv.skel]
    exact labelAt_skelOf hb hnd hno
  obtain ⟨w1, w2⟩ := toLabel_walk hes
  have e3 : ∀ l, labelAt l es = labelAt l s.out := labelAt_toLabel hes
  subst h
  unfold handlersOf handlersG
  have e1 : guardsG none (allCode c) = outW nextId none (allCode c) := guardsG_eq none _
  have e2 : guards none es = outW nextS none es := guards_eq none _
  show (guards none es).map _ = _
  rw [e1, e2, w1, kin.out]
  show (outW nextId none (allCode c)).map _ = _
  apply List.map_congr_left
  intro g hg
  have hg : g ∈ outW nextS none s.out := by rw [kin.out]; exact hg
  cases g with
  | none => rfl
  | some g =>
    rcases guard_target nextS_some hg with h | ⟨t, ht, rfl⟩
    · cases h
    · simp only [Option.map_some, Option.some.injEq, Prod.mk.injEq, and_true]
      rw [e3]
      exact hlab _ (of_decide_eq_true (List.mem_filter.1 (w2 t ht)).2)

end Verif
