import Verif.Proofs.CfgFromEnd
/-
`to_bytecode`: the code of the result.
-/
namespace Verif
open Spec

/-- Everything but the try markers. -/
def BElem.isSkel : BElem → Bool
  | .tryBegin _ => false
  | .tryEnd _ => false
  | _ => true

def skel (es : List BElem) : List BElem := es.filter BElem.isSkel

theorem skel_append (a b : List BElem) : skel (a ++ b) = skel a ++ skel b := List.filter_append ..

theorem labelAt_skel (l : Nat) (es : List BElem) : labelAt l (skel es) = labelAt l es := by
  induction es with
  | nil => rfl
  | cons x r ih =>
    cases x with
    | label l' =>
      show labelAt l (BElem.label l' :: skel r) = _
      simp only [labelAt, ih]
    | instr l' =>
      show labelAt l (BElem.instr l' :: skel r) = _
      simp only [labelAt, ih]
    | _ => exact ih

theorem resolved_skel (f g : Nat → Option Nat) (es : List BElem) : resolved f g (skel es) = resolved f g es := by
  unfold resolved skel
  rw [List.filterMap_filter]
  congr 1
  funext x
  cases x <;> rfl

theorem labelAt_append (l : Nat) (a b : List BElem) :
    labelAt l (a ++ b) = ((labelAt l b).map (· + instrCount a)).or (labelAt l a) := by
  induction a with
  | nil =>
    cases h : labelAt l b <;> simp [labelAt, h, instrCount]
  | cons x r ih =>
    have hc : ∀ i, instrCount (BElem.instr i :: r) = instrCount r + 1 := fun i => by simp [instrCount, List.countP_cons, BElem.isInstr]
    cases x with
    | label l' =>
      have h : instrCount (BElem.label l' :: r) = instrCount r := by simp [instrCount, BElem.isInstr]
      rw [List.cons_append, labelAt, ih, labelAt, h, Option.or_assoc]
    | instr i =>
      rw [List.cons_append, labelAt, ih, labelAt, hc]
      cases labelAt l b <;> cases labelAt l r <;> simp [Nat.add_assoc]
    | setLineno n =>
      have h : instrCount (BElem.setLineno n :: r) = instrCount r := by simp [instrCount, BElem.isInstr]
      rw [h]; exact ih
    | tryBegin n =>
      have h : instrCount (BElem.tryBegin n :: r) = instrCount r := by simp [instrCount, BElem.isInstr]
      rw [h]; exact ih
    | tryEnd n =>
      have h : instrCount (BElem.tryEnd n :: r) = instrCount r := by simp [instrCount, BElem.isInstr]
      rw [h]; exact ih

theorem setTryDepth_skel (id : Nat) (d : Option Nat) (es : List BElem) : skel (setTryDepth id d es) = skel es := by
  induction es with
  | nil => rfl
  | cons x r ih =>
    unfold setTryDepth skel at ih ⊢
    cases x with
    | tryBegin t =>
      simp only [List.map_cons]
      split
      · exact ih
      · exact ih
    | tryEnd t => exact ih
    | instr t => simp only [List.map_cons, List.filter_cons, BElem.isSkel, if_true]; rw [ih]
    | label t => simp only [List.map_cons, List.filter_cons, BElem.isSkel, if_true]; rw [ih]
    | setLineno t => simp only [List.map_cons, List.filter_cons, BElem.isSkel, if_true]; rw [ih]

theorem setTryDepth_get {id : Nat} {d : Option Nat} {es : List BElem} {p n : Nat} (h : es[p]? = some (.tryEnd n)) :
    (setTryDepth id d es)[p]? = some (.tryEnd n) := by
  unfold setTryDepth
  rw [List.getElem?_map, h]
  rfl

theorem eraseIdx_skel : ∀ {es : List BElem} {p n : Nat}, es[p]? = some (.tryEnd n) → skel (es.eraseIdx p) = skel es := by
  intro es
  induction es with
  | nil => intro p n h; simp at h
  | cons x r ih =>
    intro p n h
    cases p with
    | zero =>
      simp only [List.getElem?_cons_zero, Option.some.injEq] at h
      subst h; rfl
    | succ p =>
      have := ih (p := p) (n := n) (by simpa using h)
      rw [List.eraseIdx_cons_succ]
      unfold skel at this ⊢
      rw [List.filter_cons, List.filter_cons, this]

/-- The output so far: its skeleton, and the position of the last TryEnd. -/
structure TInv (s : ToSt) (sk : List BElem) : Prop where
  skel : skel s.out = sk
  pos : ∀ t b p, s.lastTE = some (t, b, some p) → ∃ n, s.out[p]? = some (.tryEnd n)

theorem TInv.append {s : ToSt} {sk : List BElem} (h : TInv s sk) (e : BElem) :
    TInv { s with out := s.out ++ [e] } (sk ++ Verif.skel [e]) := by
  refine ⟨by rw [skel_append, h.skel], ?_⟩
  intro t b p hp
  obtain ⟨n, hn⟩ := h.pos t b p hp
  refine ⟨n, ?_⟩
  simp only
  rw [List.getElem?_append_left ((List.getElem?_eq_some_iff.1 hn).1)]
  exact hn

theorem nested_ok {s s' : ToSt} {t : TryB} {sk : List BElem} (h : TInv s sk) (hr : s.nested t = .ok s') :
    TInv s' sk ∧ s'.lastTE = s.lastTE := by
  unfold ToSt.nested at hr
  split at hr
  · simp only [Except.ok.injEq] at hr; subst hr; exact ⟨h, rfl⟩
  · obtain ⟨_, _, hr⟩ := except_bind_ok hr
    obtain ⟨_, _, hr⟩ := except_bind_ok hr
    simp only [pure, Except.pure, Except.ok.injEq] at hr
    subst hr
    refine ⟨⟨by rw [setTryDepth_skel]; exact h.skel, ?_⟩, rfl⟩
    intro t b p hp
    obtain ⟨n, hn⟩ := h.pos t b p hp
    exact ⟨n, setTryDepth_get hn⟩

theorem TInv.fresh {s : ToSt} {t : TryB} {sk : List BElem} (h : TInv s sk) : TInv (s.freshTry t) (sk ++ Verif.skel [.tryBegin t]) := by
  refine ⟨?_, ?_⟩
  · show Verif.skel (s.out ++ [.tryBegin t]) = _
    rw [skel_append, h.skel]
  · intro t b p hp; cases hp

theorem tostep_ok {s s' : ToSt} {e : BElem} {sk : List BElem} (h : TInv s sk) (hr : s.step e = .ok s') : TInv s' (sk ++ skel [e]) := by
  have hsk : ∀ t, sk ++ skel [BElem.tryBegin t] = sk := fun t => by simp [skel, BElem.isSkel]
  have hsk2 : ∀ t, sk ++ skel [BElem.tryEnd t] = sk := fun t => by simp [skel, BElem.isSkel]
  cases e with
  | label l =>
    simp only [ToSt.step, Except.ok.injEq] at hr
    subst hr; exact h.append _
  | setLineno l =>
    simp only [ToSt.step, Except.ok.injEq] at hr
    subst hr; exact h.append _
  | instr i =>
    simp only [ToSt.step, Except.ok.injEq] at hr
    subst hr
    have := h.append (.instr i)
    refine ⟨this.skel, ?_⟩
    intro t b p hp; cases hp
  | tryEnd id =>
    simp only [ToSt.step] at hr
    split at hr
    · simp only [Except.ok.injEq] at hr
      subst hr
      rw [hsk2]; exact h
    · split at hr
      · cases hr
      · rename_i t0 bid _
        simp only [Except.ok.injEq] at hr
        subst hr
        refine ⟨by rw [skel_append, h.skel]; rfl, ?_⟩
        intro t b p hp
        simp only [Option.some.injEq, Prod.mk.injEq] at hp
        obtain ⟨_, _, rfl⟩ := hp
        exact ⟨bid, by simp⟩
  | tryBegin t =>
    simp only [ToSt.step] at hr
    obtain ⟨s1, h1, hr⟩ := except_bind_ok hr
    obtain ⟨i1, _⟩ := nested_ok h h1
    split at hr
    · rename_i entry bid pos hl
      split at hr
      · unfold ToSt.fuse at hr
        obtain ⟨d, _, hr⟩ := except_bind_ok hr
        split at hr
        · cases hr
        · rename_i p
          simp only [Except.ok.injEq] at hr
          subst hr
          obtain ⟨n, hn⟩ := i1.pos _ _ _ hl
          refine ⟨?_, ?_⟩
          · rw [eraseIdx_skel (setTryDepth_get hn), setTryDepth_skel, i1.skel, hsk]
          · intro t b p hp
            simp at hp
      · simp only [pure, Except.pure, Except.ok.injEq] at hr
        subst hr; exact i1.fresh
    · simp only [pure, Except.pure, Except.ok.injEq] at hr
      subst hr; exact i1.fresh

theorem torun_ok (es : List BElem) : ∀ {s s' : ToSt} {sk : List BElem}, TInv s sk → s.run es = .ok s' → TInv s' (sk ++ skel es) := by
  induction es with
  | nil =>
    intro s s' sk h hr
    simp only [ToSt.run, Except.ok.injEq] at hr
    subst hr
    simpa [skel] using h
  | cons e r ih =>
    intro s s' sk h hr
    unfold ToSt.run at hr
    obtain ⟨s1, h1, hr⟩ := except_bind_ok hr
    have := ih (tostep_ok h h1) hr
    rw [List.append_assoc, ← skel_append] at this
    exact this

/-- The skeleton of the result: the label of each used block, then its code. -/
def skelOf (heap : Nat → Blk) (used : List Nat) (bs : List Nat) : List BElem :=
  bs.flatMap (fun b => (if b ∈ used then [.label b] else []) ++ skel (heap b).elems)

theorem toLoop_ok {heap : Nat → Blk} {used : List Nat} (bs : List Nat) : ∀ {s s' : ToSt} {sk : List BElem}, TInv s sk →
    toLoop heap used s bs = .ok s' → TInv s' (sk ++ skelOf heap used bs) := by
  induction bs with
  | nil =>
    intro s s' sk h hr
    simp only [toLoop, Except.ok.injEq] at hr
    subst hr
    simpa [skelOf] using h
  | cons b r ih =>
    intro s s' sk h hr
    unfold toLoop at hr
    obtain ⟨s1, h1, hr⟩ := except_bind_ok hr
    have h0 : TInv (if b ∈ used then { s with out := s.out ++ [.label b] } else s) (sk ++ (if b ∈ used then [.label b] else [])) := by
      split
      · exact h.append (.label b)
      · simpa using h
    have := ih (torun_ok _ h0 h1) hr
    simpa [skelOf, List.append_assoc] using this

/-- No label in the blocks. -/
theorem blkIter_noLabel {P : Platform} : ∀ {es : List BElem}, blkIter P es = .ok () → ∀ l, BElem.label l ∉ es := by
  intro es
  induction es with
  | nil => intro _ l h; cases h
  | cons x r ih =>
    intro h l hl
    unfold blkIter at h
    obtain ⟨_, h1, h2⟩ := except_bind_ok h
    rcases List.mem_cons.1 hl with rfl | hl
    · cases h1
    · exact ih h2 l hl

theorem usedBlocks_iter {P : Platform} {heap : Nat → Blk} : ∀ {bs u : List Nat}, usedBlocks P heap bs = .ok u →
    ∀ b ∈ bs, blkIter P (heap b).elems = .ok () := by
  intro bs
  induction bs with
  | nil => intro u _ b hb; cases hb
  | cons x r ih =>
    intro u h b hb
    unfold usedBlocks at h
    obtain ⟨j, _, h⟩ := except_bind_ok h
    obtain ⟨⟨⟩, h2, h⟩ := except_bind_ok h
    obtain ⟨u', h3, _⟩ := except_bind_ok h
    rcases List.mem_cons.1 hb with rfl | hb
    · exact h2
    · exact ih h3 b hb

theorem labelAt_none {l : Nat} {es : List BElem} (h : BElem.label l ∉ es) : labelAt l es = none := by
  induction es with
  | nil => rfl
  | cons x r ih =>
    have ih := ih (fun hm => h (by simp [hm]))
    cases x with
    | label l' =>
      have : l' ≠ l := by rintro rfl; exact h (by simp)
      simp [labelAt, ih, this]
    | _ => simp [labelAt, ih]

theorem blockAt_none {heap : Nat → Blk} {k : Nat} : ∀ {r : List Nat}, k ∉ r → blockAt heap k r = none := by
  intro r
  induction r with
  | nil => intro _; rfl
  | cons y r ih =>
    intro h
    have h1 : y ≠ k := by rintro rfl; exact h (by simp)
    have := ih (fun hm => h (by simp [hm]))
    simp [blockAt, h1, this]

/-- The position of the label of a used block. -/
theorem labelAt_skelOf {heap : Nat → Blk} {used : List Nat} {b : Nat} (hu : b ∈ used) : ∀ {bs : List Nat}, bs.Nodup →
    (∀ k ∈ bs, ∀ l, BElem.label l ∉ (heap k).elems) → labelAt b (skelOf heap used bs) = blockAt heap b bs := by
  intro bs
  induction bs with
  | nil => intro _ _; rfl
  | cons k r ih =>
    intro hnd hl
    have hnd' := List.nodup_cons.1 hnd
    have ih := ih hnd'.2 (fun k hk => hl k (by simp [hk]))
    have hk := hl k (by simp)
    have e : skelOf heap used (k :: r) = ((if k ∈ used then [BElem.label k] else []) ++ skel (heap k).elems) ++ skelOf heap used r := rfl
    have hn : labelAt b (skel (heap k).elems) = none := by rw [labelAt_skel]; exact labelAt_none (hk b)
    have hc : instrCount (skel (heap k).elems) = instrCount (heap k).elems := by
      unfold instrCount skel
      rw [List.countP_filter]
      congr 1
      funext x
      cases x <;> rfl
    rw [e, labelAt_append, labelAt_append, hn, instrCount_append, hc]
    unfold blockAt
    by_cases hkb : k = b
    · subst hkb
      have hnone : blockAt heap k r = none := blockAt_none hnd'.1
      rw [ih, hnone]
      simp [hu, labelAt]
    · simp only [hkb, if_false]
      rw [ih]
      have : labelAt b (if k ∈ used then [BElem.label k] else []) = none := by
        split
        · simp [labelAt, hkb]
        · rfl
      rw [this]
      have h0 : instrCount (if k ∈ used then [BElem.label k] else []) = 0 := by
        split <;> simp [instrCount, BElem.isInstr]
      rw [h0]
      simp

/-- Replacing blocks by labels. -/
theorem toLabel_resolved {labelled : List Nat} {lab blk : Nat → Option Nat} : ∀ {es es' : List BElem},
    es.mapM (toLabelElem labelled) = .ok es' →
    (∀ i, BElem.instr i ∈ es → ∀ l, i.arg ≠ .label l) → (∀ b ∈ labelled, lab b = blk b) →
    resolved lab (fun _ => none) es' = resolved (fun _ => none) blk es ∧ (∀ l, labelAt l es' = labelAt l es) ∧
      instrCount es' = instrCount es := by
  intro es
  induction es with
  | nil =>
    intro es' h _ _
    simp only [List.mapM_nil, pure, Except.pure, Except.ok.injEq] at h
    subst h
    exact ⟨rfl, fun _ => rfl, rfl⟩
  | cons x r ih =>
    intro es' h hnl hb
    rw [List.mapM_cons] at h
    obtain ⟨y, hy, h⟩ := except_bind_ok h
    obtain ⟨ys, hys, h⟩ := except_bind_ok h
    simp only [pure, Except.pure, Except.ok.injEq] at h
    subst h
    obtain ⟨i1, i2, i3⟩ := ih hys (fun i hi => hnl i (by simp [hi])) hb
    have key : resolved lab (fun _ => none) [y] = resolved (fun _ => none) blk [x] ∧ (∀ l, labelAt l [y] = labelAt l [x]) ∧
        instrCount [y] = instrCount [x] := by
      unfold toLabelElem at hy
      split at hy
      · rename_i i
        split at hy
        · rename_i b hb'
          split at hy
          · rename_i hmem
            simp only [Except.ok.injEq] at hy
            subst hy
            refine ⟨?_, fun _ => rfl, rfl⟩
            simp only [resolved, List.filterMap_cons, List.filterMap_nil, argRef, hb', hb b hmem]
          · cases hy
        · rename_i hnb
          simp only [Except.ok.injEq] at hy
          subst hy
          refine ⟨?_, fun _ => rfl, rfl⟩
          have hl := hnl i (by simp)
          simp only [resolved, List.filterMap_cons, List.filterMap_nil]
          cases ha : i.arg with
          | label l => exact absurd ha (hl l)
          | block b => exact absurd ha (hnb b)
          | _ => rfl
      · split at hy
        · simp only [Except.ok.injEq] at hy
          subst hy; exact ⟨rfl, fun _ => rfl, rfl⟩
        · cases hy
      · rename_i h1 h2
        simp only [Except.ok.injEq] at hy
        subst hy
        refine ⟨?_, fun _ => rfl, rfl⟩
        cases x with
        | instr i => exact absurd rfl (h1 i)
        | _ => rfl
    have e1 : y :: ys = [y] ++ ys := rfl
    have e2 : x :: r = [x] ++ r := rfl
    refine ⟨?_, ?_, ?_⟩
    · rw [e1, e2, resolved_append, resolved_append, key.1, i1]
    · intro l
      rw [e1, e2, labelAt_append, labelAt_append, key.2.1, key.2.2, i2]
    · rw [e1, e2, instrCount_append, instrCount_append, key.2.2, i3]

end Verif
