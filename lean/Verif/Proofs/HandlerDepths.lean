import Verif.Spec.HandlerDepths
import Verif.Proofs.CfgTryMain
/- The depths of handlers through `to_bytecode`. -/
namespace Verif
open Spec

/-- The depth of a region, given by its handler. -/
abbrev DepthOf := Nat → Bool → Option Nat

def Uniform (D : DepthOf) (es : List BElem) : Prop := ∀ t, BElem.tryBegin t ∈ es → t.depth = D t.target t.lasti

theorem sameDepth_uniform {es : List BElem} (h : SameDepth es) : ∃ D, Uniform D es := by
  classical
  refine ⟨fun a l => if hx : ∃ t, BElem.tryBegin t ∈ es ∧ t.target = a ∧ t.lasti = l then (Classical.choose hx).depth else none, ?_⟩
  intro t ht
  have hx : ∃ u, BElem.tryBegin u ∈ es ∧ u.target = t.target ∧ u.lasti = t.lasti := ⟨t, ht, rfl, rfl⟩
  simp only [dif_pos hx]
  obtain ⟨h1, h2, h3⟩ := Classical.choose_spec hx
  exact (h _ _ h1 ht h2 h3).symm

theorem guardsD_uniform {D : DepthOf} (es : List BElem) : ∀ {c : Option (Nat × Bool)}, Uniform D es →
    guardsD (c.map (fun g => (g.1, g.2, D g.1 g.2))) es = (guards c es).map (Option.map (fun g => (g.1, g.2, D g.1 g.2))) := by
  induction es with
  | nil => intro c _; rfl
  | cons e r ih =>
    intro c h
    have hr : Uniform D r := fun t ht => h t (by simp [ht])
    cases e with
    | instr i => simp only [guardsD, guards, List.map_cons, ih hr]
    | tryBegin t =>
      simp only [guardsD, guards]
      rw [h t (by simp), ← ih hr]; rfl
    | tryEnd id => simp only [guardsD, guards]; rw [← ih hr]; rfl
    | label l => simp only [guardsD, guards]; exact ih hr
    | setLineno l => simp only [guardsD, guards]; exact ih hr

theorem guardsDG_uniform {D : DepthOf} (es : List BElem) : ∀ {c : Option TryB}, Uniform D es → (∀ t, c = some t → t.depth = D t.target t.lasti) →
    guardsDG c es = (guardsG (c.map (fun t => (t.id, t.target, t.lasti))) es).map (Option.map (fun g => (g.1, g.2, D g.1 g.2))) := by
  induction es with
  | nil => intro c _ _; rfl
  | cons e r ih =>
    intro c h hc
    have hr : Uniform D r := fun t ht => h t (by simp [ht])
    cases e with
    | instr i =>
      simp only [guardsDG, guardsG, List.map_cons, ih hr hc]
      cases c with
      | none => rfl
      | some t => simp [hc t rfl]
    | tryBegin t =>
      simp only [guardsDG, guardsG]
      rw [ih hr (by rintro u ⟨⟩; exact h t (by simp))]; rfl
    | tryEnd id =>
      simp only [guardsDG, guardsG]
      rw [ih hr (by
        intro t ht
        split at ht
        · cases ht
        · exact hc t ht)]
      congr 2
      cases c with
      | none => rfl
      | some t =>
        simp only [Option.map_some, Option.some.injEq]
        split <;> rfl
    | label l => simp only [guardsDG, guardsG]; exact ih hr hc
    | setLineno l => simp only [guardsDG, guardsG]; exact ih hr hc

/-! ### The output of `to_bytecode` -/

/-- Same handler, and the depth of the handler. -/
def Alike (D : DepthOf) (out : List BElem) (t : TryB) (bid : Nat) : Prop :=
  t.depth = D t.target t.lasti ∧ ∀ u, BElem.tryBegin u ∈ out → u.id = bid → u.target = t.target ∧ u.lasti = t.lasti

structure DInv (D : DepthOf) (s : ToSt) (g : List BElem) : Prop where
  out : Uniform D s.out
  tries : ∀ id t bid, s.tries id = some (t, bid) → Alike D s.out t bid ∧ bid ∈ begins g
  te : ∀ t bid p, s.lastTE = some (t, bid, p) → Alike D s.out t bid ∧ bid ∈ begins g
  ids : ∀ v, BElem.tryBegin v ∈ s.out → v.id ∈ begins g

theorem Alike.append {D : DepthOf} {out : List BElem} {t : TryB} {bid : Nat} (h : Alike D out t bid) {x : List BElem}
    (hx : ∀ u, BElem.tryBegin u ∈ x → u.id ≠ bid) : Alike D (out ++ x) t bid := by
  refine ⟨h.1, fun u hu hid => ?_⟩
  rcases List.mem_append.1 hu with hu | hu
  · exact h.2 u hu hid
  · exact absurd hid (hx u hu)

theorem mem_setTryDepth {id : Nat} {d : Option Nat} {es : List BElem} {u : TryB} (h : BElem.tryBegin u ∈ setTryDepth id d es) :
    ∃ v, BElem.tryBegin v ∈ es ∧ v.id = u.id ∧ v.target = u.target ∧ v.lasti = u.lasti ∧ u.depth = (if v.id = id then d else v.depth) := by
  unfold setTryDepth at h
  obtain ⟨e, he, hx⟩ := List.mem_map.1 h
  cases e with
  | tryBegin v =>
    simp only at hx
    split at hx
    · rename_i hv
      simp only [BElem.tryBegin.injEq] at hx
      subst hx
      exact ⟨v, he, rfl, rfl, rfl, by simp [hv]⟩
    · rename_i hv
      simp only [BElem.tryBegin.injEq] at hx
      subst hx
      exact ⟨v, he, rfl, rfl, rfl, by simp [hv]⟩
  | _ => cases hx

theorem DInv.snoc {D : DepthOf} {s : ToSt} {g : List BElem} (h : DInv D s g) {e : BElem} (he : ∀ t, e ≠ .tryBegin t) {s' : ToSt}
    (h1 : s'.out = s.out ++ [e]) (h2 : s'.tries = s.tries) (h3 : ∀ t bid p, s'.lastTE = some (t, bid, p) → ∃ p', s.lastTE = some (t, bid, p') ∨
      ∃ id, s.tries id = some (t, bid)) {g' : List BElem} (hg : ∀ x, x ∈ begins g → x ∈ begins g') : DInv D s' g' := by
  have hx : ∀ bid, ∀ u, BElem.tryBegin u ∈ [e] → u.id ≠ bid := by
    intro bid u hu
    rw [List.mem_singleton] at hu
    exact absurd hu.symm (he u)
  refine ⟨?_, ?_, ?_, ?_⟩
  rotate_left 3
  · intro t ht
    rw [h1] at ht
    rcases List.mem_append.1 ht with ht | ht
    · exact hg _ (h.ids t ht)
    · rw [List.mem_singleton] at ht; exact absurd ht.symm (he t)
  · intro t ht
    rw [h1] at ht
    rcases List.mem_append.1 ht with ht | ht
    · exact h.out t ht
    · rw [List.mem_singleton] at ht; exact absurd ht.symm (he t)
  · intro id t bid hb
    rw [h2] at hb
    obtain ⟨a, b⟩ := h.tries id t bid hb
    rw [h1]
    exact ⟨a.append (hx bid), hg _ b⟩
  · intro t bid p hb
    rw [h1]
    obtain ⟨p', hb' | ⟨id, hb'⟩⟩ := h3 t bid p hb
    · obtain ⟨a, b⟩ := h.te t bid p' hb'
      exact ⟨a.append (hx bid), hg _ b⟩
    · obtain ⟨a, b⟩ := h.tries id t bid hb'
      exact ⟨a.append (hx bid), hg _ b⟩

theorem fused_same {a b d : Option Nat} (h : fusedDepth a b = .ok d) (hab : a = b) : d = a := by
  subst hab
  unfold fusedDepth at h
  cases a with
  | none => cases h; rfl
  | some a =>
    simp only [Except.ok.injEq] at h
    subst h
    simp [minDepth]

theorem dstep {D : DepthOf} {s s' : ToSt} {g : List BElem} {e : BElem} (k : KInv s g) (h : DInv D s g) (ho : Ordered (g ++ [e]))
    (hu : ∀ t, e = .tryBegin t → t.depth = D t.target t.lasti) (hr : s.step e = .ok s') : DInv D s' (g ++ [e]) := by
  have hg : ∀ x, x ∈ begins g → x ∈ begins (g ++ [e]) := by
    intro x hx; rw [begins_append]; exact List.mem_append.2 (.inl hx)
  cases e with
  | label l =>
    simp only [ToSt.step, Except.ok.injEq] at hr
    subst hr
    exact h.snoc (s' := { s with out := s.out ++ [.label l] }) (e := .label l) (by simp) rfl rfl (fun t b p hp => ⟨p, .inl hp⟩) hg
  | setLineno l =>
    simp only [ToSt.step, Except.ok.injEq] at hr
    subst hr
    exact h.snoc (s' := { s with out := s.out ++ [.setLineno l] }) (e := .setLineno l) (by simp) rfl rfl (fun t b p hp => ⟨p, .inl hp⟩) hg
  | instr i =>
    simp only [ToSt.step, Except.ok.injEq] at hr
    have h1 : s'.out = s.out ++ [.instr i] := by rw [← hr]
    have h2 : s'.tries = s.tries := by rw [← hr]
    have h3 : s'.lastTE = none := by rw [← hr]
    exact h.snoc (e := .instr i) (by simp) h1 h2 (fun t b p hp => by rw [h3] at hp; cases hp) hg
  | tryEnd id =>
    simp only [ToSt.step] at hr
    split at hr
    · simp only [Except.ok.injEq] at hr
      subst hr
      exact ⟨h.out, fun i t b hb => ⟨(h.tries i t b hb).1, hg _ (h.tries i t b hb).2⟩, fun t b p hb => ⟨(h.te t b p hb).1, hg _ (h.te t b p hb).2⟩, fun v hv => hg _ (h.ids v hv)⟩
    · split at hr
      · cases hr
      · rename_i t bid hb
        simp only [Except.ok.injEq] at hr
        have h1 : s'.out = s.out ++ [.tryEnd bid] := by rw [← hr]
        have h2 : s'.tries = s.tries := by rw [← hr]
        have h3 : s'.lastTE = some (t, bid, some s.out.length) := by rw [← hr]
        refine h.snoc (e := .tryEnd bid) (by simp) h1 h2 (fun t' b' p hp => ?_) hg
        rw [h3] at hp
        simp only [Option.some.injEq, Prod.mk.injEq] at hp
        obtain ⟨rfl, rfl, _⟩ := hp
        exact ⟨none, .inr ⟨id, hb⟩⟩
  | tryBegin t =>
    have ht : stW nextId none g = none := ((tidy_append _ _ _).1 ho.tidy).2.1 t rfl
    have hn : s.nested t = .ok s := by
      unfold ToSt.nested
      rw [k.tb ht]
    have hnew : t.id ∉ begins g := by
      have := ho.nodup
      rw [begins_append, List.nodup_append] at this
      intro hm
      exact this.2.2 t.id hm t.id (by simp [begins]) rfl
    have hd := hu t rfl
    have hfresh : DInv D (s.freshTry t) (g ++ [.tryBegin t]) := by
      refine ⟨?_, ?_, ?_, ?_⟩
      rotate_left 3
      · intro u hu
        rw [begins_append]
        rcases List.mem_append.1 hu with hu | hu
        · exact List.mem_append.2 (.inl (h.ids u hu))
        · simp only [List.mem_singleton, BElem.tryBegin.injEq] at hu
          rw [hu]; simp [begins]
      · intro u hu
        rcases List.mem_append.1 hu with hu | hu
        · exact h.out u hu
        · simp only [List.mem_singleton, BElem.tryBegin.injEq] at hu
          rw [hu]; exact hd
      · intro id u bid hb
        simp only [ToSt.freshTry, upd] at hb
        split at hb
        · simp only [Option.some.injEq, Prod.mk.injEq] at hb
          obtain ⟨rfl, rfl⟩ := hb
          refine ⟨⟨hd, fun v hv hid => ?_⟩, by rw [begins_append]; simp [begins]⟩
          rcases List.mem_append.1 hv with hv | hv
          · exfalso
            exact hnew (hid ▸ h.ids v hv)
          · simp only [List.mem_singleton, BElem.tryBegin.injEq] at hv
            rw [hv]; exact ⟨rfl, rfl⟩
        · obtain ⟨a, b⟩ := h.tries id u bid hb
          refine ⟨a.append (fun v hv => ?_), hg _ b⟩
          simp only [List.mem_singleton, BElem.tryBegin.injEq] at hv
          rw [hv]
          intro hh; exact hnew (hh ▸ b)
      · intro u bid p hb
        cases hb
    simp only [ToSt.step, hn] at hr
    change (match s.lastTE with
      | some (entry, bid, pos) => if entry.target = t.target ∧ entry.lasti = t.lasti then s.fuse t entry bid pos else pure (s.freshTry t)
      | none => pure (s.freshTry t)) = Except.ok s' at hr
    split at hr
    · rename_i entry bid pos hl
      split at hr
      · rename_i hc
        unfold ToSt.fuse at hr
        obtain ⟨d, hd', hr⟩ := except_bind_ok hr
        obtain ⟨ha, hb⟩ := h.te _ _ _ hl
        have hdd : d = D t.target t.lasti := by
          rw [fused_same hd' (by rw [ha.1, hd, hc.1, hc.2]), ha.1, hc.1, hc.2]
        cases pos with
        | none => cases hr
        | some p =>
          simp only [Except.ok.injEq] at hr
          subst hr
          have hmem : ∀ u, BElem.tryBegin u ∈ (setTryDepth bid d s.out).eraseIdx p →
              ∃ v, BElem.tryBegin v ∈ s.out ∧ v.id = u.id ∧ v.target = u.target ∧ v.lasti = u.lasti ∧ u.depth = (if v.id = bid then d else v.depth) :=
            fun u hu => mem_setTryDepth (List.mem_of_mem_eraseIdx hu)
          have hal : ∀ {x : TryB} {b : Nat}, Alike D s.out x b → Alike D ((setTryDepth bid d s.out).eraseIdx p) x b := by
            intro x b hx
            refine ⟨hx.1, fun u hu hid => ?_⟩
            obtain ⟨v, v1, v2, v3, v4, _⟩ := hmem u hu
            have := hx.2 v v1 (by rw [v2, hid])
            rw [← v3, ← v4]; exact this
          refine ⟨?_, ?_, ?_, ?_⟩
          rotate_left 3
          · intro u hu
            obtain ⟨v, v1, v2, _⟩ := hmem u hu
            rw [← v2]; exact hg _ (h.ids v v1)
          · intro u hu
            obtain ⟨v, v1, v2, v3, v4, v5⟩ := hmem u hu
            rw [v5, ← v3, ← v4]
            split
            · rename_i hv
              have := ha.2 v v1 hv
              rw [hdd, this.1, this.2, hc.1, hc.2]
            · exact h.out v v1
          · intro id u b hb'
            simp only [upd] at hb'
            split at hb'
            · simp only [Option.some.injEq, Prod.mk.injEq] at hb'
              obtain ⟨rfl, rfl⟩ := hb'
              refine ⟨hal ⟨hd, fun v hv hid => ?_⟩, hg _ hb⟩
              have := ha.2 v hv hid
              rw [this.1, this.2]; exact hc
            · obtain ⟨a, c⟩ := h.tries id u b hb'
              exact ⟨hal a, hg _ c⟩
          · intro u b q hb'
            simp only [Option.some.injEq, Prod.mk.injEq] at hb'
            obtain ⟨rfl, rfl, _⟩ := hb'
            exact ⟨hal ha, hg _ hb⟩
      · simp only [pure, Except.pure, Except.ok.injEq] at hr
        subst hr; exact hfresh
    · simp only [pure, Except.pure, Except.ok.injEq] at hr
      subst hr; exact hfresh

theorem drun {D : DepthOf} (es : List BElem) : ∀ {s s' : ToSt} {g : List BElem}, KInv s g → DInv D s g → Ordered (g ++ es) → Uniform D es →
    s.run es = .ok s' → DInv D s' (g ++ es) := by
  induction es with
  | nil =>
    intro s s' g _ h _ _ hr
    simp only [ToSt.run, Except.ok.injEq] at hr
    subst hr
    rw [List.append_nil]; exact h
  | cons e r ih =>
    intro s s' g k h ho hu hr
    unfold ToSt.run at hr
    obtain ⟨s1, h1, hr⟩ := except_bind_ok hr
    have e0 : g ++ e :: r = (g ++ [e]) ++ r := by simp
    rw [e0] at ho ⊢
    exact ih (kstep k (ordered_prefix ho) h1) (dstep k h (ordered_prefix ho) (fun t ht => hu t (by simp [ht])) h1) ho
      (fun t ht => hu t (by simp [ht])) hr

theorem dloop {D : DepthOf} {heap : Nat → Blk} {used : List Nat} (bs : List Nat) : ∀ {s s' : ToSt} {g : List BElem}, KInv s g → DInv D s g →
    Ordered (g ++ bs.flatMap (fun b => (heap b).elems)) → Uniform D (bs.flatMap (fun b => (heap b).elems)) → toLoop heap used s bs = .ok s' →
    DInv D s' (g ++ bs.flatMap (fun b => (heap b).elems)) := by
  induction bs with
  | nil =>
    intro s s' g _ h _ _ hr
    simp only [toLoop, Except.ok.injEq] at hr
    subst hr
    rw [List.flatMap_nil, List.append_nil]; exact h
  | cons b r ih =>
    intro s s' g k h ho hu hr
    unfold toLoop at hr
    obtain ⟨s1, h1, hr⟩ := except_bind_ok hr
    have k0 : KInv (if b ∈ used then { s with out := s.out ++ [.label b] } else s) g := by
      split
      · exact k.plain (fun x hx => .inl ⟨b, by simpa using hx⟩)
      · exact k
    have h0 : DInv D (if b ∈ used then { s with out := s.out ++ [.label b] } else s) g := by
      split
      · exact h.snoc (s' := { s with out := s.out ++ [.label b] }) (e := .label b) (by simp) rfl rfl (fun t b p hp => ⟨p, .inl hp⟩) (fun _ hx => hx)
      · exact h
    rw [List.flatMap_cons, ← List.append_assoc] at ho ⊢
    rw [List.flatMap_cons] at hu
    exact ih (krun _ k0 (ordered_prefix ho) h1)
      (drun _ k0 h0 (ordered_prefix ho) (fun t ht => hu t (List.mem_append.2 (.inl ht))) h1) ho
      (fun t ht => hu t (List.mem_append.2 (.inr ht))) hr

theorem toLabel_try {labelled : List Nat} {es es' : List BElem} (h : es.mapM (toLabelElem labelled) = .ok es') {t : TryB}
    (ht : BElem.tryBegin t ∈ es') : BElem.tryBegin t ∈ es := by
  induction es generalizing es' with
  | nil =>
    simp only [List.mapM_nil, pure, Except.pure, Except.ok.injEq] at h
    subst h; cases ht
  | cons x r ih =>
    rw [List.mapM_cons] at h
    obtain ⟨y, hy, h⟩ := except_bind_ok h
    obtain ⟨ys, hys, h⟩ := except_bind_ok h
    simp only [pure, Except.pure, Except.ok.injEq] at h
    subst h
    rcases List.mem_cons.1 ht with ht | ht
    · subst ht
      have : x = .tryBegin t := by
        unfold toLabelElem at hy
        repeat' split at hy
        all_goals first
          | (cases hy; done)
          | skip
        all_goals simp only [Except.ok.injEq] at hy
        all_goals first
          | exact hy
          | cases hy
      rw [this]; simp
    · exact List.mem_cons_of_mem _ (ih hys ht)

/-- What `to_bytecode` does to the regions, with their depths. -/
theorem to_depths {P : Platform} {c : CFG} {bc : Bytecode} (hnd : c.blocks.Nodup) (ho : Ordered (allCode c)) (hsd : SameDepth (allCode c))
    (h : c.toBytecode P = .ok bc) : handlersD bc = handlersDG c := by
  obtain ⟨D, hD⟩ := sameDepth_uniform hsd
  unfold CFG.toBytecode at h
  obtain ⟨used, hu, h⟩ := except_bind_ok h
  obtain ⟨s, hs, h⟩ := except_bind_ok h
  obtain ⟨es, hes, h⟩ := except_bind_ok h
  simp only [pure, Except.pure, Except.ok.injEq] at h
  have hinit : TInv ⟨[], fun _ => none, [], none, none⟩ [] := ⟨rfl, fun t b p hp => by cases hp⟩
  have inv := toLoop_ok c.blocks hinit hs
  rw [List.nil_append] at inv
  have kin := kloop c.blocks kInv_init (by rw [List.nil_append]; exact ho) hs
  rw [List.nil_append] at kin
  have dinit : DInv D ⟨[], fun _ => none, [], none, none⟩ [] :=
    ⟨(fun t h => by cases h), (fun i t b h => by cases h), (fun t b p h => by cases h), (fun v h => by cases h)⟩
  have din := dloop c.blocks kInv_init dinit (by rw [List.nil_append]; exact ho) hD hs
  rw [List.nil_append] at din
  have hno : ∀ k ∈ c.blocks, ∀ l, BElem.label l ∉ (c.heap k).elems := fun k hk => blkIter_noLabel (usedBlocks_iter hu k hk)
  have hlab : ∀ b, b ∈ used → labelAt b s.out = blockAt c.heap b c.blocks := by
    intro b hb
    rw [← labelAt_skel, inv.skel]
    exact labelAt_skelOf hb hnd hno
  obtain ⟨w1, w2⟩ := toLabel_walk hes
  have e3 : ∀ l, labelAt l es = labelAt l s.out := labelAt_toLabel hes
  have ud : Uniform D es := fun t ht => din.out t (toLabel_try hes ht)
  subst h
  have e1 : guardsG none (allCode c) = outW nextId none (allCode c) := guardsG_eq none _
  have e2 : guards none es = outW nextS none es := guards_eq none _
  unfold handlersD handlersDG
  show (guardsD none es).map _ = _
  have g1 := guardsD_uniform es (c := none) ud
  have g2 := guardsDG_uniform (allCode c) (c := none) hD (by intro t h; cases h)
  simp only [Option.map_none] at g1 g2
  rw [g1, g2, e1, e2, w1, kin.out, List.map_map, List.map_map]
  apply List.map_congr_left
  intro g hg
  have hg : g ∈ outW nextS none s.out := by rw [kin.out]; exact hg
  cases g with
  | none => rfl
  | some g =>
    rcases guard_target nextS_some hg with h | ⟨t, ht, rfl⟩
    · cases h
    · simp only [Function.comp_apply, Option.map_some, Option.some.injEq, Prod.mk.injEq, and_true]
      rw [e3]
      exact hlab _ (of_decide_eq_true (List.mem_filter.1 (w2 t ht)).2)

end Verif
