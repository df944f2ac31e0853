import Verif.Proofs.CfgEqual
import Verif.Proofs.Sized
import Verif.Props.Equal
import Verif.Props.CfgConv
/-
C53: equality of `ControlFlowGraph` objects.
-/
namespace Verif
open Spec

variable {κ : Type}

theorem attrs_same_iff (a b : Attrs) : a.same b = true ↔ a = b := by
  unfold Attrs.same
  cases a; cases b
  simp only [Bool.and_eq_true, beq_iff_eq, Attrs.mk.injEq]
  grind

theorem shown_noLab {P : Platform} {c : CFG} (hc : ComparableG P c) : ∀ e ∈ shown P c, NoLabE e := by
  intro e he
  have hblk : ∀ es : List BElem, blkIter P es = .ok () → ∀ e ∈ es, (∀ l, e ≠ .label l) ∧ ∀ i, e = .instr i → P.hasJump i.opcode = true → ∃ b, i.arg = .block b := by
    intro es
    induction es with
    | nil => intro _ e he; cases he
    | cons x r ih =>
      intro h e he
      unfold blkIter at h
      obtain ⟨u, h1, h2⟩ := except_bind_ok h
      rcases List.mem_cons.1 he with rfl | he
      · refine ⟨?_, ?_⟩
        · rintro l rfl; cases h1
        · rintro i rfl hj
          unfold blkCheck at h1
          simp only [hj, if_true] at h1
          split at h1
          · cases h1
          · split at h1
            · cases h1
            · rename_i hn
              cases hb : i.arg with
              | block b => exact ⟨b, rfl⟩
              | _ => rw [hb] at hn; simp [Arg.asBlock] at hn
      · exact ih h2 e he
  have hsub : ∀ es : List BElem, ∀ e ∈ shownBlock P es, e ∈ es := by
    intro es
    induction es with
    | nil => intro e he; cases he
    | cons x r ih =>
      intro e he
      cases x with
      | instr i =>
        unfold shownBlock at he
        split at he
        · rcases List.mem_cons.1 he with rfl | he
          · simp
          · unfold firstEnd at he
            simp only [Option.mem_toList] at he
            exact List.mem_cons_of_mem _ (List.mem_of_find?_eq_some he)
        · rcases List.mem_cons.1 he with rfl | he
          · simp
          · exact List.mem_cons_of_mem _ (ih e he)
      | _ =>
        simp only [shownBlock] at he
        rcases List.mem_cons.1 he with rfl | he
        · simp
        · exact List.mem_cons_of_mem _ (ih e he)
  obtain ⟨b, hb, he'⟩ := List.mem_flatMap.1 he
  obtain ⟨h1, h2⟩ := hblk _ (hc.blocks b hb) e (hsub _ e he')
  cases e with
  | label l => exact h1 l rfl
  | instr i =>
    intro l hl
    cases hj : P.hasJump i.opcode with
    | true => obtain ⟨k, hk⟩ := h2 i rfl hj; rw [hk] at hl; cases hl
    | false => exact (hc.args i he hj l).1 hl
  | _ => trivial

theorem getElem_map {f : BElem → BElem} {es : List BElem} {k : Nat} {x : BElem} : (es.map f)[k]? = some x ↔ ∃ e, es[k]? = some e ∧ f e = x := by
  rw [List.getElem?_map]
  cases es[k]? <;> simp

/-- the items are equal iff what is shown is the same -/
theorem shown_eq_iff {P : Platform} {key : Arg → κ} {a b : CFG} (ha : ComparableG P a) (hb : ComparableG P b) {x y : List (GraphItem κ)}
    (hx : a.getInstructions P key = .ok x) (hy : b.getInstructions P key = .ok y) : x = y ↔ SameElems P key a b (shown P a) (shown P b) := by
  obtain ⟨x', h1, h2, h3⟩ := getInstructions_spec key ha
  obtain ⟨y', k1, k2, k3⟩ := getInstructions_spec key hb
  rw [hx] at h1; cases h1
  rw [hy] at k1; cases k1
  have na : NamesOK P ((shown P a).map asLab) := by
    intro i hi
    obtain ⟨j, hj, e1, e2, _⟩ := mem_asLab hi
    rw [← e1, ← e2]; exact ha.names j hj
  have nb : NamesOK P ((shown P b).map asLab) := by
    intro i hi
    obtain ⟨j, hj, e1, e2, _⟩ := mem_asLab hi
    rw [← e1, ← e2]; exact hb.names j hj
  rw [← map_toFlat_inj h2 k2, items_core (numberOf a) (numberOf b) _ _ na nb 0 [] (by simp) (by simp)
    ((ended_asLab _ _).2 (ended_of ha.paired)) ((ended_asLab _ _).2 (ended_of hb.paired)) h3 k3, forall2_index, List.nil_append]
  have hm : ∀ (es : List BElem) (k : Nat), (es.map asLab)[k]?.bind markerOf = es[k]?.bind markerOf := by
    intro es k
    rw [List.getElem?_map]
    cases es[k]? with
    | none => rfl
    | some e => simp [marker_asLab]
  constructor
  · rintro ⟨⟨l1, l2⟩, l3⟩
    refine ⟨by simpa using l1, ?_, ?_⟩
    · intro k u v hu hv
      have := l2 k _ _ (getElem_map.2 ⟨u, hu, rfl⟩) (getElem_map.2 ⟨v, hv, rfl⟩)
      exact (corr_asLab ha.index hb.index (shown_noLab ha u (List.mem_of_getElem? hu)) (shown_noLab hb v (List.mem_of_getElem? hv))).1 this
    · intro j k s t s' t' hs ht hs' ht'
      rw [← hm] at hs ht hs' ht'
      exact l3 (s, s') ((markPairs_mem _ _ s s').2 ⟨j, hs, hs'⟩) (t, t') ((markPairs_mem _ _ t t').2 ⟨k, ht, ht'⟩)
  · rintro ⟨l1, l2, l3⟩
    refine ⟨⟨by simpa using l1, ?_⟩, ?_⟩
    · intro k u v hu hv
      obtain ⟨u, hu', rfl⟩ := getElem_map.1 hu
      obtain ⟨v, hv', rfl⟩ := getElem_map.1 hv
      exact (corr_asLab ha.index hb.index (shown_noLab ha u (List.mem_of_getElem? hu')) (shown_noLab hb v (List.mem_of_getElem? hv'))).2 (l2 k u v hu' hv')
    · rintro ⟨s, s'⟩ hp ⟨t, t'⟩ hq
      obtain ⟨j, hs, hs'⟩ := (markPairs_mem _ _ s s').1 hp
      obtain ⟨k, ht, ht'⟩ := (markPairs_mem _ _ t t').1 hq
      rw [hm] at hs ht hs' ht'
      exact l3 j k s t s' t' hs ht hs' ht'

variable [DecidableEq κ]

/-- **C53, what `==` compares.** Two graphs that can be compared, and whose stack size can be computed, are equal
iff they have the same argument names and attributes, the same computed stack size, and what is shown of their blocks, one after
the other, corresponds element by element, jumps and handlers to blocks of the same number, try markers paired alike.
Missing: the limits of the blocks, their fall-through and what comes after the first jump or final instruction of a block are
not compared (`C53_statement_false`, `C53_hidden_code`, `C53_fallthrough_ignored`). -/
theorem C53_compared (P : Platform) (key : Arg → κ) (eff : Instr → Bool → Py (Int × Int)) (a b a' b' : CFG) (n m : Int)
    (ha : ComparableG P a) (hb : ComparableG P b) (hn : a.computeStacksize P eff = .ok (n, a')) (hm : b.computeStacksize P eff = .ok (m, b')) :
    ∃ r x y, CFG.eq P key eff a b = .ok (r, x, y) ∧
      (r = true ↔ a.argnames = b.argnames ∧ a.attrs = b.attrs ∧ n = m ∧ SameElems P key a b (shown P a) (shown P b)) := by
  obtain ⟨x, hx, _⟩ := getInstructions_spec key ha
  obtain ⟨y, hy, _⟩ := getInstructions_spec key hb
  have hi := shown_eq_iff ha hb hx hy
  unfold CFG.eq
  by_cases h1 : a.argnames = b.argnames
  · by_cases h2 : x = y
    · by_cases h3 : a.attrs = b.attrs
      · refine ⟨decide (n = m), a', b', ?_, ?_⟩
        · simp only [h1, ne_eq, not_true_eq_false, if_false, bind, Except.bind, hx, hy, h2, (attrs_same_iff _ _).2 h3, hn, hm]
          rfl
        · rw [decide_eq_true_iff]
          exact ⟨fun h => ⟨h1, h3, h, hi.1 h2⟩, fun h => h.2.2.1⟩
      · refine ⟨false, a, b, ?_, ?_⟩
        · have : a.attrs.same b.attrs = false := by
            cases h : a.attrs.same b.attrs with
            | false => rfl
            | true => exact absurd ((attrs_same_iff _ _).1 h) h3
          simp only [h1, ne_eq, not_true_eq_false, if_false, bind, Except.bind, hx, hy, h2, this, Bool.not_false, if_true]
          rfl
        · simp [h3]
    · refine ⟨false, a, b, ?_, ?_⟩
      · simp only [h1, ne_eq, not_true_eq_false, if_false, bind, Except.bind, hx, hy, h2, not_false_eq_true, if_true]
        rfl
      · rw [← hi]; simp [h2]
  · refine ⟨false, a, b, ?_, ?_⟩
    · simp only [h1, ne_eq, not_false_eq_true, if_true]
      rfl
    · simp [h1]

/-- Comparing a graph with itself, or with an equal one, is true and symmetric (when it does not raise). -/
theorem C53_symm (P : Platform) (key : Arg → κ) (eff : Instr → Bool → Py (Int × Int)) (a b x y : CFG)
    (h : CFG.eq P key eff a b = .ok (true, x, y)) : CFG.eq P key eff b a = .ok (true, y, x) := by
  unfold CFG.eq at h ⊢
  split at h
  · simp only [pure, Except.pure, Except.ok.injEq, Prod.mk.injEq, Bool.false_eq_true, false_and] at h
  · rename_i h1
    simp only [ne_eq, not_not] at h1
    obtain ⟨u, hu, h⟩ := except_bind_ok h
    obtain ⟨v, hv, h⟩ := except_bind_ok h
    split at h
    · simp only [pure, Except.pure, Except.ok.injEq, Prod.mk.injEq, Bool.false_eq_true, false_and] at h
    · rename_i h2
      simp only [ne_eq, not_not] at h2
      split at h
      · simp only [pure, Except.pure, Except.ok.injEq, Prod.mk.injEq, Bool.false_eq_true, false_and] at h
      · rename_i h3
        simp only [Bool.not_eq_true, Bool.not_eq_false'] at h3
        obtain ⟨p, hp, h⟩ := except_bind_ok h
        obtain ⟨q, hq, h⟩ := except_bind_ok h
        simp only [pure, Except.pure, Except.ok.injEq, Prod.mk.injEq, decide_eq_true_eq] at h
        obtain ⟨h4, rfl, rfl⟩ := h
        have h5 : b.attrs.same a.attrs = true := (attrs_same_iff _ _).2 ((attrs_same_iff _ _).1 (by simpa using h3)).symm
        simp only [h1.symm, ne_eq, not_true_eq_false, if_false, bind, Except.bind, hu, hv, h2.symm, h5, hp, hq, h4.symm, Bool.not_true,
          Bool.false_eq_true]
        simp [pure, Except.pure]

/-- Comparing changes nothing in the two graphs but the stack depths of handlers: the same code, jumps, handlers, attributes
and blocks. -/
theorem C53_keeps (P : Platform) (key : Arg → κ) (eff : Instr → Bool → Py (Int × Int)) (a b x y : CFG) (r : Bool)
    (h : CFG.eq P key eff a b = .ok (r, x, y)) :
    (codeG x = codeG a ∧ handlersG x = handlersG a ∧ x.attrs = a.attrs ∧ x.argnames = a.argnames ∧ x.blocks = a.blocks) ∧
    (codeG y = codeG b ∧ handlersG y = handlersG b ∧ y.attrs = b.attrs ∧ y.argnames = b.argnames ∧ y.blocks = b.blocks) := by
  have same : ∀ {c c' : CFG}, DepthsOnly c c' →
      codeG c' = codeG c ∧ handlersG c' = handlersG c ∧ c'.attrs = c.attrs ∧ c'.argnames = c.argnames ∧ c'.blocks = c.blocks := by
    intro c c' hd
    exact ⟨codeG_only hd, handlersG_only hd, hd.attrs, hd.argnames, hd.blocks⟩
  have triv : ∀ {c : CFG}, codeG c = codeG c ∧ handlersG c = handlersG c ∧ c.attrs = c.attrs ∧ c.argnames = c.argnames ∧ c.blocks = c.blocks :=
    ⟨rfl, rfl, rfl, rfl, rfl⟩
  unfold CFG.eq at h
  split at h
  · cases h; exact ⟨triv, triv⟩
  · obtain ⟨u, hu, h⟩ := except_bind_ok h
    obtain ⟨v, hv, h⟩ := except_bind_ok h
    split at h
    · cases h; exact ⟨triv, triv⟩
    · split at h
      · cases h; exact ⟨triv, triv⟩
      · obtain ⟨p, hp, h⟩ := except_bind_ok h
        obtain ⟨q, hq, h⟩ := except_bind_ok h
        cases h
        exact ⟨same (computeStacksize_only hp), same (computeStacksize_only hq)⟩

/-! ### When block sizes agree -/

omit [DecidableEq κ]

theorem forall2_blocks {R : BElem → BElem → Prop} (f g : Nat → List BElem) : ∀ xs ys : List Nat, List.Forall₂ R (xs.flatMap f) (ys.flatMap g) →
    xs.map (fun x => (f x).length) = ys.map (fun y => (g y).length) → List.Forall₂ (fun x y => List.Forall₂ R (f x) (g y)) xs ys := by
  intro xs
  induction xs with
  | nil =>
    intro ys _ hl
    cases ys with
    | nil => exact .nil
    | cons y ys => cases hl
  | cons x xs ih =>
    intro ys h hl
    cases ys with
    | nil => cases hl
    | cons y ys =>
      simp only [List.map_cons, List.cons.injEq] at hl
      simp only [List.flatMap_cons] at h
      have h1 := List.forall₂_take (f x).length h
      have h2 := List.forall₂_drop (f x).length h
      rw [List.take_left, hl.1, List.take_left] at h1
      rw [List.drop_left, hl.1, List.drop_left] at h2
      exact .cons h1 (ih ys h2 hl.2)

theorem corr_isInstr {P : Platform} {key : Arg → κ} {a b : CFG} {x y : BElem} (h : CorrespondsG P key a b x y) : x.isInstr = y.isInstr := by
  cases x <;> cases y <;> first | rfl | cases h

theorem forall2_count {P : Platform} {key : Arg → κ} {a b : CFG} {x y : List BElem} (h : List.Forall₂ (CorrespondsG P key a b) x y) :
    instrCount x = instrCount y := by
  induction h with
  | nil => rfl
  | cons h _ ih =>
    unfold instrCount at ih ⊢
    rw [List.countP_cons, List.countP_cons, ih, corr_isInstr h]

theorem blockAt_eq {h1 h2 : Nat → Blk} : ∀ (xs ys : List Nat), xs.Nodup → ys.Nodup →
    List.Forall₂ (fun x y => instrCount (h1 x).elems = instrCount (h2 y).elems) xs ys → ∀ (n s t : Nat), xs[n]? = some s → ys[n]? = some t →
    blockAt h1 s xs = blockAt h2 t ys ∧ (blockAt h1 s xs).isSome := by
  intro xs
  induction xs with
  | nil => intro ys _ _ _ n s t h; simp at h
  | cons x xs ih =>
    intro ys nx ny h n s t hs ht
    cases h with
    | cons h0 h =>
      rename_i y ys
      rw [List.nodup_cons] at nx ny
      cases n with
      | zero =>
        simp only [List.getElem?_cons_zero, Option.some.injEq] at hs ht
        subst hs; subst ht
        simp [blockAt]
      | succ n =>
        simp only [List.getElem?_cons_succ] at hs ht
        have d1 : x ≠ s := fun e => nx.1 (e ▸ List.mem_of_getElem? hs)
        have d2 : y ≠ t := fun e => ny.1 (e ▸ List.mem_of_getElem? ht)
        obtain ⟨i1, i2⟩ := ih ys nx.2 ny.2 h n s t hs ht
        simp only [blockAt, if_neg d1, if_neg d2, i1, h0]
        rw [i1] at i2
        simp [i2]

theorem nodup_of_index {c : CFG} (h : IndexOK c) : c.blocks.Nodup := by
  rw [List.nodup_iff_getElem?_ne_getElem?]
  intro i j hij hj he
  have hb : c.blocks[j]? = some c.blocks[j] := List.getElem?_eq_getElem hj
  have h1 := h.1 j _ hb
  have h2 := h.1 i _ (he.trans hb)
  rw [h1] at h2
  simp only [Except.ok.injEq] at h2
  omega

/-- the resolved code of corresponding elements -/
theorem resolved_same {P : Platform} {key : Arg → κ} {a b : CFG} (hb : ∀ n s t, IsBlock a s n → IsBlock b t n →
    blockAt a.heap s a.blocks = blockAt b.heap t b.blocks ∧ (blockAt a.heap s a.blocks).isSome) {x y : List BElem}
    (hx : ∀ e ∈ x, NoLabE e) (hy : ∀ e ∈ y, NoLabE e) (nx : NamesOK P x) (ny : NamesOK P y)
    (h : List.Forall₂ (CorrespondsG P key a b) x y) :
    List.Forall₂ (SameItem P key) (resolved (fun _ => none) (fun s => blockAt a.heap s a.blocks) x)
      (resolved (fun _ => none) (fun s => blockAt b.heap s b.blocks) y) := by
  induction h with
  | nil => exact .nil
  | @cons u v x y h _ ih =>
    have ih := ih (fun e he => hx e (List.mem_cons_of_mem _ he)) (fun e he => hy e (List.mem_cons_of_mem _ he))
      (fun i hi => nx i (List.mem_cons_of_mem _ hi)) (fun i hi => ny i (List.mem_cons_of_mem _ hi))
    cases u with
    | label l => cases v <;> cases h
    | setLineno n =>
      cases v with
      | setLineno m => exact .cons h ih
      | _ => cases h
    | tryBegin t => cases v <;> first | exact ih | cases h
    | tryEnd t => cases v <;> first | exact ih | cases h
    | instr i =>
      cases v with
      | instr j =>
        refine .cons ?_ ih
        obtain ⟨h1, h2, h3⟩ := h
        have ho : i.opcode = j.opcode := by
          have e1 := nx i List.mem_cons_self
          have e2 := ny j List.mem_cons_self
          rw [h1, e2] at e1
          exact (Option.some.inj e1).symm
        rcases h3 with ⟨l, m, n, e1, e2, e3, e4⟩ | ⟨e1, e2, e3⟩
        · obtain ⟨k1, k2⟩ := hb n l m e3 e4
          obtain ⟨k, hk⟩ := Option.isSome_iff_exists.1 k2
          simp only [argRef, e1, e2, hk, k1 ▸ hk]
          exact ⟨h1, ho, h2, rfl⟩
        · have v1 : argRef (fun _ => none) (fun s => blockAt a.heap s a.blocks) i.arg = .value i.arg := by
            unfold argRef
            split
            · rename_i l hl; exact absurd hl (hx (.instr i) List.mem_cons_self l)
            · rename_i l hl; exact absurd ⟨l, hl⟩ e1
            · rfl
          have v2 : argRef (fun _ => none) (fun s => blockAt b.heap s b.blocks) j.arg = .value j.arg := by
            unfold argRef
            split
            · rename_i l hl; exact absurd hl (hy (.instr j) List.mem_cons_self l)
            · rename_i l hl; exact absurd ⟨l, hl⟩ e2
            · rfl
          simp only [v1, v2]
          exact ⟨h1, ho, h2, e3⟩
      | _ => cases h

/-- the handlers of corresponding elements -/
theorem guards_same {P : Platform} {key : Arg → κ} {a b : CFG} (hb : ∀ n s t, IsBlock a s n → IsBlock b t n →
    blockAt a.heap s a.blocks = blockAt b.heap t b.blocks ∧ (blockAt a.heap s a.blocks).isSome) {R : List (Nat × Nat)} (hR : Biject R)
    {x y : List BElem} (h : List.Forall₂ (CorrespondsG P key a b) x y) (hm : ∀ p ∈ markPairs x y, p ∈ R)
    {c d : Option (Nat × Nat × Bool)} (hcd : (c = none ∧ d = none) ∨ ∃ s s' t t' l n, c = some (s, t, l) ∧ d = some (s', t', l) ∧ (s, s') ∈ R ∧
      IsBlock a t n ∧ IsBlock b t' n) :
    (guardsG c x).map (Option.map (fun g => (blockAt a.heap g.1 a.blocks, g.2))) =
      (guardsG d y).map (Option.map (fun g => (blockAt b.heap g.1 b.blocks, g.2))) := by
  induction h generalizing c d with
  | nil => rfl
  | @cons u v x y h _ ih =>
    have hm' : ∀ p ∈ markPairs x y, p ∈ R := fun p hp => hm p (by simp [markPairs, hp])
    cases u with
    | label l => cases v <;> cases h
    | setLineno n =>
      cases v with
      | setLineno m => exact ih hm' hcd
      | _ => cases h
    | tryBegin t =>
      cases v with
      | tryBegin t' =>
        obtain ⟨h1, n, h2, h3⟩ := h
        refine ih hm' (.inr ⟨t.id, t'.id, t.target, t'.target, t.lasti, n, rfl, by rw [h1], hm _ ?_, h2, h3⟩)
        simp [markPairs, markPair, markerOf]
      | _ => cases h
    | tryEnd s =>
      cases v with
      | tryEnd s' =>
        have hp : (s, s') ∈ R := hm _ (by simp [markPairs, markPair, markerOf])
        simp only [guardsG]
        apply ih hm'
        rcases hcd with ⟨rfl, rfl⟩ | ⟨r, r', t, t', l, n, rfl, rfl, h1, h2, h3⟩
        · exact .inl ⟨by simp, by simp⟩
        · have := hR _ h1 _ hp
          simp only at this
          by_cases e : r = s
          · have e' := this.1 e
            subst e; subst e'
            exact .inl ⟨by simp, by simp⟩
          · have e' : r' ≠ s' := fun h => e (this.2 h)
            refine .inr ⟨r, r', t, t', l, n, ?_, ?_, h1, h2, h3⟩
            · rw [if_neg (by simpa using e)]
            · rw [if_neg (by simpa using e')]
      | _ => cases h
    | instr i =>
      cases v with
      | instr j =>
        simp only [guardsG, List.map_cons, List.cons.injEq]
        refine ⟨?_, ih hm' hcd⟩
        rcases hcd with ⟨rfl, rfl⟩ | ⟨r, r', t, t', l, n, rfl, rfl, h1, h2, h3⟩
        · rfl
        · simp only [Option.map_some, Option.some.injEq, Prod.mk.injEq, and_true]
          exact (hb n t t' h2 h3).1
      | _ => cases h

variable [DecidableEq κ]

/-- **C53 (partial), equal graphs are the same program.** If two graphs compare equal, their blocks have the same sizes and
nothing is hidden from the comparison, then they have the same attributes and argument names, the same instructions and line markers
in the same order, with equal operands and locations and jumps going to the same instruction, and each instruction is protected by
the same handler. -/
theorem C53_same_code_partial (P : Platform) (key : Arg → κ) (eff : Instr → Bool → Py (Int × Int)) (a b x y : CFG)
    (ha : ComparableG P a) (hb : ComparableG P b) (sa : AllShown P a) (sb : AllShown P b) (hs : SameSizes a b)
    (h : CFG.eq P key eff a b = .ok (true, x, y)) :
    a.attrs = b.attrs ∧ a.argnames = b.argnames ∧ List.Forall₂ (SameItem P key) (codeG a) (codeG b) ∧ handlersG a = handlersG b := by
  obtain ⟨u, hu, _⟩ := getInstructions_spec key ha
  obtain ⟨v, hv, _⟩ := getInstructions_spec key hb
  have hi := shown_eq_iff ha hb hu hv
  unfold CFG.eq at h
  split at h
  · simp only [pure, Except.pure, Except.ok.injEq, Prod.mk.injEq, Bool.false_eq_true, false_and] at h
  rename_i h1
  simp only [ne_eq, not_not] at h1
  rw [hu, hv] at h
  simp only [bind, Except.bind] at h
  split at h
  · simp only [pure, Except.pure, Except.ok.injEq, Prod.mk.injEq, Bool.false_eq_true, false_and] at h
  rename_i h2
  simp only [ne_eq, not_not] at h2
  split at h
  · simp only [pure, Except.pure, Except.ok.injEq, Prod.mk.injEq, Bool.false_eq_true, false_and] at h
  rename_i h3
  have h3 : a.attrs = b.attrs := (attrs_same_iff _ _).1 (by simpa using h3)
  have hse := hi.1 h2
  have ea : shown P a = allCode a := by
    unfold shown allCode
    rw [List.flatMap_def, List.flatMap_def]
    congr 1
    exact List.map_congr_left (fun k hk => sa k hk)
  have eb : shown P b = allCode b := by
    unfold shown allCode
    rw [List.flatMap_def, List.flatMap_def]
    congr 1
    exact List.map_congr_left (fun k hk => sb k hk)
  have hf : List.Forall₂ (CorrespondsG P key a b) (allCode a) (allCode b) := by
    rw [← ea, ← eb]
    exact (forall2_index _ _).2 ⟨hse.length, hse.elems⟩
  have hbl : ∀ n s t, IsBlock a s n → IsBlock b t n → blockAt a.heap s a.blocks = blockAt b.heap t b.blocks ∧ (blockAt a.heap s a.blocks).isSome := by
    refine blockAt_eq a.blocks b.blocks (nodup_of_index ha.index) (nodup_of_index hb.index) ?_
    have := forall2_blocks (fun k => (a.heap k).elems) (fun k => (b.heap k).elems) a.blocks b.blocks hf hs
    exact this.imp (fun _ _ hh => forall2_count hh)
  refine ⟨h3, h1, ?_, ?_⟩
  · unfold codeG
    rw [← ea, ← eb] at hf ⊢
    exact resolved_same hbl (shown_noLab ha) (shown_noLab hb) ha.names hb.names hf
  · unfold handlersG
    refine guards_same hbl (R := markPairs (allCode a) (allCode b)) ?_ hf (fun _ h => h) (.inl ⟨rfl, rfl⟩)
    rw [← ea, ← eb]
    rintro ⟨s, s'⟩ hp ⟨t, t'⟩ hq
    obtain ⟨j, hs, hs'⟩ := (markPairs_mem _ _ s s').1 hp
    obtain ⟨k, ht, ht'⟩ := (markPairs_mem _ _ t t').1 hq
    exact hse.pairing j k s t s' t' hs ht hs' ht'

end Verif
