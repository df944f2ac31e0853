import Verif.Proofs.CfgTo
/-
`from_bytecode` and `to_bytecode`: the results as a whole.
-/
namespace Verif
open Spec

/-- What an element is, its argument aside. -/
def shapeOf : BElem → Option (String × Nat)
  | .instr i => some (i.name, i.opcode)
  | _ => none

theorem toBlock_shape {labels : Nat → Option Nat} {e e' : BElem} (h : toBlockElem labels e = .ok e') : shapeOf e' = shapeOf e := by
  unfold toBlockElem at h
  repeat' split at h
  all_goals first
    | (cases h; done)
    | (simp only [Except.ok.injEq] at h; subst h; rfl)

theorem mapM_shape {labels : Nat → Option Nat} : ∀ {es es' : List BElem}, es.mapM (toBlockElem labels) = .ok es' →
    es'.map shapeOf = es.map shapeOf := by
  intro es
  induction es with
  | nil =>
    intro es' h
    simp only [List.mapM_nil, pure, Except.pure, Except.ok.injEq] at h
    subst h; rfl
  | cons x r ih =>
    intro es' h
    rw [List.mapM_cons] at h
    obtain ⟨y, hy, h⟩ := except_bind_ok h
    obtain ⟨ys, hys, h⟩ := except_bind_ok h
    simp only [pure, Except.pure, Except.ok.injEq] at h
    subst h
    rw [List.map_cons, List.map_cons, ih hys, toBlock_shape hy]

theorem shape_instr {e : BElem} {n : String} {o : Nat} (h : shapeOf e = some (n, o)) : ∃ i, e = .instr i ∧ i.name = n ∧ i.opcode = o := by
  cases e with
  | instr i => simp only [shapeOf, Option.some.injEq, Prod.mk.injEq] at h; exact ⟨i, rfl, h.1, h.2⟩
  | _ => cases h

theorem instrCount_shape {a b : List BElem} (h : a.map shapeOf = b.map shapeOf) : instrCount a = instrCount b := by
  have : ∀ l : List BElem, instrCount l = (l.map shapeOf).countP Option.isSome := by
    intro l
    unfold instrCount
    rw [List.countP_map]
    congr 1
    funext x
    cases x <;> rfl
  rw [this, this, h]

theorem onlyLast_shape {P : Platform} {a b : List BElem} (h : a.map shapeOf = b.map shapeOf) (hb : OnlyLastJumps P b) : OnlyLastJumps P a := by
  intro x i y hxy hs
  rw [hxy, List.map_append, List.map_cons] at h
  obtain ⟨x', z, hb', hx, hz⟩ := List.map_eq_append_iff.1 h.symm
  obtain ⟨j', y', rfl, hj, hy⟩ := List.map_eq_cons_iff.1 hz
  obtain ⟨j, rfl, h1, h2⟩ := shape_instr (n := i.name) (o := i.opcode) hj
  rw [← instrCount_shape hy]
  exact hb x' j y' hb' (by rw [h1, h2]; exact hs)

theorem lastInstr_shape {a b : List BElem} (h : a.map shapeOf = b.map shapeOf) {j : Instr} (hb : lastInstr b = some j) :
    ∃ i, lastInstr a = some i ∧ i.name = j.name ∧ i.opcode = j.opcode := by
  obtain ⟨x, y, rfl, hy⟩ := lastInstr_some hb
  rw [List.map_append, List.map_cons] at h
  obtain ⟨x', z, rfl, hx, hz⟩ := List.map_eq_append_iff.1 h
  obtain ⟨j', y', rfl, hj, hy'⟩ := List.map_eq_cons_iff.1 hz
  obtain ⟨i, rfl, h1, h2⟩ := shape_instr (n := j.name) (o := j.opcode) hj
  exact ⟨i, lastInstr_append_instr _ _ _ (by rw [instrCount_shape hy', hy]), h1, h2⟩

/-- No element refers to a block. -/
def NoBlockArgs (es : List BElem) : Prop := ∀ i, BElem.instr i ∈ es → ∀ b, i.arg ≠ .block b

/-- Replacing labels block by block. -/
theorem blocks_mapM {labels lab blk : Nat → Option Nat} : ∀ {bs bs' : List Blk},
    (bs.mapM (fun b => do
      let es ← b.elems.mapM (toBlockElem labels)
      return (⟨es, b.next⟩ : Blk)) : Py (List Blk)) = .ok bs' →
    (∀ i, BElem.instr i ∈ bs.flatMap (·.elems) → ∀ b, i.arg ≠ .block b) →
    (∀ i, BElem.instr i ∈ bs.flatMap (·.elems) → ∀ l k, i.arg = .label l → labels l = some k → blk k = lab l) →
    resolved (fun _ => none) blk (bs'.flatMap (·.elems)) = resolved lab (fun _ => none) (bs.flatMap (·.elems)) := by
  intro bs
  induction bs with
  | nil =>
    intro bs' h _ _
    simp only [List.mapM_nil, pure, Except.pure, Except.ok.injEq] at h
    subst h; rfl
  | cons x r ih =>
    intro bs' h hn hl
    rw [List.mapM_cons] at h
    obtain ⟨y, hy, h⟩ := except_bind_ok h
    obtain ⟨ys, hys, h⟩ := except_bind_ok h
    simp only [pure, Except.pure, Except.ok.injEq] at h
    subst h
    obtain ⟨es, hes, hy⟩ := except_bind_ok hy
    simp only [pure, Except.pure, Except.ok.injEq] at hy
    subst hy
    rw [List.flatMap_cons, List.flatMap_cons, resolved_append, resolved_append,
      ih hys (fun i hi => hn i (by rw [List.flatMap_cons, List.mem_append]; exact .inr hi))
        (fun i hi => hl i (by rw [List.flatMap_cons, List.mem_append]; exact .inr hi))]
    rw [(toBlock_resolved hes (fun i hi => hn i (by rw [List.flatMap_cons, List.mem_append]; exact .inl hi))
      (fun i hi => hl i (by rw [List.flatMap_cons, List.mem_append]; exact .inl hi))).1]

theorem blocks_shape {labels : Nat → Option Nat} : ∀ {bs bs' : List Blk},
    (bs.mapM (fun b => do
      let es ← b.elems.mapM (toBlockElem labels)
      return (⟨es, b.next⟩ : Blk)) : Py (List Blk)) = .ok bs' →
    bs'.map (fun b => (b.elems.map shapeOf, b.next)) = bs.map (fun b => (b.elems.map shapeOf, b.next)) := by
  intro bs
  induction bs with
  | nil =>
    intro bs' h
    simp only [List.mapM_nil, pure, Except.pure, Except.ok.injEq] at h
    subst h; rfl
  | cons x r ih =>
    intro bs' h
    rw [List.mapM_cons] at h
    obtain ⟨y, hy, h⟩ := except_bind_ok h
    obtain ⟨ys, hys, h⟩ := except_bind_ok h
    simp only [pure, Except.pure, Except.ok.injEq] at h
    subst h
    obtain ⟨es, hes, hy⟩ := except_bind_ok hy
    simp only [pure, Except.pure, Except.ok.injEq] at hy
    subst hy
    rw [List.map_cons, List.map_cons, ih hys, mapM_shape hes]

/-- What is known of a block of the result. -/
structure BlkOK (P : Platform) (len k : Nat) (b : Blk) : Prop where
  only : OnlyLastJumps P b.elems
  notLast : k + 1 < len → ∃ i, lastInstr b.elems = some i ∧ b.next = (if isFinal i.name then none else some (k + 1))
  last : k + 1 = len → b.next = none

theorem codeBlk_ok {P : Platform} {len k : Nat} {b b' : Blk} (h : codeBlk b' = codeBlk b) (hb : BlkOK P len k b) : BlkOK P len k b' := by
  have h1 : codeOf b'.elems = codeOf b.elems := congrArg Blk.elems h
  have h2 : b'.next = b.next := by have := congrArg Blk.next h; exact this
  have h3 : lastInstr b'.elems = lastInstr b.elems := by rw [← lastInstr_codeOf, h1, lastInstr_codeOf]
  refine ⟨?_, ?_, ?_⟩
  · rw [← onlyLast_codeOf, h1, onlyLast_codeOf]; exact hb.only
  · rw [h3, h2]; exact hb.notLast
  · rw [h2]; exact hb.last

theorem getElem?_of_map_eq {α β : Type} {f : α → β} {l l' : List α} (h : l'.map f = l.map f) {k : Nat} {a : α} (ha : l'[k]? = some a) :
    ∃ b, l[k]? = some b ∧ f a = f b := by
  have h1 : (l'.map f)[k]? = some (f a) := by rw [List.getElem?_map, ha]; rfl
  rw [h, List.getElem?_map] at h1
  cases hb : l[k]? with
  | none => rw [hb] at h1; cases h1
  | some b => rw [hb] at h1; simp only [Option.map_some, Option.some.injEq] at h1; exact ⟨b, rfl, h1.symm⟩

/-- No element of the code is referred to by a label any more. -/
theorem mapM_noLabel {labels : Nat → Option Nat} {es es' : List BElem} (h : es.mapM (toBlockElem labels) = .ok es') :
    ∀ i, BElem.instr i ∈ es' → ∀ l, i.arg ≠ .label l := by
  intro i hi l hl
  obtain ⟨e, he, hf⟩ := (mapM_ok_mem h).1 _ hi
  unfold toBlockElem at hf
  repeat' split at hf
  all_goals first
    | (cases hf; done)
    | (simp only [Except.ok.injEq] at hf; cases hf)
  · cases hl
  · rename_i hn; exact hn l hl
  · rename_i hn _; exact hn i rfl

theorem from_main {P : Platform} {bc : Bytecode} {c : CFG} (hnb : NoBlockArgs bc.elems) (h : fromBytecode P bc = .ok c) :
    ∃ bs, c = CFG.ofBlocks bc.attrs bc.argnames bs ∧ codeG c = codeB bc ∧ 0 < bs.length ∧
      (∀ k b, bs[k]? = some b → BlkOK P bs.length k b) ∧
      (∀ b ∈ bs, ∀ i, BElem.instr i ∈ b.elems → ∀ l, i.arg ≠ .label l) := by
  unfold fromBytecode at h
  obtain ⟨_, _, h⟩ := except_bind_ok h
  obtain ⟨starts, hst, h⟩ := except_bind_ok h
  obtain ⟨s, hs, h⟩ := except_bind_ok h
  obtain ⟨bs1, h1, h⟩ := except_bind_ok h
  obtain ⟨bs, h2, h⟩ := except_bind_ok h
  simp only [pure, Except.pure, Except.ok.injEq] at h
  obtain ⟨st1, st2⟩ := blockStarts_ok hst
  have hst' : ∀ p ∈ starts, ∃ l, bc.elems[p]? = some (.label l) := fun p hp => by
    obtain ⟨l, hl⟩ := st1 p hp
    exact ⟨l, (labelIndex_some hl).1⟩
  have inv := fromLoop_ok hst' bc.elems [] _ s (fInv_init P bc.elems starts) rfl hs
  have hc1 := applyEnds_code _ h1
  have hfl : flatCode bs1 = codeOf bc.elems := by
    rw [flatCode_map _ _ hc1, flatCode_append, ← inv.code]
    simp [flatCode, codeBlk]
  have hlen1 : bs1.length = s.done.length + 1 := by
    have := congrArg List.length hc1
    simpa using this
  have hsh := blocks_shape h2
  have hlen2 : bs.length = bs1.length := by
    have := congrArg List.length hsh
    simpa using this
  have hshape : ∀ k b, bs[k]? = some b → BlkOK P bs.length k b := by
    intro k b hb
    obtain ⟨b1, hb1, hf⟩ := getElem?_of_map_eq hsh hb
    obtain ⟨b0, hb0, hf0⟩ := getElem?_of_map_eq hc1 hb1
    simp only [Prod.mk.injEq] at hf
    have ok1 : BlkOK P bs.length k b1 := by
      refine codeBlk_ok hf0 ?_
      rw [List.getElem?_append] at hb0
      split at hb0
      · rename_i hk
        obtain ⟨g1, i, g2, g3⟩ := inv.shape k b0 hb0
        exact ⟨g1, fun _ => ⟨i, g2, g3⟩, fun h => by omega⟩
      · rw [List.getElem?_singleton] at hb0
        split at hb0
        · simp only [Option.some.injEq] at hb0
          subst hb0
          exact ⟨inv.cur, fun h => by omega, fun _ => inv.next⟩
        · cases hb0
    refine ⟨onlyLast_shape hf.1 ok1.only, ?_, ?_⟩
    · intro hk
      obtain ⟨j, hj, hn⟩ := ok1.notLast hk
      obtain ⟨i, hi, hi1, hi2⟩ := lastInstr_shape hf.1 hj
      exact ⟨i, hi, by rw [hf.2, hn, hi1]⟩
    · intro hk; rw [hf.2]; exact ok1.last hk
  refine ⟨bs, h.symm, ?_, by omega, hshape, ?_⟩
  · -- the code
    have hmem : ∀ i, BElem.instr i ∈ bs1.flatMap (·.elems) → BElem.instr i ∈ bc.elems := by
      intro i hi
      have : BElem.instr i ∈ flatCode bs1 := by
        obtain ⟨b, hb, hib⟩ := List.mem_flatMap.1 hi
        exact List.mem_flatMap.2 ⟨b, hb, List.mem_filter.2 ⟨hib, rfl⟩⟩
      rw [hfl] at this
      exact (List.mem_filter.1 this).1
    have hic : ∀ k, instrCount ((bs.take k).flatMap (·.elems)) = instrCount ((bs1.take k).flatMap (·.elems)) := by
      intro k
      have e : ∀ l : List Blk, instrCount (l.flatMap (·.elems)) = ((l.map (fun b => (b.elems.map shapeOf, b.next))).map
          (fun p => p.1.countP Option.isSome)).sum := by
        intro l
        unfold instrCount
        rw [List.countP_flatMap, List.map_map]
        congr 1
        apply List.map_congr_left
        intro b _
        simp only [Function.comp, List.countP_map]
        congr 1
        funext x
        cases x <;> rfl
      rw [e, e]; simp only [List.map_take, hsh]
    have hic0 : ∀ l : List Blk, instrCount (flatCode l) = instrCount (l.flatMap (·.elems)) := by
      intro l
      induction l with
      | nil => rfl
      | cons x r ih =>
        have : flatCode (x :: r) = codeOf x.elems ++ flatCode r := rfl
        rw [this, List.flatMap_cons, instrCount_append, instrCount_append, ih, instrCount_codeOf]
    have key : resolved (fun _ => none) (fun b => blockAt c.heap b c.blocks) (bs.flatMap (·.elems)) =
        resolved (fun l => labelAt l bc.elems) (fun _ => none) (bs1.flatMap (·.elems)) := by
      refine blocks_mapM h2 (fun i hi => hnb i (hmem i hi)) ?_
      intro i hi l k hl hk
      obtain ⟨p, hp, hpl, hkl, hcnt⟩ := inv.lab l k hk
      obtain ⟨l', hl'⟩ := st1 p hp
      obtain ⟨hq1, hq2⟩ := labelIndex_some hl'
      rw [hpl] at hq1
      simp only [Option.some.injEq, BElem.label.injEq] at hq1
      subst hq1
      rw [hq2, ← hcnt, ← h]
      show blockAt (fun b => bs[b]?.getD ⟨[], none⟩) k (List.range bs.length) = _
      rw [blockAt_ofBlocks bs k (by omega), hic k, ← hic0]
      congr 2
      refine flatCode_map _ _ ?_
      have := congrArg (List.take k) hc1
      rw [← List.map_take, ← List.map_take, List.take_append_of_le_length hkl] at this
      exact this
    show resolved (fun _ => none) (fun b => blockAt c.heap b c.blocks) (allCode c) = _
    rw [show allCode c = bs.flatMap (·.elems) by rw [← h]; exact allCode_ofBlocks _ _ _, key, ← resolved_flatCode, hfl, resolved_codeOf]
    rfl
  · intro b hb i hi
    obtain ⟨b1, _, hf⟩ := (mapM_ok_mem h2).1 b hb
    obtain ⟨es, hes, hf⟩ := except_bind_ok hf
    simp only [pure, Except.pure, Except.ok.injEq] at hf
    rw [← hf] at hi
    exact mapM_noLabel hes i hi

theorem to_main {P : Platform} {c : CFG} {bc : Bytecode} (hnd : c.blocks.Nodup)
    (hnl : ∀ b ∈ c.blocks, ∀ i, BElem.instr i ∈ (c.heap b).elems → ∀ l, i.arg ≠ .label l) (h : c.toBytecode P = .ok bc) :
    codeB bc = codeG c ∧ bc.attrs = c.attrs ∧ bc.argnames = c.argnames := by
  unfold CFG.toBytecode at h
  obtain ⟨used, hu, h⟩ := except_bind_ok h
  obtain ⟨s, hs, h⟩ := except_bind_ok h
  obtain ⟨es, hes, h⟩ := except_bind_ok h
  simp only [pure, Except.pure, Except.ok.injEq] at h
  have hinit : TInv ⟨[], fun _ => none, [], none, none⟩ [] := ⟨rfl, fun t b p hp => by cases hp⟩
  have inv := toLoop_ok c.blocks hinit hs
  rw [List.nil_append] at inv
  have hno : ∀ k ∈ c.blocks, ∀ l, BElem.label l ∉ (c.heap k).elems := fun k hk => blkIter_noLabel (usedBlocks_iter hu k hk)
  have hres : ∀ f g, resolved f g s.out = resolved f g (allCode c) := by
    intro f g
    rw [← resolved_skel f g s.out, inv.skel]
    unfold allCode
    generalize c.blocks = bs
    induction bs with
    | nil => rfl
    | cons b r ih =>
      have e : skelOf c.heap used (b :: r) = ((if b ∈ used then [BElem.label b] else []) ++ skel (c.heap b).elems) ++ skelOf c.heap used r := rfl
      rw [e, List.flatMap_cons, resolved_append, resolved_append, resolved_append, ih, resolved_skel]
      split <;> rfl
  have hmem : ∀ i, BElem.instr i ∈ s.out → BElem.instr i ∈ allCode c := by
    intro i hi
    have h1 : BElem.instr i ∈ skel s.out := List.mem_filter.2 ⟨hi, rfl⟩
    rw [inv.skel] at h1
    obtain ⟨b, hb, h1⟩ := List.mem_flatMap.1 h1
    refine List.mem_flatMap.2 ⟨b, hb, ?_⟩
    rw [List.mem_append] at h1
    rcases h1 with h1 | h1
    · split at h1 <;> simp at h1
    · exact (List.mem_filter.1 h1).1
  have hlab : ∀ b, b ∈ used → labelAt b s.out = blockAt c.heap b c.blocks := by
    intro b hb
    rw [← labelAt_skel, inv.skel]
    exact labelAt_skelOf hb hnd hno
  subst h
  refine ⟨?_, rfl, rfl⟩
  have := toLabel_resolved (lab := fun l => labelAt l s.out) (blk := fun b => blockAt c.heap b c.blocks) hes
    (fun i hi => by
      obtain ⟨b, hb, hib⟩ := List.mem_flatMap.1 (hmem i hi)
      exact hnl b hb i hib)
    (fun b hb => hlab b (of_decide_eq_true (List.mem_filter.1 hb).2))
  show resolved (fun l => labelAt l es) (fun _ => none) es = _
  have e : (fun l => labelAt l es) = (fun l => labelAt l s.out) := funext this.2.1
  rw [e, this.1, hres]
  rfl

/-! ### No label is copied -/

def NoLab (es : List BElem) : Prop := ∀ l, BElem.label l ∉ es

structure NoLabSt (s : FromSt) : Prop where
  done : ∀ b ∈ s.done, NoLab b.elems
  cur : NoLab s.cur.elems

theorem noLab_append {a b : List BElem} (ha : NoLab a) (hb : NoLab b) : NoLab (a ++ b) := by
  intro l h
  rcases List.mem_append.1 h with h | h
  · exact ha l h
  · exact hb l h

theorem NoLabSt.push {s : FromSt} {e : BElem} (h : NoLabSt s) (he : NoLab [e]) : NoLabSt (s.push e) :=
  ⟨h.done, noLab_append h.cur he⟩

theorem NoLabSt.pushOld {s : FromSt} {e : BElem} (h : NoLabSt s) (he : NoLab [e]) : NoLabSt (s.pushOld e) := by
  refine ⟨?_, h.cur⟩
  intro b hb
  unfold FromSt.pushOld at hb
  simp only at hb
  split at hb
  · rename_i b0 hb0
    obtain ⟨ys, hys⟩ := List.getLast?_eq_some_iff.1 hb0
    rw [hys] at hb
    simp only [List.dropLast_concat, List.mem_append, List.mem_singleton] at hb
    rcases hb with hb | rfl
    · exact h.done b (by rw [hys]; simp [hb])
    · exact noLab_append (h.done b0 (by rw [hys]; simp)) he
  · exact h.done b hb

theorem NoLabSt.open_ {s : FromSt} (c : Bool) (h : NoLabSt s) : NoLabSt (s.open_ c) := by
  refine ⟨?_, fun l hl => by cases hl⟩
  intro b hb
  simp only [FromSt.open_, List.mem_append, List.mem_singleton] at hb
  rcases hb with hb | rfl
  · exact h.done b hb
  · exact h.cur

theorem NoLabSt.of {s s' : FromSt} (h : NoLabSt s) (h1 : s'.done = s.done) (h2 : s'.cur = s.cur) : NoLabSt s' :=
  ⟨by rw [h1]; exact h.done, by rw [h2]; exact h.cur⟩

theorem noLab_end (id : Nat) : NoLab [.tryEnd id] := by intro l h; simp at h
theorem noLab_begin (t : TryB) : NoLab [.tryBegin t] := by intro l h; simp at h
theorem noLab_line (t : Nat) : NoLab [.setLineno t] := by intro l h; simp at h
theorem noLab_instr (t : Instr) : NoLab [.instr t] := by intro l h; simp at h

theorem NoLabSt.copyElem {s s' : FromSt} {e : BElem} (h : NoLabSt s) (hr : s.copyElem e = .ok s') : NoLabSt s' := by
  cases e with
  | label l =>
    simp only [FromSt.copyElem, Except.ok.injEq] at hr
    subst hr; exact h.of rfl rfl
  | setLineno l =>
    simp only [FromSt.copyElem, Except.ok.injEq] at hr
    subst hr; exact (h.push (noLab_line l)).of rfl rfl
  | instr l =>
    simp only [FromSt.copyElem, Except.ok.injEq] at hr
    subst hr; exact (h.push (noLab_instr l)).of rfl rfl
  | tryBegin l =>
    simp only [FromSt.copyElem] at hr
    split at hr
    · cases hr
    · simp only [Except.ok.injEq] at hr
      subst hr; exact (h.push (noLab_begin { l with id := s.ids })).of rfl rfl
  | tryEnd id =>
    simp only [FromSt.copyElem] at hr
    split at hr
    · cases hr
    · rename_i nid _
      simp only [Except.ok.injEq] at hr
      subst hr; exact (h.push (noLab_end nid)).of rfl rfl

theorem NoLabSt.leave {P : Platform} {es : List BElem} {s s' : FromSt} {i : Instr} {t : TryB} {nid : Nat} (h : NoLabSt s)
    (hr : s.leave P es i t nid = .ok s') : NoLabSt s' := by
  unfold FromSt.leave at hr
  repeat' split at hr
  all_goals first
    | (cases hr; done)
    | (simp only [Except.ok.injEq] at hr; subst hr; exact h.of rfl rfl)

theorem NoLabSt.bridge {P : Platform} {es : List BElem} {s s' : FromSt} {temp : Bool} {i : Instr} {e : BElem} {d : Bool} (hn : NoLabSt s)
    (h : s.bridge P es temp i e = .ok (s', d)) : NoLabSt s' := by
  unfold FromSt.bridge at h
  split at h
  · cases h
  · split at h
    · simp only [Except.ok.injEq, Prod.mk.injEq] at h
      obtain ⟨rfl, rfl⟩ := h
      exact (hn.pushOld (noLab_end _)).of rfl rfl
    · cases h
  · split at h
    · cases h
    · obtain ⟨s1, h1, h⟩ := except_bind_ok h
      have hn := hn.leave h1
      split at h
      · simp only [pure, Except.pure, Except.ok.injEq, Prod.mk.injEq] at h
        obtain ⟨rfl, rfl⟩ := h
        exact ((hn.pushOld (noLab_end _)).push (noLab_begin _)).of rfl rfl
      · simp only [pure, Except.pure, Except.ok.injEq, Prod.mk.injEq] at h
        obtain ⟨rfl, rfl⟩ := h
        exact hn
  · simp only [Except.ok.injEq, Prod.mk.injEq] at h
    obtain ⟨rfl, rfl⟩ := h
    exact hn

theorem NoLabSt.enter {P : Platform} {s s' : FromSt} {k : Nat} {st : Bool} {e : BElem} {o : Bool} (h : NoLabSt s)
    (hr : s.enter P k st e = .ok (s', o)) : NoLabSt s' := by
  unfold FromSt.enter at hr
  split at hr
  · dsimp only at hr
    repeat' split at hr
    all_goals
      simp only [Except.ok.injEq, Prod.mk.injEq] at hr
      obtain ⟨rfl, rfl⟩ := hr
      first
        | exact h
        | exact h.of rfl rfl
        | exact h.open_ _
        | exact (h.open_ _).of rfl rfl
  · repeat' split at hr
    all_goals first
      | (cases hr; done)
      | (simp only [Except.ok.injEq, Prod.mk.injEq] at hr; obtain ⟨rfl, rfl⟩ := hr; exact h.open_ _)
      | (simp only [Except.ok.injEq, Prod.mk.injEq] at hr; obtain ⟨rfl, rfl⟩ := hr; exact h)

theorem NoLabSt.step {P : Platform} {es : List BElem} {starts : List Nat} {s s' : FromSt} {k : Nat} {e : BElem} (h : NoLabSt s)
    (hr : s.step P es starts k e = .ok s') : NoLabSt s' := by
  unfold FromSt.step at hr
  obtain ⟨⟨s1, o⟩, h1, hr⟩ := except_bind_ok hr
  have h := h.enter h1
  simp only at hr
  split at hr
  · have h : NoLabSt { s1 with inserted := false } := h.of rfl rfl
    split at hr
    · obtain ⟨⟨s2, d⟩, h2, hr⟩ := except_bind_ok hr
      have h := h.bridge h2
      simp only at hr
      split at hr
      · simp only [pure, Except.pure, Except.ok.injEq] at hr
        subst hr; exact h
      · exact h.copyElem hr
    · exact h.copyElem hr
  · exact h.copyElem hr

theorem NoLabSt.loop {P : Platform} {es : List BElem} {starts : List Nat} (r : List BElem) : ∀ {s s' : FromSt} {k : Nat}, NoLabSt s →
    fromLoop P es starts k s r = .ok s' → NoLabSt s' := by
  induction r with
  | nil =>
    intro s s' k h hr
    simp only [fromLoop, Except.ok.injEq] at hr
    subst hr; exact h
  | cons e r ih =>
    intro s s' k h hr
    unfold fromLoop at hr
    obtain ⟨s1, h1, hr⟩ := except_bind_ok hr
    exact ih (h.step h1) hr

theorem insertEnds_noLab (ids : List Nat) : ∀ (ex : List Nat) {es : List BElem}, NoLab es → NoLab (insertEnds ex es ids) := by
  induction ids with
  | nil => intro ex es h; exact h
  | cons i r ih =>
    intro ex es h
    unfold insertEnds
    split
    · exact ih _ h
    · exact ih _ (noLab_append (a := [.tryEnd i]) (noLab_end i) h)

theorem applyEnds_noLab {labels : Nat → Option Nat} (ends : List (Nat × List Nat)) : ∀ {bs bs' : List Blk},
    applyEnds labels bs ends = .ok bs' → (∀ b ∈ bs, NoLab b.elems) → ∀ b ∈ bs', NoLab b.elems := by
  induction ends with
  | nil => intro bs bs' h hb; simp only [applyEnds, Except.ok.injEq] at h; subst h; exact hb
  | cons x r ih =>
    intro bs bs' h hb
    obtain ⟨l, ids⟩ := x
    unfold applyEnds at h
    split at h
    · cases h
    · refine ih h ?_
      split
      · rename_i b0 hb0
        intro b hm
        rcases List.mem_or_eq_of_mem_set hm with hm | rfl
        · exact hb b hm
        · exact insertEnds_noLab _ _ (hb b0 (List.mem_of_getElem? hb0))
      · exact hb

theorem from_noLabelElem {P : Platform} {bc : Bytecode} {c : CFG} (h : fromBytecode P bc = .ok c) :
    ∀ b ∈ c.blocks, ∀ l, BElem.label l ∉ (c.heap b).elems := by
  unfold fromBytecode at h
  obtain ⟨_, _, h⟩ := except_bind_ok h
  obtain ⟨starts, hst, h⟩ := except_bind_ok h
  obtain ⟨s, hs, h⟩ := except_bind_ok h
  obtain ⟨bs1, h1, h⟩ := except_bind_ok h
  obtain ⟨bs, h2, h⟩ := except_bind_ok h
  simp only [pure, Except.pure, Except.ok.injEq] at h
  have i0 : NoLabSt ⟨[], ⟨[], none⟩, fun _ => none, fun _ => none, [], none, false, none, 0⟩ :=
    ⟨(fun b hb => by cases hb), (fun l hl => by cases hl)⟩
  have i1 := i0.loop _ hs
  have i2 := applyEnds_noLab _ h1 (by
    intro b hb
    rcases List.mem_append.1 hb with hb | hb
    · exact i1.done b hb
    · rw [List.mem_singleton] at hb; subst hb; exact i1.cur)
  subst h
  intro b hb l hl
  have hb' : b < bs.length := List.mem_range.1 hb
  have hl' : BElem.label l ∈ ((bs[b]?).getD ⟨[], none⟩).elems := hl
  rw [List.getElem?_eq_getElem hb'] at hl'
  obtain ⟨b1, hb1, hf⟩ := (mapM_ok_mem h2).1 _ (List.getElem_mem hb')
  obtain ⟨es, hes, hf⟩ := except_bind_ok hf
  simp only [pure, Except.pure, Except.ok.injEq] at hf
  simp only [Option.getD_some, ← hf] at hl'
  obtain ⟨e, he, hf⟩ := (mapM_ok_mem hes).1 _ hl'
  unfold toBlockElem at hf
  repeat' split at hf
  all_goals first
    | (cases hf; done)
    | (simp only [Except.ok.injEq] at hf; subst hf; exact i2 b1 hb1 l he)
    | (simp only [Except.ok.injEq] at hf; cases hf; done)

/-- `_check_arg` accepts a block exactly where it accepts a label. -/
theorem checkArg_block (P : Platform) (n : String) (op l b : Nat) : Instr.checkArg P n op (.block b) = Instr.checkArg P n op (.label l) := by
  unfold Instr.checkArg
  simp [Arg.isCellOrFree, Arg.isStr, Arg.isFlagName, Arg.isFlag2Name, Arg.isVarPair, checkArgInt', Arg.asInt]

end Verif
